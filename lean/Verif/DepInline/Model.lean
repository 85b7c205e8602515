import Mathlib.Data.List.Basic
import Mathlib.Tactic.SplitIfs

/-!
# Model of the inliner for dependence analysis

Models lib/Transform/IR/DependenceInliner.cpp.

Simplifications.
* Loops which are suitable for analysis and their dependences are given as a list of requests: a location of a cause of
  a dependence or a call which accesses unknown memory (DependenceInliner.cpp:290-345).
* An order of iteration over `DenseSet` is arbitrary: it is a list without any other properties.
* `CallGraph` and `LegacyInlinerBase` are external. Calls which appear in a body after inlining are not reconsidered by
  the model of the inliner.
-/

namespace Tsar.DepInline

/-- A function (`llvm::Function *`), functions are numbered. -/
abbrev Fn := Nat

/-- A call instruction: an identity, a debug location, a callee (if it is known). -/
structure Call where
  id : Nat
  loc : Option Nat
  callee : Option Fn
  deriving DecidableEq, Repr

/-- A module: calls of a function (edges of a call graph which have an instruction), is it a declaration. -/
structure Mod where
  calls : Fn → List Call
  decl : Fn → Bool

/-- A cause of a dependence: a location (DependenceInliner.cpp:256-283) or a call (317-345). -/
inductive Request
  | loc (d : Option Nat)
  | call (c : Call)
  deriving DecidableEq, Repr

/-- Marked calls and a set `ToInline`. -/
structure St where
  marked : List Call
  fns : List Fn
  deriving DecidableEq, Repr

/-- `ToInline.insert()` -/
def insert (f : Fn) (l : List Fn) : List Fn := if f ∈ l then l else f :: l

/-- Marks a call and remembers its callee (DependenceInliner.cpp:265-272, 322-329). -/
def mark (c : Call) (s : St) : St :=
  if c ∈ s.marked then s
  else ⟨c :: s.marked, match c.callee with
    | none => s.fns
    | some g => insert g s.fns⟩

/-- `Calls.find()` (DependenceInliner.cpp:240-253, 262): the first call with a location. -/
def findCall (cs : List Call) (d : Nat) : Option Call := cs.find? (fun c => c.loc = some d)

/-- Processing of a cause of a dependence. -/
def request (cs : List Call) (s : St) : Request → St
  | .loc none => s
  | .loc (some d) =>
    match findCall cs d with
    | none => s
    | some c => mark c s
  | .call c => mark c s

/-- Processing of a function (DependenceInliner.cpp:235-347). -/
def function (m : Mod) (s : St) (f : Fn) (rs : List Request) : St :=
  if m.decl f then s else rs.foldl (request (m.calls f)) s

/-- Processing of all functions. -/
def functions (m : Mod) (s : St) (fs : List (Fn × List Request)) : St := fs.foldl (fun s f => function m s f.1 f.2) s

/-- Callees of a function which are not in a set are added to the set and to the worklist
(DependenceInliner.cpp:356-364). -/
def push : List Call → List Fn → List Fn → List Fn × List Fn
  | [], w, s => (w, s)
  | c :: cs, w, s =>
    match c.callee with
    | none => push cs w s
    | some g => if g ∈ s then push cs w s else push cs (g :: w) (g :: s)

/-- A loop over a worklist (DependenceInliner.cpp:348-365), the first parameter bounds a number of iterations. -/
def close (m : Mod) : Nat → List Fn → List Fn → Option (List Fn)
  | _, [], s => some s
  | 0, _ :: _, _ => none
  | n + 1, f :: w, s => close m n (push (m.calls f) w s).1 (push (m.calls f) w s).2

/-- All calls from functions of a set are marked (DependenceInliner.cpp:366-381). -/
def markAll (m : Mod) (fs : List Fn) (marked : List Call) : List Call :=
  fs.foldl (fun l f => (m.calls f).foldl (fun l c => if c ∈ l then l else c :: l) l) marked

/-- `DependenceInlinerAttributer::runOnModule()` (DependenceInliner.cpp:194-383): marked calls. -/
def attributes (m : Mod) (fuel : Nat) (fs : List (Fn × List Request)) (marked : List Call) : Option (List Call) :=
  let s := functions m ⟨marked, []⟩ fs
  (close m fuel s.fns s.fns).map (fun l => markAll m l s.marked)

/-! ### The inliner -/

/-- A call from a body: a number of memory accesses of the call itself, a callee, is it marked. -/
structure Site where
  accesses : Nat
  callee : Fn
  marked : Bool
  deriving DecidableEq, Repr

/-- A function: accesses which are not in calls, calls, may it be inlined (`isInlineViable`, a definition). -/
structure Body where
  own : Nat
  sites : List Site
  viable : Bool
  deriving DecidableEq, Repr

/-- `evaluateCostOnSCC()` (DependenceInliner.cpp:143-161) for a component with a single function. -/
def cost (b : Body) : Nat := b.own + (b.sites.map Site.accesses).sum

/-- `getInlineCost()` (DependenceInliner.cpp:176-193): a call is inlined if a cost is less than a threshold. Costs are
evaluated before inlining: `mCurrentSCCCost` is not updated (DependenceInliner.cpp:163-174). -/
def inlined (t : Nat) (fs : Fn → Body) (f : Fn) (s : Site) : Bool :=
  s.marked && (fs s.callee).viable && cost (fs f) + cost (fs s.callee) < t

/-- A number of accesses in a function after inlining. Functions are processed in a list in the bottom-up order, `size` are
results for processed functions. -/
def sizeOf (t : Nat) (fs : Fn → Body) (size : Fn → Nat) (f : Fn) : Nat :=
  (fs f).own + ((fs f).sites.map (fun s => if inlined t fs f s then size s.callee else s.accesses)).sum

/-- Sizes after processing of a list of functions. -/
def sizes (t : Nat) (fs : Fn → Body) : List Fn → (Fn → Nat) → (Fn → Nat)
  | [], size => size
  | f :: l, size => sizes t fs l (fun g => if g = f then sizeOf t fs size f else size g)

end Tsar.DepInline
