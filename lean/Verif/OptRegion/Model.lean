/-!
# Regions which a user marks for optimization

Model of `#pragma spf region` processing: `RegionDirectiveVisitor` (lib/Analysis/Clang/RegionDirectiveInfo.cpp:60-178),
`ClangRegionCollector::runOnModule` (203-342) and `OptimizationRegion` (344-390).

Simplifications.
* A region is identified by a number instead of a name. A directive without names is a directive with one special region.
* Statements are represented by a tree: compound statements and loops (`scope`), other statements and expressions
  (`other`), directives of other kinds (`skip`). All loops and calls are matched with IR. Diagnostics are not modelled.
* `none` means that `SmallVector::resize()` is called with a size which is greater than the current one: either the
  subtraction of unsigned values is wrapped around or null pointers are appended and will be dereferenced.
* The interprocedural part is modelled for a single region: regions do not depend on each other, except of a number of
  iterations, which is greater than or equal to one.
* A call without a known callee is omitted.
-/

namespace Tsar.OptRegion

/-! ### Directives -/

/-- Statements. -/
inductive Stmt
  | region (rs : List Nat)
  | skip
  | scope (loop : Option Nat) (body : List Stmt)
  | other (call : Option Nat) (body : List Stmt)

/-- Objects which are marked for optimization. -/
inductive Mark
  | loop (r l : Nat)
  | call (r c : Nat)
  deriving DecidableEq, Repr

/-- A state of the visitor: `mActiveRegions` (the last element is the last one), `mNewPragma`, `mNewActiveRegions` and
all calls of `markForOptimization()`. -/
structure St where
  active : List Nat
  isNew : Bool
  count : Nat
  marks : List Mark
  deriving DecidableEq, Repr

/-- `SmallVector::resize()`. -/
def resize (n : Nat) (l : List Nat) : Option (List Nat) := if n ≤ l.length then some (l.take n) else none

/-- `mActiveRegions.resize(mActiveRegions.size() - mNewActiveRegions)`. -/
def dropNew (s : St) : Option St :=
  if s.count ≤ s.active.length then some { s with active := s.active.take (s.active.length - s.count) } else none

/-- Process a directive (RegionDirectiveInfo.cpp:72-101). -/
def directive (rs : List Nat) (s : St) : Option St :=
  match (if s.isNew then dropNew s else some s) with
  | none => none
  | some s => some { s with active := s.active ++ rs, count := rs.length, isNew := true }

/-- Process a statement which is not a scope (RegionDirectiveInfo.cpp:102-111). Note, that `mNewActiveRegions` is not
reset. -/
def unexpected (s : St) : Option St :=
  if s.isNew then (dropNew s).map fun s => { s with isNew := false } else some s

/-- `VisitCallExpr` (RegionDirectiveInfo.cpp:145-167). -/
def markCall (c : Option Nat) (s : St) : St :=
  match c with
  | none => s
  | some c => { s with marks := s.marks ++ s.active.map fun r => .call r c }

/-- Mark a loop (RegionDirectiveInfo.cpp:121-136). -/
def markLoop (l : Option Nat) (s : St) : St :=
  match l with
  | none => s
  | some l => { s with marks := s.marks ++ s.active.map fun r => .loop r l }

mutual
/-- `TraverseStmt` (RegionDirectiveInfo.cpp:68-143). -/
def traverse : Stmt → St → Option St
  | .skip, s => some s
  | .region rs, s => directive rs s
  | .other c body, s =>
    match unexpected s with
    | none => none
    | some s => traverseAll body (markCall c s)
  | .scope l body, s =>
    if s.active.isEmpty then traverseAll body s else
    if s.active.length < s.count then none else
    match traverseAll body (markLoop l { s with isNew := false, count := 0 }) with
    | none => none
    | some s' =>
      match resize (s.active.length - s.count) s'.active with
      | none => none
      | some a => some { s' with active := a }

/-- Visit children of a statement one by one. -/
def traverseAll : List Stmt → St → Option St
  | [], s => some s
  | x :: xs, s =>
    match traverse x s with
    | none => none
    | some s => traverseAll xs s
end

/-- A visitor for a body of a function (RegionDirectiveInfo.cpp:250-251). -/
def collect (body : List Stmt) : Option (List Mark) := (traverseAll body ⟨[], false, 0, []⟩).map St.marks

/-! ### Propagation to callees -/

/-- `ContainStatus`. -/
inductive Status
  | no | child | condition | always
  deriving DecidableEq, Repr

/-- A module: callees of each function, callees of calls which are placed inside directives, whether a function contains
marked loops, callees of calls inside marked loops. -/
structure Module where
  calls : Nat → List Nat
  marked : Nat → List Nat
  hasLoop : Nat → Bool
  inLoop : Nat → List Nat

abbrev Region := Nat → Status

/-- `markForOptimization(Value)` for a call (RegionDirectiveInfo.cpp:361-371). -/
def markCallee (g : Nat) (r : Region) : Region := fun f =>
  if f = g then (if r g = .always then .always else .condition) else r f

/-- Mark all callees from a list. -/
def markCallees (gs : List Nat) (r : Region) : Region := gs.foldl (fun r g => markCallee g r) r

/-- `markForOptimization(Loop)`, an effect on a function (RegionDirectiveInfo.cpp:345). -/
def markChild (f : Nat) (r : Region) : Region := fun g => if g = f && r g == .no then .child else r g

/-- A function is contained in a region. -/
def Status.inside : Status → Bool
  | .always => true
  | .condition => true
  | _ => false

/-- Collect regions from a function and update its callees (RegionDirectiveInfo.cpp:230-287). The second component means
that the region is in `SCCRegions`. -/
def first (m : Module) : List Nat → Region × Bool → Region × Bool
  | [], s => s
  | f :: fs, (r, b) =>
    let r := markCallees (m.marked f) r
    let r := if m.hasLoop f then markChild f r else r
    match r f with
    | .always => first m fs (markCallees (m.calls f) r, true)
    | .condition => first m fs (markCallees (m.calls f) r, true)
    | .child => first m fs (markCallees (m.inLoop f) r, b)
    | .no => first m fs (r, b)

/-- An iteration of the second stage (RegionDirectiveInfo.cpp:293-317). -/
def second (m : Module) : List Nat → Region × Bool → Region × Bool
  | [], s => s
  | f :: fs, (r, b) =>
    if (r f).inside then second m fs (markCallees (m.calls f) r, true) else second m fs (r, b)

/-- The second stage (RegionDirectiveInfo.cpp:291-318): the body is executed at least once, it is executed again if a new
region has been found, `extra` iterations are for other regions. -/
def repeatSecond (m : Module) (fs : List Nat) : Nat → Region × Bool → Region × Bool
  | 0, s => second m fs s
  | n + 1, s => repeatSecond m fs n (second m fs s)

/-- The third stage (RegionDirectiveInfo.cpp:321-337). -/
def third (m : Module) (fs : List Nat) (s : Region × Bool) : Region :=
  if s.2 then fs.foldl (fun r f => markCallees (m.calls f) r) s.1 else s.1

/-- Process a strongly connected component (RegionDirectiveInfo.cpp:226-338). -/
def component (m : Module) (extra : Nat) (fs : List Nat) (r : Region) : Region :=
  third m fs (repeatSecond m fs extra (first m fs (r, false)))

/-- Process components top-down (RegionDirectiveInfo.cpp:226-339). -/
def propagate (m : Module) : List (Nat × List Nat) → Region → Region
  | [], r => r
  | (extra, fs) :: cs, r => propagate m cs (component m extra fs r)

/-! ### Loops in a region -/

/-- Loops of a module: a function which contains a loop, identifiers of a loop and its parents (the innermost is the first
one). A loop is represented by a number, it has an identifier if it is a member of its own path. -/
structure Loops where
  func : Nat → Nat
  path : Nat → List Nat

/-- `OptimizationRegion::contain(Loop)` (RegionDirectiveInfo.cpp:375-390): a result and the new value of `mScopes`. -/
def containLoop (ls : Loops) (r : Region) (scopes : List Nat) (l : Nat) : Bool × List Nat :=
  if (r (ls.func l)).inside then (true, if l ∈ ls.path l then l :: scopes else scopes) else
  if (ls.path l).any (fun x => decide (x ∈ scopes)) then (true, if l ∈ ls.path l then l :: scopes else scopes)
  else (false, scopes)

/-- A sequence of queries. -/
def queries (ls : Loops) (r : Region) : List Nat → List Nat → List Nat
  | [], scopes => scopes
  | l :: qs, scopes => queries ls r qs (containLoop ls r scopes l).2

end Tsar.OptRegion
