import Mathlib.Data.List.Basic
import Mathlib.Data.List.Nodup

/-!
# Loops of a source program and ways out of them (specification)

A function of the source as a tree of statements, perfectly nested loops, and what leaves or enters
a loop. Nothing here refers to the analysis.
-/
namespace Tsar.SrcLoop

/-- A statement of C or C++ without its parts. `id` is the address of the node: two statements of a
program are equal if and only if they are the same node. `loop` is `while` or `do`. A call has a
declaration the callee refers to, if there is any: it may be a function or a variable which holds a
pointer to a function. -/
inductive Kind
  | forLoop (id : Nat)
  | loop (id : Nat)
  | rangeFor (id : Nat)
  | switchStmt (id : Nat)
  | compound (id : Nat)
  | label (id : Nat) (name : Nat)
  | breakStmt (id : Nat)
  | returnStmt (id : Nat)
  | gotoStmt (id : Nat) (name : Nat)
  | call (id : Nat) (callee : Option Nat)
  | other (id : Nat)
  deriving DecidableEq

/-- A list of trees: the first of them is a statement `k` with the parts `header` and `body`. The
header of a `for` is its initialization, condition and increment, other statements have parts in
`body` only. -/
inductive Forest
  | nil
  | node (k : Kind) (header body rest : Forest)
  deriving DecidableEq

/-! ### Perfectly nested loops -/

/-- The statements of a block, braces are ignored. -/
def flat : Forest → List (Kind × Forest × Forest)
  | .nil => []
  | .node k h b r =>
    match k with
    | .compound _ => flat h ++ flat b ++ flat r
    | _ => (k, h, b) :: flat r

/-- There is no `for` anywhere in a forest. -/
def noFor : Forest → Prop
  | .nil => True
  | .node k h b r => (∀ id, k ≠ .forLoop id) ∧ noFor h ∧ noFor b ∧ noFor r

/-- A loop with this body is perfect: it is an innermost `for`, or its body consists of a single
`for` and nothing else. -/
def Perfect (body : Forest) : Prop :=
  noFor body ∨ ∃ id h b, flat body = [(.forLoop id, h, b)]

/-- All `for` loops of a program with their bodies, except loops in headers of other `for` loops
(a header contains a loop only in an expression with statements or in a lambda). -/
def forsOf : Forest → List (Nat × Forest)
  | .nil => []
  | .node k h b r =>
    match k with
    | .forLoop id => forsOf b ++ (id, b) :: forsOf r
    | _ => forsOf h ++ forsOf b ++ forsOf r

/-! ### Ways out of a loop -/

/-- `At f ctx k`: the statement `k` is in `f`, and `ctx` are all the statements which enclose it,
outer statements first. -/
inductive At : Forest → List Kind → Kind → Prop
  | here (k h b r) : At (.node k h b r) [] k
  | header {h ctx x} (k b r) : At h ctx x → At (.node k h b r) (k :: ctx) x
  | body {b ctx x} (k h r) : At b ctx x → At (.node k h b r) (k :: ctx) x
  | next {r ctx x} (k h b) : At r ctx x → At (.node k h b r) ctx x

/-- A statement which a `break` may leave. -/
def Kind.breakable : Kind → Bool
  | .forLoop _ => true
  | .loop _ => true
  | .rangeFor _ => true
  | .switchStmt _ => true
  | _ => false

/-- `for`, `while` and `do`. -/
def Kind.isLoop : Kind → Bool
  | .forLoop _ => true
  | .loop _ => true
  | _ => false

/-- A label with this name is inside a statement. -/
def LabelIn (f : Forest) (L : Kind) (name : Nat) : Prop :=
  ∃ ctx id, At f ctx (.label id name) ∧ L ∈ ctx

/-- The statement `s` which is inside `ctx` leaves the statement `L`. -/
def Leaves (f : Forest) (ctx : List Kind) (L s : Kind) : Prop :=
  match s with
  | .breakStmt _ => (ctx.filter Kind.breakable).getLast? = some L
  | .returnStmt _ => L ∈ ctx
  | .gotoStmt _ name => L ∈ ctx ∧ ¬ LabelIn f L name
  | _ => False

/-- The statement `s` is outside the loop `L` and jumps into it. -/
def Enters (f : Forest) (ctx : List Kind) (L s : Kind) : Prop :=
  match s with
  | .gotoStmt _ name => L ∉ ctx ∧ LabelIn f L name
  | _ => False

/-! ### Calls -/

/-- What is known of a function in LLVM IR. -/
structure FnAttrs where
  alwaysReturn : Bool
  noUnwind : Bool
  returnsTwice : Bool
  noIO : Bool
  deriving DecidableEq

/-- Flags of a statement in a loop. -/
structure Flags where
  inOut : Bool := false
  exit : Bool := false
  entry : Bool := false
  noReturn : Bool := false
  twice : Bool := false
  unwind : Bool := false
  deriving DecidableEq

/-- What a call of a function may do is not less than what is known of the function: `none` is a
function nothing is known about. -/
def Covers (fl : Flags) : Option FnAttrs → Prop
  | none => fl.noReturn ∧ fl.unwind ∧ fl.inOut
  | some a => (¬ a.alwaysReturn → fl.noReturn) ∧ (¬ a.noUnwind → fl.unwind) ∧
      (a.returnsTwice → fl.twice) ∧ (¬ a.noIO → fl.inOut)

end Tsar.SrcLoop
