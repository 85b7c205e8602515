/-!
# Values which variables hold: a specification

Source-level variables which are promoted to registers have no memory. Which value such a variable has is known from
intrinsics `llvm.dbg.value(V, variable, expression)`: once the intrinsic has been executed, the bits of the variable
described by the expression are given by the current value of the register `V`. Execution of a function is a path in
its control-flow graph.
-/
namespace Tsar.DbgValue

/-- `DIExpression`: an empty expression (the whole variable), `DW_OP_LLVM_fragment offset size` (bits of the variable)
and any other expression, `deref` if it contains `DW_OP_deref` or `DW_OP_xderef` (the variable is in memory). -/
inductive Expr where
  | whole
  | frag (off size : Nat)
  | other (k : Nat) (deref : Bool)
deriving DecidableEq

/-- The bits of a variable an expression describes. -/
def Expr.covers : Expr → Nat → Prop
  | .whole, _ => True
  | .frag o s, bit => o ≤ bit ∧ bit < o + s
  | .other _ _, _ => True

/-- A variable and an expression (`DIMemoryLocation`). -/
structure Loc where
  var : Nat
  expr : Expr
deriving DecidableEq

/-- An instruction: `llvm.dbg.value`, a definition of a register and any other instruction. -/
inductive Inst where
  | dbg (v : Nat) (l : Loc)
  | dfn (v : Nat)
  | other
deriving DecidableEq

/-- A function. The block 0 is its entry. -/
structure Func where
  blocks : List (List Inst)
  preds : Nat → List Nat

/-- A block and an index of an instruction in it. The index which is equal to a number of instructions is the end
of the block. -/
abbrev Pos := Nat × Nat

def Func.block (F : Func) (b : Nat) : List Inst := F.blocks.getD b []

def Func.inst? (F : Func) (p : Pos) : Option Inst := (F.block p.1)[p.2]?

/-- `Trace F (q :: t)`: a path from the entry to `q` goes through positions `t` (the last one is the first in the
list). Instructions at positions `t` have been executed, the instruction at `q` has not. -/
inductive Trace (F : Func) : List Pos → Prop where
  | start : Trace F [(0, 0)]
  | next {p t} : Trace F (p :: t) → p.2 < (F.block p.1).length → Trace F ((p.1, p.2 + 1) :: p :: t)
  | jump {p t b} : Trace F (p :: t) → p.2 = (F.block p.1).length → p.1 ∈ F.preds b → Trace F ((b, 0) :: p :: t)

/-- Values of registers and bits of variables: each bit is described by an expression and a value it is
applied to. -/
structure State where
  val : Nat → Int
  cell : Nat → Nat → Option (Expr × Int)

open Classical in
/-- Execution of an instruction, `n` is a number which a definition of a register produces. -/
noncomputable def exec (n : Int) (i : Option Inst) (s : State) : State :=
  match i with
  | some (.dbg v l) =>
    { s with cell := fun x bit => if x = l.var ∧ l.expr.covers bit then some (l.expr, s.val v) else s.cell x bit }
  | some (.dfn v) => { s with val := fun w => if w = v then n else s.val w }
  | _ => s

/-- A state after execution of a path. The oracle `o` gives numbers which are produced by definitions of registers:
it depends on a number of executed steps. -/
noncomputable def stateOf (F : Func) (o : Nat → Int) (s₀ : State) : List Pos → State
  | [] => s₀
  | p :: t => exec (o t.length) (F.inst? p) (stateOf F o s₀ t)

/-- The location holds the current value of the register. -/
def Holds (s : State) (v : Nat) (l : Loc) : Prop :=
  ∀ bit, l.expr.covers bit → s.cell l.var bit = some (l.expr, s.val v)

/-- Any path from the entry executes `p` before `q`. -/
def Dom (F : Func) (p q : Pos) : Prop := ∀ t, Trace F (q :: t) → p ∈ t

/-- The register has at most one definition and it dominates `llvm.dbg.value` which use it. -/
def Ssa (F : Func) (v : Nat) : Prop :=
  ∀ p, F.inst? p = some (.dfn v) →
    (∀ p', F.inst? p' = some (.dfn v) → p' = p) ∧ ∀ d l, F.inst? d = some (.dbg v l) → Dom F p d

end Tsar.DbgValue
