import Verif.Canon.Model

/-!
# Execution of a loop (specification for C101 and C102)

Memory is a function from cells to integers. Instructions are executed one after another. A value of an expression is
computed by its instructions, each of them may be executed in another state of memory. Integers do not overflow,
therefore casts do not change values.
-/

namespace Tsar
namespace Canon

variable {L N : Type}

/-- The predicate holds. -/
def Pred.holds : Pred → Int → Int → Prop
  | .eq, a, b => a = b
  | .ne, a, b => a ≠ b
  | .lt, a, b => a < b
  | .le, a, b => a ≤ b
  | .gt, a, b => a > b
  | .ge, a, b => a ≥ b

/-- The meaning of programs: cells of alias nodes and results of `other` instructions. -/
structure World (L N : Type) where
  cells : N → L → Prop
  sem : Nat → (L → Int) → List Int → Int

mutual

/-- `x` may be a value of `t` if its instructions are executed in states `H`. -/
def Val (W : World L N) (H : (L → Int) → Prop) : Tree L N → Int → Prop
  | .const v, x => x = v
  | .other _, _ => True
  | .inst i ops, x => ∃ vs, Vals W H ops vs ∧
      match i.op with
      | .add => ∃ a b, vs = [a, b] ∧ x = a + b
      | .sub => ∃ a b, vs = [a, b] ∧ x = a - b
      | .cast => vs = [x]
      | .phi => x ∈ vs
      | .cmp p => ∃ a b, vs = [a, b] ∧ ((x = 1 ∧ p.holds a b) ∨ (x = 0 ∧ ¬ p.holds a b))
      | .load l => ∃ σ, H σ ∧ x = σ l
      | .store _ => False
      | .other id => ∃ σ, H σ ∧ x = W.sem id σ vs

/-- Values of operands. -/
def Vals (W : World L N) (H : (L → Int) → Prop) : List (Tree L N) → List Int → Prop
  | [], vs => vs = []
  | t :: l, vs => ∃ v r, vs = v :: r ∧ Val W H t v ∧ Vals W H l r

end

mutual

/-- A property of all instructions of an expression. -/
def Tree.All (Q : Ins L N → Prop) : Tree L N → Prop
  | .inst i ops => Q i ∧ AllOps Q ops
  | _ => True

/-- A property of all instructions of operands. -/
def AllOps (Q : Ins L N → Prop) : List (Tree L N) → Prop
  | [] => True
  | t :: l => t.All Q ∧ AllOps Q l

end

/-- The instruction may read the cell. -/
def MayRead (W : World L N) (i : Ins L N) (l : L) : Prop :=
  (∃ a ∈ i.accs, a.r = true ∧ ∀ n, a.node = some n → W.cells n l) ∨
  ∃ u, i.unk = some u ∧ ∀ n, u.node = some n → W.cells n l

/-- The instruction may write the cell. -/
def MayWrite (W : World L N) (t : Tree L N) (l : L) : Prop :=
  (∃ a ∈ t.accs, a.w = true ∧ ∀ n, a.node = some n → W.cells n l) ∨
  ∃ u, t.unk = some u ∧ u.w = true ∧ ∀ n, u.node = some n → W.cells n l

/-- Accesses which are known for an instruction are right. -/
def Honest (W : World L N) (i : Ins L N) : Prop :=
  match i.op with
  | .load l => MayRead W i l
  | .other id => ∀ σ τ vs, (∀ l, MayRead W i l → σ l = τ l) → W.sem id σ vs = W.sem id τ vs
  | _ => True

/-- The instruction is not a phi-node. -/
def NotPhi (i : Ins L N) : Prop := i.op ≠ .phi

/-- An effect of an instruction which is executed after `H` in the state `σ`. -/
structure Effect (W : World L N) (H : List (L → Int)) (t : Tree L N) (σ σ' : L → Int) : Prop where
  frame : ∀ l, σ' l ≠ σ l → MayWrite W t l
  store : ∀ l accs unk v p, t = .inst ⟨.store l, accs, unk⟩ [v, p] → ∃ x, Val W (· ∈ H) v x ∧ σ' l = x

/-- Execution of a list of instructions after `H`, `H'` are all visited states. -/
inductive Exec (W : World L N) :
    List (L → Int) → (L → Int) → List (Tree L N) → List (L → Int) → (L → Int) → Prop
  | nil {H σ} : Exec W H σ [] H σ
  | cons {H σ t σ' l H' τ} : Effect W (H ++ [σ]) t σ σ' → Exec W (H ++ [σ]) σ' l H' τ → Exec W H σ (t :: l) H' τ

/-- An iteration of the loop: the latch is executed at the end and only once. -/
def Iteration (W : World L N) (P : IRLoop L N) (σ : L → Int) (H : List (L → Int)) (τ : L → Int) : Prop :=
  ∃ (bs : List (Block L N)) (b : Block L N), (∀ c ∈ bs, c ∈ P.blocks ∧ P.latch ≠ some c.id) ∧ b ∈ P.blocks ∧ P.latch = some b.id ∧
    Exec W [] σ (bs.flatMap (·.body) ++ b.body) H τ

/-- The first `n` iterations of the loop, `A` are visited states. -/
inductive Run (W : World L N) (P : IRLoop L N) (σ : L → Int) : Nat → List (L → Int) → (L → Int) → Prop
  | zero : Run W P σ 0 [] σ
  | succ {n A ρ H τ} : Run W P σ n A ρ → Iteration W P ρ H τ → Run W P σ (n + 1) (A ++ H) τ

/-- Fixed nodes are not changed in states `S`. -/
def Keeps (W : World L N) (k : Know N) (S : (L → Int) → Prop) : Prop :=
  ∀ n, k.fixed n = true → ∀ l, W.cells n l → ∀ σ τ, S σ → S τ → σ l = τ l

/-- The expression has at most one value. -/
def Fixed (W : World L N) (S : (L → Int) → Prop) (t : Tree L N) : Prop :=
  ∀ x y, Val W S t x → Val W S t y → x = y

/-- Unreachable nodes do not have common cells with the node `ind` of the induction variable `v`. -/
structure Apart (W : World L N) (k : Know N) (ind : N) (v : L) : Prop where
  own : W.cells ind v
  refl : k.unreachable ind ind = false
  apart : ∀ n, k.unreachable ind n = true → ¬ W.cells n v

/-! ## Lowering of a source-level loop

These predicates describe instructions which are built for the expressions accepted by the syntactic part of the
analysis. -/

/-- An address of the variable: accesses to memory are not necessary to compute it. -/
def IsAddress : Tree L N → Prop
  | .inst i ops => i.accs = [] ∧ i.unk = none ∧ ∀ t ∈ ops, ∃ v, t = .const v
  | .const _ => True
  | .other _ => False

/-- The value of the induction variable `v`, possibly after conversions. -/
inductive IsVar (ind : N) (v : L) : Tree L N → Prop
  | load {p} : IsAddress p → IsVar ind v (.inst ⟨.load v, [⟨0, some ind, true, false⟩], none⟩ [p])
  | cast {t} : IsVar ind v t → IsVar ind v (.inst ⟨.cast, [], none⟩ [t])

/-- `i + E`, `E + i` or `i - E` (`neg`), possibly after conversions. -/
inductive IsNext (ind : N) (v : L) : Bool → Tree L N → Tree L N → Prop
  | addL {t E} : IsVar ind v t → IsNext ind v false E (.inst ⟨.add, [], none⟩ [t, E])
  | addR {t E} : IsVar ind v t → IsNext ind v false E (.inst ⟨.add, [], none⟩ [E, t])
  | sub {t E} : IsVar ind v t → IsNext ind v true E (.inst ⟨.sub, [], none⟩ [t, E])
  | cast {neg E t} : IsNext ind v neg E t → IsNext ind v neg E (.inst ⟨.cast, [], none⟩ [t])

/-- An assignment of a value to the induction variable. -/
inductive IsAssign (ind : N) (v : L) : Tree L N → Tree L N → Prop
  | store {t p} : IsAddress p → IsAssign ind v t (.inst ⟨.store v, [⟨1, some ind, false, true⟩], none⟩ [t, p])

/-- A comparison of the induction variable with `E`, the variable is the first operand if `left`. -/
inductive IsCond (ind : N) (v : L) (p : Pred) (E : Tree L N) : Bool → Tree L N → Prop
  | left {t} : IsVar ind v t → IsCond ind v p E true (.inst ⟨.cmp p, [], none⟩ [t, E])
  | right {t} : IsVar ind v t → IsCond ind v p E false (.inst ⟨.cmp p, [], none⟩ [E, t])

/-- Instructions of a loop `for (v = S; …; v = v + E)`: the assignment is the last write to the variable before the
loop (only other memory may be written after it), the loop contains the increment, there are no different blocks with
the same number. -/
structure Lowered (k : Know N) (P : IRLoop L N) (ind : N) (v : L) (start : Tree L N) (neg : Bool) (E : Tree L N) : Prop where
  init : ∃ pre a post, P.preheader = pre ++ a :: post ∧ IsAssign ind v start a ∧
    ∀ t ∈ post, t.unk = none ∧ ∀ a ∈ t.accs, a.w = true → ∃ n, a.node = some n ∧ k.unreachable ind n = true
  inc : ∃ b ∈ P.blocks, ∃ t ∈ b.body, ∃ s, IsAssign ind v s t ∧ IsNext ind v neg E s
  ids : (P.blocks.map (·.id)).Nodup

end Canon
end Tsar
