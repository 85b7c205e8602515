import Verif.DepTest.DependsSound
import Mathlib.Data.Fintype.Basic
/-!
# Concrete oracles

`SE` is a structure of parameters.  Two instances show that the assumptions can be met and are used
to find states in which the tests are wrong: constant subscripts and the oracle which knows
everything that is true in all states.
-/

namespace Tsar.DepTest

/-- Evaluation of a predicate. -/
def Pred.eval : Pred → Int → Int → Bool
  | .eq, x, y => decide (x = y)
  | .ne, x, y => decide (x ≠ y)
  | .sge, x, y => decide (x ≥ y)
  | .sle, x, y => decide (x ≤ y)
  | .sgt, x, y => decide (x > y)
  | .slt, x, y => decide (x < y)

theorem Pred.eval_holds {p : Pred} {x y : Int} (h : p.eval x y = true) : p.Holds x y := by
  cases p <;> simpa [Pred.eval, Pred.Holds] using h

/-- All expressions are constants. -/
def constSE {L : Type} (bound : L → Option Int) (nest : Int → Int → Bool) : SE Int L Unit where
  val x _ := x
  ofInt x := x
  minus x y := x - y
  add x y := x + y
  mul x y := x * y
  neg x := -x
  smax x y := max x y
  smin x y := min x y
  udiv x y := x / y
  const x := some x
  sum _ := none
  product _ := none
  known p x y := p.eval x y
  knownNeg x := decide (x < 0)
  knownNonNeg x := decide (0 ≤ x)
  knownPos x := decide (0 < x)
  knownNonPos x := decide (x ≤ 0)
  knownNonZero x := decide (x ≠ 0)
  strip _ _ := none
  nest := nest
  bound := bound
  same x y := decide (x = y)

theorem constSE_laws {L : Type} (bound : L → Option Int) (nest : Int → Int → Bool) :
    (constSE bound nest).Laws := by
  constructor <;> intros <;> simp_all [constSE]
  exact Pred.eval_holds (by assumption)

theorem constSE_sumLaws {L : Type} (bound : L → Option Int) (nest : Int → Int → Bool) :
    (constSE bound nest).SumLaws := by
  constructor <;> intros <;> simp_all [constSE]

/-- Expressions are functions of one of finitely many states, and an answer is "known" whenever it
is right in all states. -/
def perfect {L : Type} (n : Nat) (bound : L → Option (Fin (n + 1) → Int)) :
    SE (Fin (n + 1) → Int) L (Fin (n + 1)) where
  val x e := x e
  ofInt x := fun _ => x
  minus x y := fun e => x e - y e
  add x y := fun e => x e + y e
  mul x y := fun e => x e * y e
  neg x := fun e => -x e
  smax x y := fun e => max (x e) (y e)
  smin x y := fun e => min (x e) (y e)
  udiv x y := fun e => x e / y e
  const x := if ∀ e, x e = x 0 then some (x 0) else none
  sum _ := none
  product _ := none
  known p x y := decide (∀ e, p.eval (x e) (y e) = true)
  knownNeg x := decide (∀ e, x e < 0)
  knownNonNeg x := decide (∀ e, 0 ≤ x e)
  knownPos x := decide (∀ e, 0 < x e)
  knownNonPos x := decide (∀ e, x e ≤ 0)
  knownNonZero x := decide (∀ e, x e ≠ 0)
  strip _ _ := none
  nest _ _ := true
  bound := bound
  same x y := decide (∀ e, x e = y e)

theorem perfect_laws {L : Type} (n : Nat) (bound : L → Option (Fin (n + 1) → Int)) :
    (perfect n bound).Laws := by
  constructor
  case const =>
    intro x c e h
    simp only [perfect] at h ⊢
    split at h
    · rename_i hx; cases h; exact hx e
    · cases h
  case known => intro p x y e h; exact Pred.eval_holds (of_decide_eq_true h e)
  case knownNeg => intro x e h; exact of_decide_eq_true h e
  case knownNonNeg => intro x e h; exact of_decide_eq_true h e
  case knownPos => intro x e h; exact of_decide_eq_true h e
  case knownNonPos => intro x e h; exact of_decide_eq_true h e
  case knownNonZero => intro x e h; exact of_decide_eq_true h e
  case same => intro x y e h; exact of_decide_eq_true h e
  case constNeg =>
    intro x c h
    simp only [perfect] at h ⊢
    split at h
    · rename_i hx
      cases h
      rw [if_pos fun e => by rw [hx e]]
    · cases h
  case constSign =>
    intro x c h
    simp only [perfect] at h ⊢
    split at h
    · rename_i hx
      cases h
      rw [decide_eq_true_iff]
      exact ⟨fun h => h 0, fun h e => by rw [hx e]; exact h⟩
    · cases h
  all_goals intros; first | rfl | simp_all [perfect]

theorem perfect_sumLaws {L : Type} (n : Nat) (bound : L → Option (Fin (n + 1) → Int)) :
    (perfect n bound).SumLaws := by
  constructor <;> intros <;> simp_all [perfect]

end Tsar.DepTest
