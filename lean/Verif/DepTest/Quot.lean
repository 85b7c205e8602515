import Mathlib.Tactic.Ring
import Mathlib.Tactic.Linarith
import Mathlib.Tactic.LinearCombination
import Mathlib.RingTheory.Coprime.Lemmas
import Mathlib.Data.Int.GCD
/-!
# Arithmetic of the exact tests

Rounded quotients and the extended Euclidean algorithm of
`lib/Analysis/Memory/DependenceAnalysis.cpp`.  `APInt` values are mathematical integers (overflows
of the fixed width are not modelled); `APInt::sdivrem` truncates toward zero, as `Int.tdiv` and
`Int.tmod` do.
-/

namespace Tsar.DepTest

/-- `floorOfQuotient`, DependenceAnalysis.cpp:1550-1561. -/
def floorQ (a b : Int) : Int :=
  let q := a.tdiv b
  let r := a.tmod b
  if r = 0 then q
  else if (a > 0 ∧ b > 0) ∨ (a < 0 ∧ b < 0) then q
  else q - 1

/-- `ceilingOfQuotient`, DependenceAnalysis.cpp:1563-1574. -/
def ceilQ (a b : Int) : Int :=
  let q := a.tdiv b
  let r := a.tmod b
  if r = 0 then q
  else if (a > 0 ∧ b > 0) ∨ (a < 0 ∧ b < 0) then q + 1
  else q

/-- `maxAPInt`, DependenceAnalysis.cpp:1577-1580. -/
def maxI (a b : Int) : Int := if a > b then a else b

/-- `minAPInt`, DependenceAnalysis.cpp:1583-1586. -/
def minI (a b : Int) : Int := if a < b then a else b

/-- The loop of `findGCD`, DependenceAnalysis.cpp:1529-1535.  The first argument bounds the number
of steps (`findGCD_spec` shows that the chosen bound is always enough). -/
def gcdLoop : Nat → Int → Int → Int → Int → Int → Int → Option (Int × Int × Int)
  | 0, _, _, _, _, _, _ => none
  | k + 1, a0, a1, b0, b1, g0, g1 =>
    let q := g0.tdiv g1
    let r := g0.tmod g1
    if r = 0 then some (g1, a1, b1)
    else gcdLoop k a1 (a0 - q * a1) b1 (b0 - q * b1) g1 r

/-- Result of `findGCD`. -/
inductive GcdResult
  /-- division by zero -/
  | undef
  /-- the greatest common divisor does not divide the difference -/
  | disproved
  /-- the greatest common divisor and a solution -/
  | solved (g x y : Int)
  deriving DecidableEq, Repr

/-- `findGCD`, DependenceAnalysis.cpp:1520-1548. -/
def findGCD (am bm delta : Int) : GcdResult :=
  if bm = 0 then .undef else
  match gcdLoop (bm.natAbs + 1) 1 0 0 1 |am| |bm| with
  | none => .undef
  | some (g, a1, b1) =>
    let x := if am < 0 then -a1 else a1
    let y := if bm < 0 then b1 else -b1
    if delta.tmod g ≠ 0 then .disproved
    else
      let q := delta.tdiv g
      .solved g (x * q) (y * q)

/-! ## Rounded quotients -/

/-- A truncated quotient and remainder. -/
theorem tdiv_spec (a b : Int) (hb : b ≠ 0) :
    a = b * a.tdiv b + a.tmod b ∧
      ((0 ≤ a ∧ 0 ≤ a.tmod b) ∨ (a < 0 ∧ a.tmod b ≤ 0)) ∧ |a.tmod b| < |b| ∧
      (a = 0 → a.tmod b = 0) := by
  refine ⟨(Int.mul_tdiv_add_tmod a b).symm, ?_, ?_, by rintro rfl; exact Int.zero_tmod b⟩
  · rcases le_or_gt 0 a with h | h
    · exact .inl ⟨h, Int.tmod_nonneg b h⟩
    · exact .inr ⟨h, by have := Int.tmod_nonneg b (a := -a) (by omega); rw [Int.neg_tmod] at this; omega⟩
  · have := Int.natAbs_tmod a b
    have h2 : a.natAbs % b.natAbs < b.natAbs := Nat.mod_lt _ (by omega)
    rw [Int.abs_eq_natAbs, Int.abs_eq_natAbs, this]
    exact_mod_cast h2

/-- `floorOfQuotient` is the greatest integer not above the quotient. -/
theorem floorQ_pos {a b t : Int} (hb : 0 < b) : t ≤ floorQ a b ↔ b * t ≤ a := by
  obtain ⟨h1, h2, h3, h0⟩ := tdiv_spec a b (by omega)
  have hb' : |b| = b := abs_of_pos hb
  rw [hb'] at h3
  have h4 := abs_lt.1 h3
  unfold floorQ
  simp only
  generalize a.tdiv b = q at *
  generalize a.tmod b = r at *
  split
  · constructor <;> intro h <;> nlinarith
  · split
    · have hr : 0 < r := by omega
      constructor
      · intro h; nlinarith
      · intro h
        by_contra hc
        have : q + 1 ≤ t := by omega
        nlinarith
    · have hr : r < 0 := by omega
      constructor
      · intro h; nlinarith
      · intro h
        by_contra hc
        have : q ≤ t := by omega
        nlinarith

theorem floorQ_neg {a b t : Int} (hb : b < 0) : t ≤ floorQ a b ↔ a ≤ b * t := by
  obtain ⟨h1, h2, h3, h0⟩ := tdiv_spec a b (by omega)
  have hb' : |b| = -b := abs_of_neg hb
  rw [hb'] at h3
  have h4 := abs_lt.1 h3
  unfold floorQ
  simp only
  generalize a.tdiv b = q at *
  generalize a.tmod b = r at *
  split
  · constructor <;> intro h <;> nlinarith
  · split
    · have hr : r < 0 := by omega
      constructor
      · intro h; nlinarith
      · intro h
        by_contra hc
        have : q + 1 ≤ t := by omega
        nlinarith
    · have hr : 0 < r := by omega
      constructor
      · intro h; nlinarith
      · intro h
        by_contra hc
        have : q ≤ t := by omega
        nlinarith

/-- `ceilingOfQuotient` is the least integer not below the quotient. -/
theorem ceilQ_pos {a b t : Int} (hb : 0 < b) : ceilQ a b ≤ t ↔ a ≤ b * t := by
  obtain ⟨h1, h2, h3, h0⟩ := tdiv_spec a b (by omega)
  have hb' : |b| = b := abs_of_pos hb
  rw [hb'] at h3
  have h4 := abs_lt.1 h3
  unfold ceilQ
  simp only
  generalize a.tdiv b = q at *
  generalize a.tmod b = r at *
  split
  · constructor <;> intro h <;> nlinarith
  · split
    · have hr : 0 < r := by omega
      constructor
      · intro h; nlinarith
      · intro h
        by_contra hc
        have : t ≤ q := by omega
        nlinarith
    · have hr : r < 0 := by omega
      constructor
      · intro h; nlinarith
      · intro h
        by_contra hc
        have : t ≤ q - 1 := by omega
        nlinarith

theorem ceilQ_neg {a b t : Int} (hb : b < 0) : ceilQ a b ≤ t ↔ b * t ≤ a := by
  obtain ⟨h1, h2, h3, h0⟩ := tdiv_spec a b (by omega)
  have hb' : |b| = -b := abs_of_neg hb
  rw [hb'] at h3
  have h4 := abs_lt.1 h3
  unfold ceilQ
  simp only
  generalize a.tdiv b = q at *
  generalize a.tmod b = r at *
  split
  · constructor <;> intro h <;> nlinarith
  · split
    · have hr : r < 0 := by omega
      constructor
      · intro h; nlinarith
      · intro h
        by_contra hc
        have : t ≤ q := by omega
        nlinarith
    · have hr : 0 < r := by omega
      constructor
      · intro h; nlinarith
      · intro h
        by_contra hc
        have : t ≤ q - 1 := by omega
        nlinarith

theorem le_maxI {a b t : Int} : maxI a b ≤ t ↔ a ≤ t ∧ b ≤ t := by
  unfold maxI; split <;> omega

theorem le_minI {a b t : Int} : t ≤ minI a b ↔ t ≤ a ∧ t ≤ b := by
  unfold minI; split <;> omega

/-! ## The extended Euclidean algorithm -/

theorem gcdLoop_spec : ∀ (k : Nat) (a0 a1 b0 b1 g0 g1 p q : Int),
    0 ≤ g0 → 0 < g1 → g1.natAbs < k →
    a0 * p + b0 * q = g0 → a1 * p + b1 * q = g1 →
    ∃ g a b, gcdLoop k a0 a1 b0 b1 g0 g1 = some (g, a, b) ∧ 0 < g ∧ a * p + b * q = g ∧
      g = Int.gcd g0 g1 := by
  intro k
  induction k with
  | zero => intros; omega
  | succ k ih =>
    intro a0 a1 b0 b1 g0 g1 p q h0 h1 hk e0 e1
    have hs := tdiv_spec g0 g1 (by omega)
    have hr0 : 0 ≤ g0.tmod g1 := Int.tmod_nonneg _ h0
    have hlt : g0.tmod g1 < g1 := by
      have := abs_lt.1 (hs.2.2.1); rw [abs_of_pos h1] at this; omega
    simp only [gcdLoop]
    by_cases hr : g0.tmod g1 = 0
    · simp only [hr, ↓reduceIte]
      refine ⟨g1, a1, b1, rfl, h1, e1, ?_⟩
      have : g1 ∣ g0 := Int.dvd_of_tmod_eq_zero hr
      rw [Int.gcd_comm, Int.gcd_eq_natAbs_left this]
      omega
    · simp only [hr, ↓reduceIte]
      have hg : Int.gcd g1 (g0.tmod g1) = Int.gcd g0 g1 := by
        have : g0.tmod g1 = g0 - g1 * g0.tdiv g1 := by have := hs.1; omega
        rw [this, Int.gcd_comm g0 g1]
        have := Int.gcd_sub_mul_right_right g1 g0 (g0.tdiv g1)
        rw [mul_comm g1]
        exact this
      obtain ⟨g, a, b, h, hp, he, hgc⟩ := ih a1 (a0 - g0.tdiv g1 * a1) b1 (b0 - g0.tdiv g1 * b1) g1
        (g0.tmod g1) p q (by omega) (by omega) (by omega) e1
        (by
          have := hs.1
          calc (a0 - g0.tdiv g1 * a1) * p + (b0 - g0.tdiv g1 * b1) * q
              = (a0 * p + b0 * q) - g0.tdiv g1 * (a1 * p + b1 * q) := by ring
            _ = g0 - g0.tdiv g1 * g1 := by rw [e0, e1]
            _ = g0.tmod g1 := by linarith)
      exact ⟨g, a, b, h, hp, he, by rw [hgc, hg]⟩

/-- `findGCD` never divides by zero if the second coefficient is not zero; it disproves the
dependence exactly if the equation `am * x - bm * y = delta` has no integer solutions, and otherwise
finds a solution. -/
theorem findGCD_spec (am bm delta : Int) (hb : bm ≠ 0) :
    (findGCD am bm delta = .disproved ∧ ¬ ∃ x y, am * x - bm * y = delta) ∨
    ∃ x y, findGCD am bm delta = .solved (Int.gcd am bm) x y ∧ am * x - bm * y = delta := by
  obtain ⟨g, a, b, h, hp, he, hg⟩ := gcdLoop_spec (bm.natAbs + 1) 1 0 0 1 |am| |bm| |am| |bm|
    (abs_nonneg _) (abs_pos.2 hb) (by simp [Int.natAbs_abs]) (by ring) (by ring)
  have hg' : g = Int.gcd am bm := by
    rw [hg]; simp only [Int.gcd, Int.natAbs_abs]
  unfold findGCD
  simp only [hb, ↓reduceIte, h]
  have hsol : am * (if am < 0 then -a else a) - bm * (if bm < 0 then b else -b) = g := by
    rw [← he]
    have h1 : am * (if am < 0 then -a else a) = a * |am| := by
      split
      · rw [abs_of_neg (by assumption)]; ring
      · rw [abs_of_nonneg (by omega)]; ring
    have h2 : bm * (if bm < 0 then b else -b) = - (b * |bm|) := by
      split
      · rw [abs_of_neg (by assumption)]; ring
      · rw [abs_of_nonneg (by omega)]; ring
    rw [h1, h2]; ring
  by_cases hd : delta.tmod g = 0
  · right
    refine ⟨_, _, by rw [if_neg (by simpa using hd), ← hg'], ?_⟩
    have hq : delta = g * delta.tdiv g := by
      have := Int.mul_tdiv_add_tmod delta g; omega
    calc _ = (am * (if am < 0 then -a else a) - bm * (if bm < 0 then b else -b)) * delta.tdiv g := by ring
      _ = g * delta.tdiv g := by rw [hsol]
      _ = delta := hq.symm
  · left
    refine ⟨by simp only [ne_eq, hd, not_false_eq_true, ↓reduceIte], ?_⟩
    rintro ⟨x, y, hxy⟩
    apply hd
    apply Int.tmod_eq_zero_of_dvd
    rw [← hxy, hg']
    exact Int.dvd_sub (Dvd.dvd.mul_right (Int.gcd_dvd_left ..) _) (Dvd.dvd.mul_right (Int.gcd_dvd_right ..) _)

/-- All solutions of the equation lie on a line with an integer parameter. -/
theorem solution_line {am bm delta x y i j : Int} (hb : bm ≠ 0)
    (hs : am * x - bm * y = delta) (hij : am * i - bm * j = delta) :
    ∃ t, i = x + bm.tdiv (Int.gcd am bm) * t ∧ j = y + am.tdiv (Int.gcd am bm) * t := by
  have hg : (Int.gcd am bm : Int) ≠ 0 := by
    have := Int.gcd_ne_zero_right (a := am) hb; exact_mod_cast this
  obtain ⟨p, hp⟩ : (Int.gcd am bm : Int) ∣ am := Int.gcd_dvd_left ..
  obtain ⟨q, hq⟩ : (Int.gcd am bm : Int) ∣ bm := Int.gcd_dvd_right ..
  obtain ⟨n, hn⟩ : ∃ n, Int.gcd am bm = n := ⟨_, rfl⟩
  rw [hn] at hg hp hq ⊢
  subst hp; subst hq
  rw [Int.mul_tdiv_cancel_left _ hg, Int.mul_tdiv_cancel_left _ hg]
  have hco : Int.gcd p q = 1 := by
    rw [Int.gcd_mul_left] at hn
    have h2 : 0 < n := by omega
    simp only [Int.natAbs_natCast] at hn
    have h3 : n * Int.gcd p q = n * 1 := by omega
    exact Nat.eq_of_mul_eq_mul_left h2 h3
  have heq : p * (i - x) = q * (j - y) := by
    have h3 : (n : Int) * (p * (i - x)) = n * (q * (j - y)) := by
      linear_combination hij - hs
    exact mul_left_cancel₀ hg h3
  have hq0 : q ≠ 0 := by rintro rfl; simp at hb
  have hdiv : q ∣ i - x := by
    have : q ∣ p * (i - x) := ⟨j - y, heq⟩
    exact (Int.isCoprime_iff_gcd_eq_one.2 (by rw [Int.gcd_comm]; exact hco)).dvd_of_dvd_mul_left this
  obtain ⟨t, ht⟩ := hdiv
  refine ⟨t, by omega, ?_⟩
  have : q * (p * t) = q * (j - y) := by rw [← heq, ht]; ring
  have := mul_left_cancel₀ hq0 this
  omega

end Tsar.DepTest
