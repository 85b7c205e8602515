import Mathlib.Data.ZMod.Basic
import Mathlib.Algebra.BigOperators.Group.Finset.Basic
import Mathlib.Algebra.Squarefree.Basic
import Mathlib.NumberTheory.LegendreSymbol.QuadraticReciprocity
import Mathlib.Data.Nat.Squarefree
import Mathlib.Tactic.Ring
import Mathlib.Tactic.LinearCombination
import Mathlib.Tactic.Linarith

/-!
# Square roots modulo a number

Auxiliary number theory for the sieve of Atkin: square roots of a number modulo `n` and their quantity.
-/

namespace Tsar
namespace Primes

/-- Square roots of `d` modulo `n`. -/
def roots (n : ℕ) [NeZero n] (d : ZMod n) : Finset (ZMod n) := Finset.univ.filter fun r => r * r = d

theorem even_of_involution {α : Type} [DecidableEq α] (s : Finset α) (g : α → α) (h1 : ∀ a ∈ s, g a ∈ s)
    (h2 : ∀ a ∈ s, g a ≠ a) (h3 : ∀ a ∈ s, g (g a) = a) : 2 ∣ s.card := by
  have := Finset.sum_involution (s := s) (f := fun _ => (1 : ZMod 2)) (fun a _ => g a) (fun _ _ => by decide)
    (fun a ha _ => h2 a ha) (fun a ha => h1 a ha) (fun a ha => h3 a ha)
  simp only [Finset.sum_const, nsmul_eq_mul, mul_one] at this
  exact (ZMod.natCast_eq_zero_iff _ _).1 this

/-- The quantity of roots is even. -/
theorem roots_even {n : ℕ} [NeZero n] {d : ZMod n} (h2 : IsUnit (2 : ZMod n)) (hd : IsUnit d) (hn : 1 < n) :
    2 ∣ (roots n d).card := by
  haveI : Fact (1 < n) := ⟨hn⟩
  refine even_of_involution _ (fun r => -r) ?_ ?_ ?_
  · intro a ha
    simp only [roots, Finset.mem_filter, Finset.mem_univ, true_and] at ha ⊢
    linear_combination ha
  · intro a ha e
    simp only [roots, Finset.mem_filter, Finset.mem_univ, true_and] at ha
    have h0 : (2 : ZMod n) * a = 0 := by linear_combination -e
    have h0 : a = 0 := by
      obtain ⟨u, hu⟩ := h2
      rw [← hu] at h0
      simpa using h0
    rw [h0] at ha
    rw [← ha] at hd
    simp at hd
  · intro a _
    exact neg_neg a

/-- The quantity of roots modulo a product. -/
theorem roots_mul {a b : ℕ} [NeZero a] [NeZero b] [NeZero (a * b)] (h : a.Coprime b) (d : ℤ) :
    (roots (a * b) (d : ZMod (a * b))).card = (roots a (d : ZMod a)).card * (roots b (d : ZMod b)).card := by
  rw [← Finset.card_product]
  refine Finset.card_bij (fun r _ => ZMod.chineseRemainder h r) ?_ ?_ ?_
  · intro r hr
    simp only [roots, Finset.mem_filter, Finset.mem_univ, true_and, Finset.mem_product] at hr ⊢
    have := congrArg (ZMod.chineseRemainder h) hr
    simp only [map_mul, map_intCast] at this
    exact ⟨congrArg Prod.fst this, congrArg Prod.snd this⟩
  · intro r _ s _ e
    exact (ZMod.chineseRemainder h).injective e
  · intro p hp
    simp only [roots, Finset.mem_filter, Finset.mem_univ, true_and, Finset.mem_product] at hp
    refine ⟨(ZMod.chineseRemainder h).symm p, ?_, by simp⟩
    simp only [roots, Finset.mem_filter, Finset.mem_univ, true_and]
    apply (ZMod.chineseRemainder h).injective
    simp only [map_mul, map_intCast, RingEquiv.apply_symm_apply]
    exact Prod.ext hp.1 hp.2

/-- The quantity of roots modulo a prime number. -/
theorem roots_prime {p : ℕ} [hp : Fact p.Prime] {d : ZMod p} (h2 : IsUnit (2 : ZMod p)) (hd : d ≠ 0) (hs : IsSquare d) :
    (roots p d).card = 2 := by
  obtain ⟨r, hr⟩ := hs
  have hr0 : r ≠ 0 := by
    rintro rfl
    exact hd (by simpa using hr)
  have hne : r ≠ -r := by
    intro e
    have : (2 : ZMod p) * r = 0 := by linear_combination e
    rcases mul_eq_zero.1 this with h | h
    · rw [h] at h2; simp at h2
    · exact hr0 h
  have : roots p d = {r, -r} := by
    ext s
    simp only [roots, Finset.mem_filter, Finset.mem_univ, true_and, Finset.mem_insert, Finset.mem_singleton]
    constructor
    · intro h
      have : (s - r) * (s + r) = 0 := by linear_combination h + hr
      rcases mul_eq_zero.1 this with h | h
      · left; linear_combination h
      · right; linear_combination h
    · rintro (rfl | rfl)
      · exact hr.symm
      · linear_combination -hr
  rw [this, Finset.card_pair hne]

/-- Solutions represent pairs of opposite roots. -/
theorem roots_card {n : ℕ} [NeZero n] {d : ZMod n} (S : Finset (ℕ × ℕ)) (hc : ∀ p ∈ S, Nat.Coprime p.1 n)
    (hs : ∀ p ∈ S, (p.2 : ZMod n) * p.2 = d * (p.1 * p.1))
    (hinj : ∀ p ∈ S, ∀ q ∈ S, (p.1 : ZMod n) * q.2 = p.2 * q.1 → p = q)
    (hneg : ∀ p ∈ S, ∀ q ∈ S, (p.1 : ZMod n) * q.2 ≠ -(p.2 * q.1))
    (hsur : ∀ r : ZMod n, r * r = d → ∃ p ∈ S, (p.2 : ZMod n) = r * p.1 ∨ (p.2 : ZMod n) = -r * p.1) :
    (roots n d).card = 2 * S.card := by
  classical
  let f : ℕ × ℕ → ZMod n := fun p => p.2 * (p.1 : ZMod n)⁻¹
  have hu : ∀ p ∈ S, (p.1 : ZMod n) * (p.1 : ZMod n)⁻¹ = 1 := fun p hp => ZMod.coe_mul_inv_eq_one _ (hc p hp)
  have e : roots n d = S.image f ∪ S.image (fun p => -f p) := by
    ext r
    simp only [roots, Finset.mem_filter, Finset.mem_univ, true_and, Finset.mem_union, Finset.mem_image]
    constructor
    · intro hr
      obtain ⟨p, hp, h | h⟩ := hsur r hr
      · left
        refine ⟨p, hp, ?_⟩
        show (p.2 : ZMod n) * (p.1 : ZMod n)⁻¹ = r
        rw [h, mul_assoc, hu p hp, mul_one]
      · right
        refine ⟨p, hp, ?_⟩
        show -((p.2 : ZMod n) * (p.1 : ZMod n)⁻¹) = r
        rw [h, mul_assoc, hu p hp]
        ring
    · have key : ∀ p ∈ S, f p * f p = d := by
        intro p hp
        show (p.2 : ZMod n) * (p.1 : ZMod n)⁻¹ * (p.2 * (p.1 : ZMod n)⁻¹) = d
        have h1 := hs p hp
        have h2 := hu p hp
        calc (p.2 : ZMod n) * (p.1 : ZMod n)⁻¹ * (p.2 * (p.1 : ZMod n)⁻¹)
            = (p.2 * p.2) * ((p.1 : ZMod n)⁻¹ * (p.1 : ZMod n)⁻¹) := by ring
          _ = d * ((p.1 * (p.1 : ZMod n)⁻¹) * (p.1 * (p.1 : ZMod n)⁻¹)) := by rw [h1]; ring
          _ = d := by rw [h2]; ring
      rintro (⟨p, hp, rfl⟩ | ⟨p, hp, rfl⟩)
      · exact key p hp
      · rw [neg_mul_neg]; exact key p hp
  have mulf : ∀ p ∈ S, f p * p.1 = p.2 := by
    intro p hp
    show (p.2 : ZMod n) * (p.1 : ZMod n)⁻¹ * p.1 = p.2
    rw [mul_assoc, mul_comm _ (p.1 : ZMod n), hu p hp, mul_one]
  have fi : Set.InjOn f S := by
    intro p hp q hq h
    refine hinj p hp q hq ?_
    have h1 := mulf p hp
    have h2 := mulf q hq
    rw [← h1, ← h2, h]; ring
  have gi : Set.InjOn (fun p => -f p) S := by
    intro p hp q hq h
    exact fi hp hq (neg_injective h)
  rw [e, Finset.card_union_of_disjoint, Finset.card_image_of_injOn fi, Finset.card_image_of_injOn gi]
  · ring
  · rw [Finset.disjoint_left]
    intro r h1 h2
    obtain ⟨p, hp, e1⟩ := Finset.mem_image.1 h1
    obtain ⟨q, hq, e2⟩ := Finset.mem_image.1 h2
    apply hneg p hp q hq
    have h1 := mulf p hp
    have h2 := mulf q hq
    rw [← h1, ← h2]
    have : f p = -f q := e1.trans e2.symm
    rw [this]; ring

/-- Thue's lemma. -/
theorem thue {n : ℕ} (hn : ¬ IsSquare n) (r : ZMod n) : ∃ x y : ℕ, (x ≠ 0 ∨ y ≠ 0) ∧ x * x < n ∧ y * y < n ∧
    ((y : ZMod n) = r * x ∨ (y : ZMod n) = -r * x) := by
  have hn0 : n ≠ 0 := fun h => hn ⟨0, by simp [h]⟩
  haveI : NeZero n := ⟨hn0⟩
  have hlt : n.sqrt * n.sqrt < n := lt_of_le_of_ne (Nat.sqrt_le n) fun h => hn ⟨_, h.symm⟩
  let A : Finset (ℕ × ℕ) := Finset.range (n.sqrt + 1) ×ˢ Finset.range (n.sqrt + 1)
  let f : ℕ × ℕ → ZMod n := fun p => p.2 - r * p.1
  have hcard : (Finset.univ : Finset (ZMod n)).card < A.card := by
    rw [Finset.card_univ, ZMod.card, Finset.card_product, Finset.card_range]
    exact Nat.lt_succ_sqrt n
  obtain ⟨p, hp, q, hq, hne, e⟩ := Finset.exists_ne_map_eq_of_card_lt_of_maps_to hcard (f := f) (fun _ _ => Finset.mem_univ _)
  have hp : p.1 < n.sqrt + 1 ∧ p.2 < n.sqrt + 1 := by simpa [A] using hp
  have hq : q.1 < n.sqrt + 1 ∧ q.2 < n.sqrt + 1 := by simpa [A] using hq
  have e : (p.2 : ZMod n) - r * p.1 = q.2 - r * q.1 := e
  have small : ∀ a, a ≤ n.sqrt → a * a < n := fun a ha => lt_of_le_of_lt (Nat.mul_le_mul ha ha) hlt
  have hne : p.1 ≠ q.1 ∨ p.2 ≠ q.2 := by
    by_contra h
    push_neg at h
    exact hne (Prod.ext h.1 h.2)
  rcases le_total p.1 q.1 with h1 | h1 <;> rcases le_total p.2 q.2 with h2 | h2
  · refine ⟨q.1 - p.1, q.2 - p.2, by omega, small _ (by omega), small _ (by omega), Or.inl ?_⟩
    rw [Nat.cast_sub h1, Nat.cast_sub h2]; linear_combination -e
  · refine ⟨q.1 - p.1, p.2 - q.2, by omega, small _ (by omega), small _ (by omega), Or.inr ?_⟩
    rw [Nat.cast_sub h1, Nat.cast_sub h2]; linear_combination e
  · refine ⟨p.1 - q.1, q.2 - p.2, by omega, small _ (by omega), small _ (by omega), Or.inr ?_⟩
    rw [Nat.cast_sub h1, Nat.cast_sub h2]; linear_combination -e
  · refine ⟨p.1 - q.1, p.2 - q.2, by omega, small _ (by omega), small _ (by omega), Or.inl ?_⟩
    rw [Nat.cast_sub h1, Nat.cast_sub h2]; linear_combination e

/-- The quantity of roots modulo a squarefree composite number is divisible by four. -/
theorem roots_composite {n : ℕ} [NeZero n] (hsq : Squarefree n) (hn : 1 < n) (hp : ¬ n.Prime) {d : ℤ} (h2 : Nat.Coprime 2 n)
    (hd : IsCoprime d (n : ℤ)) : 4 ∣ (roots n (d : ZMod n)).card := by
  obtain ⟨a, ha, hane, han⟩ : ∃ a, a ∣ n ∧ a ≠ 1 ∧ a ≠ n := ⟨n.minFac, n.minFac_dvd, by
    intro h; rw [Nat.minFac_eq_one_iff] at h; omega, fun h => hp (by rw [← h]; exact Nat.minFac_prime (by omega))⟩
  obtain ⟨b, rfl⟩ := ha
  have hco : a.Coprime b := Nat.coprime_of_squarefree_mul hsq
  have ha0 : a ≠ 0 := by rintro rfl; simp at hn
  have hb0 : b ≠ 0 := by rintro rfl; simp at hn
  have hb1 : b ≠ 1 := by rintro rfl; simp at han
  haveI : NeZero a := ⟨ha0⟩
  haveI : NeZero b := ⟨hb0⟩
  rw [roots_mul hco]
  have unit : ∀ m : ℕ, ∀ k : ℤ, IsCoprime k (m : ℤ) → IsUnit (k : ZMod m) := by
    intro m k hk
    obtain ⟨u, v, e⟩ := hk
    have : ((u * k + v * (m : ℤ) : ℤ) : ZMod m) = 1 := by rw [e]; simp
    refine IsUnit.of_mul_eq_one (u : ZMod m) ?_
    push_cast at this
    simp at this
    rw [mul_comm]; exact this
  have cop : ∀ m : ℕ, m ∣ a * b → IsUnit (2 : ZMod m) ∧ IsUnit (d : ZMod m) := by
    intro m hm
    constructor
    · have := unit m 2 (by
        have h := Nat.Coprime.coprime_dvd_right hm h2
        exact Nat.isCoprime_iff_coprime.2 h)
      simpa using this
    · exact unit m d (hd.of_isCoprime_of_dvd_right (by exact_mod_cast hm))
  obtain ⟨x, hx⟩ := roots_even (cop a (Dvd.intro _ rfl)).1 (cop a (Dvd.intro _ rfl)).2 (by omega)
  obtain ⟨y, hy⟩ := roots_even (cop b (Dvd.intro_left _ rfl)).1 (cop b (Dvd.intro_left _ rfl)).2 (by omega)
  exact ⟨x * y, by rw [hx, hy]; ring⟩

end Primes
end Tsar
