import Verif.Primes.Roots

/-!
# The theorem of Atkin and Bernstein

For a squarefree number `n` the number of representations by a suitable quadratic form is odd if and only if `n` is
prime.
-/

namespace Tsar
namespace Primes

/-- Representations of `n` as `4x²+y²`. -/
def repA (n : ℕ) : Finset (ℕ × ℕ) :=
  ((Finset.range (n + 1)) ×ˢ (Finset.range (n + 1))).filter fun p => 0 < p.1 ∧ 0 < p.2 ∧ 4 * (p.1 * p.1) + p.2 * p.2 = n

/-- Representations of `n` as `3x²+y²`. -/
def repB (n : ℕ) : Finset (ℕ × ℕ) :=
  ((Finset.range (n + 1)) ×ˢ (Finset.range (n + 1))).filter fun p => 0 < p.1 ∧ 0 < p.2 ∧ 3 * (p.1 * p.1) + p.2 * p.2 = n

/-- Representations of `n` as `3x²-y²` where `x > y`. -/
def repC (n : ℕ) : Finset (ℕ × ℕ) :=
  ((Finset.range (n + 1)) ×ˢ (Finset.range (n + 1))).filter fun p =>
    p.2 < p.1 ∧ 0 < p.2 ∧ 3 * (p.1 * p.1) = n + p.2 * p.2

theorem mem_repA {n : ℕ} {p : ℕ × ℕ} : p ∈ repA n ↔ 0 < p.1 ∧ 0 < p.2 ∧ 4 * (p.1 * p.1) + p.2 * p.2 = n := by
  simp only [repA, Finset.mem_filter, Finset.mem_product, Finset.mem_range, and_iff_right_iff_imp]
  rintro ⟨h1, h2, h3⟩
  constructor <;> nlinarith

theorem mem_repB {n : ℕ} {p : ℕ × ℕ} : p ∈ repB n ↔ 0 < p.1 ∧ 0 < p.2 ∧ 3 * (p.1 * p.1) + p.2 * p.2 = n := by
  simp only [repB, Finset.mem_filter, Finset.mem_product, Finset.mem_range, and_iff_right_iff_imp]
  rintro ⟨h1, h2, h3⟩
  constructor <;> nlinarith

theorem mem_repC {n : ℕ} {p : ℕ × ℕ} : p ∈ repC n ↔ p.2 < p.1 ∧ 0 < p.2 ∧ 3 * (p.1 * p.1) = n + p.2 * p.2 := by
  simp only [repC, Finset.mem_filter, Finset.mem_product, Finset.mem_range, and_iff_right_iff_imp]
  rintro ⟨h1, h2, h3⟩
  constructor <;> nlinarith

theorem zmod_dvd {n : ℕ} {a : ℤ} (h : (a : ZMod n) = 0) : (n : ℤ) ∣ a := (ZMod.intCast_zmod_eq_zero_iff_dvd a n).1 h

theorem natCast_self_zero {n k : ℕ} (h : k = n) : (k : ZMod n) = 0 := by rw [h]; exact ZMod.natCast_self n

/-- A common factor of the first component and of a squarefree number is trivial. -/
theorem coprime_of_rep {n x y : ℕ} (hsq : Squarefree n) (h : ∀ p, p ∣ x → p ∣ n → p ∣ y * y)
    (h' : ∀ p, p ∣ x → p ∣ y → p * p ∣ n) : Nat.Coprime x n := by
  refine Nat.coprime_of_dvd fun p hp hx hn => ?_
  have hy : p ∣ y := by
    rcases (Nat.Prime.dvd_mul hp).1 (h p hx hn) with h | h <;> exact h
  have := hsq p (h' p hx hy)
  exact hp.one_lt.ne' (Nat.isUnit_iff.1 this)

theorem coprime_add {k n x y : ℕ} (hsq : Squarefree n) (h : k * (x * x) + y * y = n) : Nat.Coprime x n := by
  refine coprime_of_rep hsq (y := y) (fun p hx hn => ?_) (fun p hx hy => ?_)
  · rw [← h] at hn
    exact (Nat.dvd_add_right (Dvd.dvd.mul_left (Dvd.dvd.mul_right hx x) k)).1 hn
  · rw [← h]
    exact Nat.dvd_add (Dvd.dvd.mul_left (Nat.mul_dvd_mul hx hx) k) (Nat.mul_dvd_mul hy hy)

/-- Different representations by a positive definite form determine different roots. -/
theorem unique_pos {k n x y u v : ℕ} (hk : 2 ≤ k) (hx : 0 < x) (hy : 0 < y) (hu : 0 < u) (hv : 0 < v)
    (h1 : k * (x * x) + y * y = n) (h2 : k * (u * u) + v * v = n) :
    ((x : ZMod n) * v = y * u → x = u ∧ y = v) ∧ (x : ZMod n) * v ≠ -(y * u) := by
  have hn : 0 < n := by nlinarith
  have h1' : (k : ℤ) * (x * x) + y * y = n := by exact_mod_cast h1
  have h2' : (k : ℤ) * (u * u) + v * v = n := by exact_mod_cast h2
  have hk' : (2 : ℤ) ≤ k := by exact_mod_cast hk
  have hx' : (0 : ℤ) < x := by exact_mod_cast hx
  have hy' : (0 : ℤ) < y := by exact_mod_cast hy
  have hu' : (0 : ℤ) < u := by exact_mod_cast hu
  have hv' : (0 : ℤ) < v := by exact_mod_cast hv
  have hn' : (0 : ℤ) < n := by exact_mod_cast hn
  have small : ∀ m : ℤ, (n : ℤ) ∣ m → (k : ℤ) * (m * m) ≤ n * n → m = 0 := by
    rintro m ⟨t, rfl⟩ h
    by_contra hne
    have ht : t ≠ 0 := fun h => hne (by simp [h])
    have ht : 1 ≤ t * t := by
      rcases lt_or_gt_of_ne ht with h | h <;> nlinarith
    have h3 : (n : ℤ) * n * (k * (t * t)) ≤ n * n * 1 := by nlinarith
    have h4 : (0 : ℤ) < n * n := by positivity
    have h5 := le_of_mul_le_mul_left h3 h4
    nlinarith
  constructor
  · intro e
    have hd : (n : ℤ) ∣ x * v - y * u := zmod_dvd (by push_cast; linear_combination e)
    have h0 := small _ hd (by
      have : ((k : ℤ) * x * u + y * v) ^ 2 + k * ((x * v - y * u) * (x * v - y * u)) = n * n := by
        nth_rewrite 2 [← h1']
        rw [← h2']; ring
      nlinarith [sq_nonneg ((k : ℤ) * x * u + y * v)])
    have h0 : x * v = y * u := by
      have : (x : ℤ) * v = y * u := by linarith
      exact_mod_cast this
    rcases lt_trichotomy x u with h | h | h
    · exfalso
      have a1 : y < v := by
        by_contra hc
        push Not at hc
        nlinarith
      nlinarith [Nat.mul_lt_mul_of_lt_of_lt h h, Nat.mul_lt_mul_of_lt_of_lt a1 a1]
    · subst h
      refine ⟨rfl, ?_⟩
      have : x * v = x * y := by rw [h0]; ring
      exact (Nat.eq_of_mul_eq_mul_left hx this).symm
    · exfalso
      have a1 : v < y := by
        by_contra hc
        push Not at hc
        nlinarith
      nlinarith [Nat.mul_lt_mul_of_lt_of_lt h h, Nat.mul_lt_mul_of_lt_of_lt a1 a1]
  · intro e
    have hd : (n : ℤ) ∣ x * v + y * u := zmod_dvd (by push_cast; linear_combination e)
    have h0 := small _ hd (by
      have : ((k : ℤ) * x * u - y * v) ^ 2 + k * ((x * v + y * u) * (x * v + y * u)) = n * n := by
        nth_rewrite 2 [← h1']
        rw [← h2']; ring
      nlinarith [sq_nonneg ((k : ℤ) * x * u - y * v)])
    have : (0 : ℤ) < x * v + y * u := by positivity
    omega

theorem not_square_of_squarefree {n : ℕ} (hsq : Squarefree n) (hn : 1 < n) : ¬ IsSquare n := by
  rintro ⟨a, rfl⟩
  have := hsq a (dvd_refl _)
  rw [Nat.isUnit_iff] at this
  subst this
  omega

theorem not_mul_sq {k n x : ℕ} (hsq : Squarefree n) (hk : k.Prime) (hkn : ¬ k ∣ n) (h : k * (x * x) = n) : False :=
  hkn ⟨x * x, h.symm⟩

/-- Cancellation of a unit. -/
theorem cancel_unit {n : ℕ} {k : ℕ} (hk : Nat.Coprime k n) {a b : ZMod n} (h : (k : ZMod n) * a = k * b) : a = b := by
  have hu := ZMod.coe_mul_inv_eq_one k hk
  calc a = (k * (k : ZMod n)⁻¹) * a := by rw [hu, one_mul]
    _ = (k : ZMod n)⁻¹ * (k * a) := by ring
    _ = (k : ZMod n)⁻¹ * (k * b) := by rw [h]
    _ = (k * (k : ZMod n)⁻¹) * b := by ring
    _ = b := by rw [hu, one_mul]

theorem sq_mod4 (x : ℕ) : (x * x) % 4 = (if x % 2 = 0 then 0 else 1) := by
  rcases Nat.even_or_odd' x with ⟨c, rfl | rfl⟩
  · rw [show 2 * c * (2 * c) = 4 * (c * c) by ring]; simp
  · rw [show (2 * c + 1) * (2 * c + 1) = 4 * (c * c + c) + 1 by ring]
    have : (2 * c + 1) % 2 ≠ 0 := by omega
    rw [if_neg this]; omega

theorem odd_sq_mod8 (x : ℕ) (h : x % 2 = 1) : (x * x) % 8 = 1 := by
  obtain ⟨c, rfl⟩ : ∃ c, x = 2 * c + 1 := ⟨x / 2, by omega⟩
  obtain ⟨d, hd⟩ : ∃ d, c * c + c = 2 * d := by
    rcases Nat.even_or_odd' c with ⟨e, rfl | rfl⟩
    · exact ⟨2 * e * e + e, by ring⟩
    · exact ⟨2 * e * e + 3 * e + 1, by ring⟩
  rw [show (2 * c + 1) * (2 * c + 1) = 4 * (c * c + c) + 1 by ring, hd]
  omega

theorem sq_mod3 (x : ℕ) : (x * x) % 3 = (if x % 3 = 0 then 0 else 1) := by
  rw [Nat.mul_mod]
  have : x % 3 = 0 ∨ x % 3 = 1 ∨ x % 3 = 2 := by omega
  rcases this with h | h | h <;> rw [h] <;> simp

/-- A common part: the number of representations is odd if and only if the number is prime. -/
theorem odd_iff_prime {n : ℕ} (hsq : Squarefree n) (hn : 1 < n) (h2 : Nat.Coprime 2 n) {d : ℤ} (hd : IsCoprime d (n : ℤ))
    {c : ℕ} [NeZero n] (hc : (roots n (d : ZMod n)).card = 2 * c)
    (hp : ∀ [Fact n.Prime], IsSquare (d : ZMod n)) : Odd c ↔ n.Prime := by
  constructor
  · intro ho
    by_contra hnp
    have := roots_composite hsq hn hnp h2 hd
    rw [hc] at this
    obtain ⟨k, rfl⟩ := ho
    omega
  · intro hpr
    have : Fact n.Prime := ⟨hpr⟩
    have hu : IsUnit (2 : ZMod n) := by
      have := ZMod.coe_mul_inv_eq_one 2 h2
      exact IsUnit.of_mul_eq_one _ (by simpa using this)
    have hd0 : (d : ZMod n) ≠ 0 := by
      intro h
      have hdv := zmod_dvd h
      obtain ⟨a, b, e⟩ := hd
      have : (n : ℤ) ∣ 1 := by
        rw [← e]
        exact dvd_add (Dvd.dvd.mul_left hdv a) (Dvd.intro_left b rfl)
      have := Int.le_of_dvd (by norm_num) this
      omega
    have := roots_prime hu hd0 hp
    rw [hc] at this
    have : c = 1 := by omega
    subst this
    exact odd_one

theorem coprime_two {n : ℕ} (h : n % 2 = 1) : Nat.Coprime 2 n := by
  rw [Nat.coprime_two_left, Nat.odd_iff]; exact h

theorem coprime_three {n : ℕ} (h : n % 3 ≠ 0) : Nat.Coprime 3 n := by
  rw [Nat.Prime.coprime_iff_not_dvd Nat.prime_three]
  omega

theorem coprime_int {a n : ℕ} (h : Nat.Coprime a n) : IsCoprime (a : ℤ) (n : ℤ) := Nat.isCoprime_iff_coprime.2 h

/-- Products of a root. -/
theorem dvd_of_root {n x y : ℕ} {r : ZMod n} {d : ℤ} (hr : r * r = d) (h : (y : ZMod n) = r * x ∨ (y : ZMod n) = -r * x) :
    (n : ℤ) ∣ y * y - d * (x * x) := by
  refine zmod_dvd ?_
  push_cast
  rcases h with h | h <;> rw [h] <;> linear_combination (x : ZMod n) * x * hr

/-- `4x²+y²` -/
theorem repA_odd {n : ℕ} (hsq : Squarefree n) (hn : 1 < n) (hm : n % 4 = 1) : Odd (repA n).card ↔ n.Prime := by
  have : NeZero n := ⟨by omega⟩
  have h2 : Nat.Coprime 2 n := coprime_two (by omega)
  have h4 : Nat.Coprime 4 n := Nat.Coprime.mul_left h2 h2
  refine odd_iff_prime (d := -4) hsq hn h2 ((coprime_int h4).neg_left) ?_ ?_
  · refine roots_card (repA n) ?_ ?_ ?_ ?_ ?_
    · intro p hp
      exact coprime_add hsq (mem_repA.1 hp).2.2
    · intro p hp
      have := natCast_self_zero (mem_repA.1 hp).2.2
      push_cast at this ⊢
      linear_combination this
    · intro p hp q hq h
      obtain ⟨a1, a2, a3⟩ := mem_repA.1 hp
      obtain ⟨b1, b2, b3⟩ := mem_repA.1 hq
      obtain ⟨e1, e2⟩ := (unique_pos (by norm_num) a1 a2 b1 b2 a3 b3).1 h
      exact Prod.ext e1 e2
    · intro p hp q hq
      obtain ⟨a1, a2, a3⟩ := mem_repA.1 hp
      obtain ⟨b1, b2, b3⟩ := mem_repA.1 hq
      exact (unique_pos (by norm_num) a1 a2 b1 b2 a3 b3).2
    · intro r hr
      obtain ⟨x, y, hne, hx, hy, h⟩ := thue (not_square_of_squarefree hsq hn) r
      have hd := dvd_of_root hr h
      obtain ⟨m, hm'⟩ : n ∣ y * y + 4 * (x * x) := by
        have : (n : ℤ) ∣ ((y * y + 4 * (x * x) : ℕ) : ℤ) := by push_cast; simpa using hd
        exact_mod_cast this
      have hr' : r * r = -4 := by rw [hr]; norm_num
      have nsq := not_square_of_squarefree hsq hn
      have hm1 : 0 < m := by
        rcases Nat.eq_zero_or_pos m with rfl | h0
        · exfalso
          rcases hne with h0 | h0
          · have := Nat.pos_of_ne_zero h0; nlinarith
          · have := Nat.pos_of_ne_zero h0; nlinarith
        · exact h0
      have hm5 : m < 5 := by
        by_contra hc
        push Not at hc
        have : n * 5 ≤ n * m := Nat.mul_le_mul_left n hc
        omega
      have sx := sq_mod4 x
      have sy := sq_mod4 y
      -- two representations by sums of squares
      have fin : ∀ a b : ℕ, 4 * (a * a) + b * b = n → ((b : ZMod n) = r * a ∨ (b : ZMod n) = -r * a) →
          ∃ p ∈ repA n, (p.2 : ZMod n) = r * p.1 ∨ (p.2 : ZMod n) = -r * p.1 := by
        intro a b e hab
        refine ⟨(a, b), mem_repA.2 ⟨?_, ?_, e⟩, hab⟩
        · rcases Nat.eq_zero_or_pos a with rfl | h0
          · exact absurd ⟨b, by omega⟩ nsq
          · exact h0
        · rcases Nat.eq_zero_or_pos b with rfl | h0
          · exfalso; omega
          · exact h0
      have : m = 1 ∨ m = 2 ∨ m = 3 ∨ m = 4 := by omega
      rcases this with rfl | rfl | rfl | rfl
      · exact fin x y (by omega) h
      · exfalso
        split at sy <;> omega
      · exfalso
        split at sy <;> omega
      · -- y is even
        have hy2 : y % 2 = 0 := by
          by_contra hc
          rw [if_neg hc] at sy
          omega
        obtain ⟨z, rfl⟩ : ∃ z, y = 2 * z := ⟨y / 2, by omega⟩
        have e : z * z + x * x = n := by nlinarith
        have sz := sq_mod4 z
        by_cases hx2 : x % 2 = 0
        · obtain ⟨w, rfl⟩ : ∃ w, x = 2 * w := ⟨x / 2, by omega⟩
          refine fin w z (by nlinarith) ?_
          rcases h with h | h
          · left
            refine cancel_unit h2 ?_
            push_cast at h ⊢
            linear_combination h
          · right
            refine cancel_unit h2 ?_
            push_cast at h ⊢
            linear_combination h
        · have hz2 : z % 2 = 0 := by
            by_contra hc
            rw [if_neg hc] at sz
            rw [if_neg hx2] at sx
            omega
          obtain ⟨w, rfl⟩ : ∃ w, z = 2 * w := ⟨z / 2, by omega⟩
          refine fin w x (by nlinarith) ?_
          rcases h with h | h
          · right
            refine cancel_unit h4 ?_
            push_cast at h ⊢
            linear_combination r * h + x * hr'
          · left
            refine cancel_unit h4 ?_
            push_cast at h ⊢
            linear_combination -r * h + x * hr'
  · intro hp
    have := (ZMod.exists_sq_eq_neg_one_iff (p := n)).2 (by omega)
    obtain ⟨r, hr⟩ := this
    refine ⟨2 * r, ?_⟩
    push_cast
    linear_combination 4 * hr

/-- `3x²+y²` -/
theorem repB_odd {n : ℕ} (hsq : Squarefree n) (hm : n % 12 = 7) : Odd (repB n).card ↔ n.Prime := by
  have hn : 1 < n := by omega
  have : NeZero n := ⟨by omega⟩
  have h2 : Nat.Coprime 2 n := coprime_two (by omega)
  have h3 : Nat.Coprime 3 n := coprime_three (by omega)
  refine odd_iff_prime (d := -3) hsq hn h2 ((coprime_int h3).neg_left) ?_ ?_
  · refine roots_card (repB n) ?_ ?_ ?_ ?_ ?_
    · intro p hp
      exact coprime_add hsq (mem_repB.1 hp).2.2
    · intro p hp
      have := natCast_self_zero (mem_repB.1 hp).2.2
      push_cast at this ⊢
      linear_combination this
    · intro p hp q hq h
      obtain ⟨a1, a2, a3⟩ := mem_repB.1 hp
      obtain ⟨b1, b2, b3⟩ := mem_repB.1 hq
      obtain ⟨e1, e2⟩ := (unique_pos (by norm_num) a1 a2 b1 b2 a3 b3).1 h
      exact Prod.ext e1 e2
    · intro p hp q hq
      obtain ⟨a1, a2, a3⟩ := mem_repB.1 hp
      obtain ⟨b1, b2, b3⟩ := mem_repB.1 hq
      exact (unique_pos (by norm_num) a1 a2 b1 b2 a3 b3).2
    · intro r hr
      obtain ⟨x, y, hne, hx, hy, h⟩ := thue (not_square_of_squarefree hsq hn) r
      have hd := dvd_of_root hr h
      obtain ⟨m, hm'⟩ : n ∣ y * y + 3 * (x * x) := by
        have : (n : ℤ) ∣ ((y * y + 3 * (x * x) : ℕ) : ℤ) := by push_cast; simpa using hd
        exact_mod_cast this
      have hr' : r * r = -3 := by rw [hr]; norm_num
      have nsq := not_square_of_squarefree hsq hn
      have hm1 : 0 < m := by
        rcases Nat.eq_zero_or_pos m with rfl | h0
        · exfalso
          rcases hne with h0 | h0
          · have := Nat.pos_of_ne_zero h0; nlinarith
          · have := Nat.pos_of_ne_zero h0; nlinarith
        · exact h0
      have hm5 : m < 4 := by
        by_contra hc
        push Not at hc
        have : n * 4 ≤ n * m := Nat.mul_le_mul_left n hc
        omega
      have sx := sq_mod4 x
      have sy := sq_mod4 y
      have fin : ∀ a b : ℕ, 3 * (a * a) + b * b = n → ((b : ZMod n) = r * a ∨ (b : ZMod n) = -r * a) →
          ∃ p ∈ repB n, (p.2 : ZMod n) = r * p.1 ∨ (p.2 : ZMod n) = -r * p.1 := by
        intro a b e hab
        refine ⟨(a, b), mem_repB.2 ⟨?_, ?_, e⟩, hab⟩
        · rcases Nat.eq_zero_or_pos a with rfl | h0
          · exact absurd ⟨b, by omega⟩ nsq
          · exact h0
        · rcases Nat.eq_zero_or_pos b with rfl | h0
          · exfalso; omega
          · exact h0
      have : m = 1 ∨ m = 2 ∨ m = 3 := by omega
      rcases this with rfl | rfl | rfl
      · exact fin x y (by omega) h
      · exfalso
        split at sy <;> split at sx <;> omega
      · have hy3 : y % 3 = 0 := by
          by_contra hc
          have := sq_mod3 y
          rw [if_neg hc] at this
          omega
        obtain ⟨z, rfl⟩ : ∃ z, y = 3 * z := ⟨y / 3, by omega⟩
        refine fin z x (by nlinarith) ?_
        rcases h with h | h
        · right
          refine cancel_unit h3 ?_
          push_cast at h ⊢
          linear_combination r * h + x * hr'
        · left
          refine cancel_unit h3 ?_
          push_cast at h ⊢
          linear_combination -r * h + x * hr'
  · intro hp
    have : Fact (Nat.Prime 3) := ⟨Nat.prime_three⟩
    have h1 := (ZMod.exists_sq_eq_prime_iff_of_mod_four_eq_three (p := n) (q := 3) (by omega) (by norm_num) (by omega)).not
    have h3' : ¬ IsSquare ((3 : ℕ) : ZMod n) := by
      rw [h1, not_not]
      have : (n : ZMod 3) = 1 := by
        have : ((n % 3 : ℕ) : ZMod 3) = n := ZMod.natCast_mod n 3
        rw [← this, show n % 3 = 1 by omega]; simp
      rw [this]; exact IsSquare.one
    have h1' : ¬ IsSquare (-1 : ZMod n) := by
      rw [ZMod.exists_sq_eq_neg_one_iff]; omega
    have e : quadraticChar (ZMod n) (-3) = 1 := by
      rw [show (-3 : ZMod n) = -1 * ((3 : ℕ) : ZMod n) by push_cast; ring, map_mul,
        quadraticChar_neg_one_iff_not_isSquare.2 h1', quadraticChar_neg_one_iff_not_isSquare.2 h3']
      norm_num
    have h0 : (-3 : ZMod n) ≠ 0 := by
      intro h
      rw [h] at e
      simp at e
    have := (quadraticChar_one_iff_isSquare h0).1 e
    simpa using this

theorem mul_lt_of_rep {n x y u v : ℕ} (a1 : y < x) (a3 : 3 * (x * x) = n + y * y) (b1 : v < u)
    (b3 : 3 * (u * u) = n + v * v) : x * u * 2 < n := by
  have u1 : x * x * 2 < n := by nlinarith
  have u2 : u * u * 2 < n := by nlinarith
  rcases le_total x u with h | h
  · have := Nat.mul_le_mul_right u h
    omega
  · have := Nat.mul_le_mul_left x h
    omega

theorem two_not_square : ∀ s : ZMod 3, (2 : ZMod 3) ≠ s * s := by decide

theorem no_sqrt_three : ∀ y x : ℕ, y * y = 3 * (x * x) → y = 0 := by
  intro y
  induction y using Nat.strong_induction_on with
  | _ y ih =>
    intro x h
    by_contra h0
    have hy3 : y % 3 = 0 := by
      by_contra hc
      have := sq_mod3 y
      rw [if_neg hc] at this
      omega
    obtain ⟨z, rfl⟩ : ∃ z, y = 3 * z := ⟨y / 3, by omega⟩
    have e : x * x = 3 * (z * z) := by nlinarith
    have hz : 0 < z := by omega
    have hlt : x < 3 * z := by nlinarith
    have := ih x hlt z e
    subst this
    nlinarith

/-- `3x²-y²` -/
theorem repC_odd {n : ℕ} (hsq : Squarefree n) (hm : n % 12 = 11) : Odd (repC n).card ↔ n.Prime := by
  have hn : 1 < n := by omega
  have : NeZero n := ⟨by omega⟩
  have h2 : Nat.Coprime 2 n := coprime_two (by omega)
  have h3 : Nat.Coprime 3 n := coprime_three (by omega)
  refine odd_iff_prime (d := 3) hsq hn h2 (coprime_int h3) ?_ ?_
  · refine roots_card (repC n) ?_ ?_ ?_ ?_ ?_
    · intro p hp
      have e := (mem_repC.1 hp).2.2
      refine coprime_of_rep hsq (y := p.2) (fun q hx hq => ?_) (fun q hx hy => ?_)
      · have : q ∣ n + p.2 * p.2 := by rw [← e]; exact Dvd.dvd.mul_left (Dvd.dvd.mul_right hx _) 3
        exact (Nat.dvd_add_right hq).1 this
      · have : q * q ∣ n + p.2 * p.2 := by rw [← e]; exact Dvd.dvd.mul_left (Nat.mul_dvd_mul hx hx) 3
        exact (Nat.dvd_add_left (Nat.mul_dvd_mul hy hy)).1 this
    · intro p hp
      have := congrArg (fun k : ℕ => (k : ZMod n)) (mem_repC.1 hp).2.2
      push_cast at this ⊢
      rw [ZMod.natCast_self] at this
      linear_combination -this
    · intro p hp q hq h
      obtain ⟨a1, a2, a3⟩ := mem_repC.1 hp
      obtain ⟨b1, b2, b3⟩ := mem_repC.1 hq
      have hd : (n : ℤ) ∣ p.1 * q.2 - p.2 * q.1 := zmod_dvd (by push_cast; linear_combination h)
      have u3 := mul_lt_of_rep a1 a3 b1 b3
      have h0 : p.1 * q.2 = p.2 * q.1 := by
        have e0 : (p.1 : ℤ) * q.2 - p.2 * q.1 = 0 := by
          refine Int.eq_zero_of_abs_lt_dvd hd ?_
          have v1 : (p.1 * q.2 : ℤ) < n := by
            have : p.1 * q.2 < p.1 * q.1 := Nat.mul_lt_mul_of_pos_left b1 (by omega)
            have : p.1 * q.2 < n := by omega
            exact_mod_cast this
          have v2 : (p.2 * q.1 : ℤ) < n := by
            have : p.2 * q.1 < p.1 * q.1 := Nat.mul_lt_mul_of_pos_right a1 (by omega)
            have : p.2 * q.1 < n := by omega
            exact_mod_cast this
          rw [abs_lt]
          constructor <;> nlinarith
        have : (p.1 : ℤ) * q.2 = p.2 * q.1 := by linarith
        exact_mod_cast this
      have a3' : 3 * ((p.1 : ℤ) * p.1) = n + p.2 * p.2 := by exact_mod_cast a3
      have b3' : 3 * ((q.1 : ℤ) * q.1) = n + q.2 * q.2 := by exact_mod_cast b3
      -- squares are proportional
      have s1 : p.1 * p.1 * n = q.1 * q.1 * n := by
        have h0' : (p.1 : ℤ) * q.2 = p.2 * q.1 := by exact_mod_cast h0
        have : (p.1 : ℤ) * p.1 * n = q.1 * q.1 * n := by
          have t : ((p.1 : ℤ) * q.2) * (p.1 * q.2) = (p.2 * q.1) * (p.2 * q.1) := by rw [h0']
          linear_combination (-(p.1 : ℤ) * p.1) * b3' + (q.1 : ℤ) * q.1 * a3' - t
        exact_mod_cast this
      have s2 : p.1 = q.1 := Nat.mul_self_inj.1 (Nat.eq_of_mul_eq_mul_right (by omega) s1)
      have s3 : p.2 = q.2 := by
        rw [s2] at h0
        rw [mul_comm p.2] at h0
        exact (Nat.eq_of_mul_eq_mul_left (by omega) h0).symm
      exact Prod.ext s2 s3
    · intro p hp q hq h
      obtain ⟨a1, a2, a3⟩ := mem_repC.1 hp
      obtain ⟨b1, b2, b3⟩ := mem_repC.1 hq
      have hd : (n : ℤ) ∣ p.1 * q.2 + p.2 * q.1 := zmod_dvd (by push_cast; linear_combination h)
      have hd : n ∣ p.1 * q.2 + p.2 * q.1 := by exact_mod_cast hd
      have u3 := mul_lt_of_rep a1 a3 b1 b3
      have v1 : p.1 * q.2 < p.1 * q.1 := Nat.mul_lt_mul_of_pos_left b1 (by omega)
      have v2 : p.2 * q.1 < p.1 * q.1 := Nat.mul_lt_mul_of_pos_right a1 (by omega)
      have v3 : 0 < p.1 * q.2 := Nat.mul_pos (by omega) b2
      have := Nat.le_of_dvd (by omega) hd
      omega
    · intro r hr
      obtain ⟨x, y, hne, hx, hy, h⟩ := thue (not_square_of_squarefree hsq hn) r
      have hd := dvd_of_root hr h
      have hr' : r * r = 3 := by rw [hr]; norm_num
      obtain ⟨m, hm'⟩ : (n : ℤ) ∣ 3 * (x * x) - y * y := by
        rw [show (3 : ℤ) * (x * x) - y * y = -(y * y - 3 * (x * x)) by ring]
        exact (dvd_neg).2 hd
      have hx' : (x : ℤ) * x < n := by exact_mod_cast hx
      have hy' : (y : ℤ) * y < n := by exact_mod_cast hy
      have hn' : (1 : ℤ) < n := by exact_mod_cast hn
      have hm3 : m < 3 := by
        by_contra hc
        push Not at hc
        nlinarith
      have hm0 : -1 < m := by
        by_contra hc
        push Not at hc
        nlinarith
      have hm1 : m ≠ 0 := by
        rintro rfl
        have e : 3 * (x * x) = y * y := by
          have : (3 : ℤ) * (x * x) = y * y := by linarith
          exact_mod_cast this
        have hy0 := no_sqrt_three y x e.symm
        rcases hne with h0 | h0
        · exact h0 (by subst hy0; simpa using e)
        · exact h0 hy0
      have : m = 1 ∨ m = 2 := by omega
      rcases this with rfl | rfl
      · have e : 3 * (x * x) = n + y * y := by
          have : (3 : ℤ) * (x * x) = n + y * y := by linarith
          exact_mod_cast this
        have hx0 : 0 < x := by
          rcases Nat.eq_zero_or_pos x with rfl | h0
          · omega
          · exact h0
        have hy0 : 0 < y := by
          rcases Nat.eq_zero_or_pos y with rfl | h0
          · exfalso; omega
          · exact h0
        rcases lt_trichotomy y x with hlt | heq | hgt
        · exact ⟨(x, y), mem_repC.2 ⟨hlt, hy0, e⟩, h⟩
        · exfalso
          subst heq
          omega
        · have w1 : 2 * y < 3 * x := by nlinarith
          have c1 : ((2 * x - y : ℕ) : ℤ) = 2 * x - y := by omega
          have c2 : ((3 * x - 2 * y : ℕ) : ℤ) = 3 * x - 2 * y := by omega
          refine ⟨(2 * x - y, 3 * x - 2 * y), mem_repC.2 ⟨by omega, by omega, ?_⟩, ?_⟩
          · have : (3 : ℤ) * (((2 * x - y : ℕ) : ℤ) * ((2 * x - y : ℕ) : ℤ)) =
                n + ((3 * x - 2 * y : ℕ) : ℤ) * ((3 * x - 2 * y : ℕ) : ℤ) := by
              have e' : (3 : ℤ) * (x * x) = n + y * y := by exact_mod_cast e
              rw [c1, c2]; linear_combination e'
            exact_mod_cast this
          · have d1 : ((2 * x - y : ℕ) : ZMod n) = 2 * x - y := by
              have := congrArg (fun k : ℤ => (k : ZMod n)) c1
              push_cast at this
              exact this
            have d2 : ((3 * x - 2 * y : ℕ) : ZMod n) = 3 * x - 2 * y := by
              have := congrArg (fun k : ℤ => (k : ZMod n)) c2
              push_cast at this
              exact this
            show ((3 * x - 2 * y : ℕ) : ZMod n) = r * ((2 * x - y : ℕ) : ZMod n) ∨
              ((3 * x - 2 * y : ℕ) : ZMod n) = -r * ((2 * x - y : ℕ) : ZMod n)
            rw [d1, d2]
            rcases h with h | h
            · right
              rw [h]
              linear_combination (-(x : ZMod n)) * hr'
            · left
              rw [h]
              linear_combination (-(x : ZMod n)) * hr'
      · exfalso
        have e : 3 * (x * x) = n * 2 + y * y := by
          have : (3 : ℤ) * (x * x) = n * 2 + y * y := by linarith
          exact_mod_cast this
        have sx := sq_mod4 x
        have sy := sq_mod4 y
        by_cases hx2 : x % 2 = 0 <;> by_cases hy2 : y % 2 = 0
        · rw [if_pos hx2] at sx; rw [if_pos hy2] at sy; omega
        · rw [if_pos hx2] at sx; rw [if_neg hy2] at sy; omega
        · rw [if_neg hx2] at sx; rw [if_pos hy2] at sy; omega
        · have := odd_sq_mod8 x (by omega)
          have := odd_sq_mod8 y (by omega)
          omega
  · intro hp
    have : Fact (Nat.Prime 3) := ⟨Nat.prime_three⟩
    have h1 := (ZMod.exists_sq_eq_prime_iff_of_mod_four_eq_three (p := n) (q := 3) (by omega) (by norm_num) (by omega))
    have : IsSquare ((3 : ℕ) : ZMod n) := by
      rw [h1]
      have : (n : ZMod 3) = 2 := by
        have : ((n % 3 : ℕ) : ZMod 3) = n := ZMod.natCast_mod n 3
        rw [← this, show n % 3 = 2 by omega]; simp
      rw [this]
      rintro ⟨s, hs⟩
      exact two_not_square s hs
    simpa using this

end Primes
end Tsar
