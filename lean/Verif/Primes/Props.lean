import Verif.Primes.Model
import Verif.Primes.Atkin
import Mathlib.Tactic.NormNum.Prime

/-!
# Properties of the list of prime numbers
-/

namespace Tsar
namespace Primes

/-- A pair of counters changes the flag of `n`. -/
def hit (i j n : ℕ) : Prop :=
  (n % 12 = 1 ∨ n % 12 = 5) ∧ 4 * (i * i) + j * j = n ∨ n % 12 = 7 ∧ 3 * (i * i) + j * j = n ∨
    n % 12 = 11 ∧ j < i ∧ 3 * (i * i) = n + j * j

instance (i j n : ℕ) : Decidable (hit i j n) := by unfold hit; infer_instance

theorem flip_spec {v : List Bool} {n : ℕ} (h : n < v.length) : flip v n = some (v.set n (!v[n])) := by
  unfold flip
  rw [List.getElem?_eq_getElem h]

/-- A conditional flip. -/
theorem cond_flip {v : List Bool} {bound n : ℕ} {c : Prop} [Decidable c] (hv : v.length = bound + 1) (hc : c → n ≤ bound) :
    ∃ v', flipIf c v n = some v' ∧ v'.length = bound + 1 ∧
      ∀ m, v'[m]? = v[m]?.map fun b => b ^^ decide (c ∧ m = n) := by
  by_cases h : c
  · have hn := hc h
    refine ⟨_, by rw [flipIf, if_pos h, flip_spec (by omega)], by simpa using hv, fun m => ?_⟩
    rw [List.getElem?_set]
    by_cases e : n = m
    · subst e
      simp [h, show n < v.length by omega]
    · have e' : ¬ m = n := fun h => e h.symm
      simp [e, e']
  · exact ⟨v, by rw [flipIf, if_neg h], hv, fun m => by simp [h]⟩

theorem sub64_eq {a b : ℕ} (h : b ≤ a) (ha : a < 2 ^ 64) : sub64 a b = a - b := by
  unfold sub64
  rw [Nat.mod_eq_of_lt (lt_of_le_of_lt h ha)]
  omega

theorem xor3 {a b c d : Prop} [Decidable a] [Decidable b] [Decidable c] [Decidable d] (h1 : ¬ (a ∧ b)) (h2 : ¬ (a ∧ c))
    (h3 : ¬ (b ∧ c)) (h : a ∨ b ∨ c ↔ d) : (decide a ^^ (decide b ^^ decide c)) = decide d := by
  by_cases ha : a <;> by_cases hb : b <;> by_cases hc : c <;> simp_all

theorem body_spec {bound i j : ℕ} {v : List Bool} (hb : bound < 2 ^ 31) (hv : v.length = bound + 1) (hi : i * i ≤ bound)
    (hj : j * j ≤ bound) : ∃ v', body bound i (i * i) j (j * j) v = some v' ∧ v'.length = bound + 1 ∧
      ∀ m ≤ bound, v'[m]? = v[m]?.map fun b => b ^^ decide (hit i j m) := by
  obtain ⟨v1, e1, l1, g1⟩ := cond_flip (n := 4 * (i * i) + j * j)
    (c := 4 * (i * i) + j * j ≤ bound ∧ ((4 * (i * i) + j * j) % 12 = 1 ∨ (4 * (i * i) + j * j) % 12 = 5)) hv fun h => h.1
  have h2 : sub64 (4 * (i * i) + j * j) (i * i) = 3 * (i * i) + j * j := by rw [sub64_eq] <;> omega
  obtain ⟨v2, e2, l2, g2⟩ := cond_flip (n := 3 * (i * i) + j * j)
    (c := 3 * (i * i) + j * j ≤ bound ∧ (3 * (i * i) + j * j) % 12 = 7) l1 fun h => h.1
  obtain ⟨v3, e3, l3, g3⟩ := cond_flip (n := sub64 (3 * (i * i) + j * j) (2 * (j * j)))
    (c := i > j ∧ sub64 (3 * (i * i) + j * j) (2 * (j * j)) ≤ bound ∧
      sub64 (3 * (i * i) + j * j) (2 * (j * j)) % 12 = 11) l2 fun h => h.2.1
  refine ⟨v3, ?_, l3, ?_⟩
  · unfold body
    simp only [e1, Option.bind_some, h2, e2, e3]
  · intro m hm
    rw [g3, g2, g1]
    simp only [Option.map_map]
    congr 1
    funext b
    simp only [Function.comp_apply]
    rw [Bool.xor_assoc, Bool.xor_assoc]
    congr 1
    by_cases hij : j < i
    · have hjj : j * j ≤ i * i := Nat.mul_le_mul hij.le hij.le
      have h3 : sub64 (3 * (i * i) + j * j) (2 * (j * j)) = 3 * (i * i) - j * j := by rw [sub64_eq] <;> omega
      refine xor3 ?_ ?_ ?_ ?_ <;> (try unfold hit) <;> (try rw [h3]) <;> omega
    · generalize sub64 (3 * (i * i) + j * j) (2 * (j * j)) = z
      refine xor3 ?_ (fun h => hij h.2.1.1) (fun h => hij h.2.1.1) ?_
      · omega
      · unfold hit
        clear g1 g2 g3 e1 e2 e3 h2 hi hj hv
        generalize i * i = x
        generalize j * j = y
        constructor
        · rintro (⟨⟨a, b⟩, c⟩ | ⟨⟨a, b⟩, c⟩ | h)
          · subst c; exact Or.inl ⟨b, rfl⟩
          · subst c; exact Or.inr (Or.inl ⟨b, rfl⟩)
          · exact absurd h.1.1 hij
        · rintro (⟨a, b⟩ | ⟨a, b⟩ | h)
          · subst b; exact Or.inl ⟨⟨hm, a⟩, rfl⟩
          · subst b; exact Or.inr (Or.inl ⟨⟨hm, a⟩, rfl⟩)
          · exact absurd h.2.1 hij

/-- Parity of the sum. -/
theorem xor_odd (b : Bool) (c : Prop) [Decidable c] (k : ℕ) :
    ((b ^^ decide c) ^^ decide (Odd k)) = (b ^^ decide (Odd ((if c then 1 else 0) + k))) := by
  by_cases h : c
  · simp only [h, if_true, decide_true]
    have e : decide (Odd (1 + k)) = !decide (Odd k) := by
      rw [← decide_not, decide_eq_decide, Nat.add_comm, Nat.odd_add_one]
    rw [e]
    cases b <;> cases decide (Odd k) <;> rfl
  · simp [h]

theorem inner_spec {bound i : ℕ} (hb : bound < 2 ^ 31) (hi : i * i ≤ bound) : ∀ (k j : ℕ) {v : List Bool},
    v.length = bound + 1 → 0 < j → (j + k - 1) * (j + k - 1) ≤ bound →
    ∃ v', inner bound i (i * i) k j ((j - 1) * (j - 1)) v = some v' ∧ v'.length = bound + 1 ∧
      ∀ m ≤ bound, v'[m]? = v[m]?.map fun b => b ^^ decide (Odd (∑ t ∈ Finset.Ico j (j + k), if hit i t m then 1 else 0)) := by
  intro k
  induction k with
  | zero => intro j v hv _ _; exact ⟨v, rfl, hv, fun m _ => by simp⟩
  | succ k ih =>
    intro j v hv hj hs
    have hjj : j * j ≤ bound := le_trans (Nat.mul_le_mul (by omega) (by omega)) hs
    have ey : (j - 1) * (j - 1) + (2 * j - 1) = j * j := by
      obtain ⟨t, rfl⟩ : ∃ t, j = t + 1 := ⟨j - 1, by omega⟩
      simp only [Nat.add_sub_cancel]
      have : 2 * (t + 1) - 1 = 2 * t + 1 := by omega
      rw [this]; ring
    obtain ⟨v1, e1, l1, g1⟩ := body_spec hb hv hi hjj
    obtain ⟨v2, e2, l2, g2⟩ := ih (j + 1) l1 (by omega) (by rw [show j + 1 + k - 1 = j + (k + 1) - 1 by omega]; exact hs)
    refine ⟨v2, ?_, l2, fun m hm => ?_⟩
    · simp only [inner, Option.bind_eq_bind, ey, e1, Option.bind_some]
      simpa using e2
    · rw [g2 m hm, g1 m hm, Finset.sum_eq_sum_Ico_succ_bot (show j < j + (k + 1) by omega), Option.map_map]
      congr 1
      funext b
      simp only [Function.comp_apply]
      rw [xor_odd, show j + 1 + k = j + (k + 1) by omega]

theorem xor_odd_add (b : Bool) (x y : ℕ) : ((b ^^ decide (Odd x)) ^^ decide (Odd y)) = (b ^^ decide (Odd (x + y))) := by
  have e : decide (Odd (x + y)) = (decide (Odd x) ^^ decide (Odd y)) := by
    by_cases hx : Odd x <;> by_cases hy : Odd y
    · have : ¬ Odd (x + y) := by rw [Nat.not_odd_iff_even]; exact hx.add_odd hy
      simp [hx, hy, this]
    · have : Odd (x + y) := hx.add_even (Nat.not_odd_iff_even.1 hy)
      simp [hx, hy, this]
    · have : Odd (x + y) := (Nat.not_odd_iff_even.1 hx).add_odd hy
      simp [hx, hy, this]
    · have : ¬ Odd (x + y) := by rw [Nat.not_odd_iff_even] at *; exact hx.add hy
      simp [hx, hy, this]
  rw [e, Bool.xor_assoc]

theorem outer_spec {bound s : ℕ} (hb : bound < 2 ^ 31) (hs : s * s ≤ bound) : ∀ (k i : ℕ) {v : List Bool},
    v.length = bound + 1 → 0 < i → i + k - 1 ≤ s →
    ∃ v', outer bound s k i ((i - 1) * (i - 1)) v = some v' ∧ v'.length = bound + 1 ∧
      ∀ m ≤ bound, v'[m]? = v[m]?.map fun b => b ^^ decide (Odd (∑ t ∈ Finset.Ico i (i + k), ∑ u ∈ Finset.Ico 1 (1 + s),
        if hit t u m then 1 else 0)) := by
  intro k
  induction k with
  | zero => intro i v hv _ _; exact ⟨v, rfl, hv, fun m _ => by simp⟩
  | succ k ih =>
    intro i v hv hi hk
    have hii : i * i ≤ bound := le_trans (Nat.mul_le_mul (by omega) (by omega)) hs
    have ey : (i - 1) * (i - 1) + (2 * i - 1) = i * i := by
      obtain ⟨t, rfl⟩ : ∃ t, i = t + 1 := ⟨i - 1, by omega⟩
      simp only [Nat.add_sub_cancel]
      have : 2 * (t + 1) - 1 = 2 * t + 1 := by omega
      rw [this]; ring
    obtain ⟨v1, e1, l1, g1⟩ := inner_spec hb hii s 1 hv (by omega) (by simpa using hs)
    obtain ⟨v2, e2, l2, g2⟩ := ih (i + 1) l1 (by omega) (by omega)
    refine ⟨v2, ?_, l2, fun m hm => ?_⟩
    · simp only [outer, Option.bind_eq_bind, ey]
      simp only [Nat.sub_self, Nat.mul_zero] at e1
      simp only [e1, Option.bind_some]
      simpa using e2
    · rw [g2 m hm, g1 m hm, Finset.sum_eq_sum_Ico_succ_bot (show i < i + (k + 1) by omega), Option.map_map]
      congr 1
      funext b
      simp only [Function.comp_apply]
      rw [xor_odd_add, show i + 1 + k = i + (k + 1) by omega]

/-! ## The number of changes -/

/-- The number of pairs of counters which change the flag. -/
theorem hits_card (s n : ℕ) : (∑ t ∈ Finset.Ico 1 (1 + s), ∑ u ∈ Finset.Ico 1 (1 + s), if hit t u n then 1 else 0) =
    ((Finset.Ico 1 (1 + s) ×ˢ Finset.Ico 1 (1 + s)).filter fun p => hit p.1 p.2 n).card := by
  rw [Finset.card_filter, Finset.sum_product]

theorem le_sqrt_of {a n s : ℕ} (h : a * a ≤ n) (hs : n < (s + 1) * (s + 1)) : a < 1 + s := by
  by_contra hc
  push Not at hc
  have : (s + 1) * (s + 1) ≤ a * a := Nat.mul_le_mul (by omega) (by omega)
  omega

theorem hits_odd {s n : ℕ} (hs : n < (s + 1) * (s + 1)) (hsq : Squarefree n) (hn : 1 < n)
    (hm : n % 12 = 1 ∨ n % 12 = 5 ∨ n % 12 = 7 ∨ n % 12 = 11) :
    Odd (∑ t ∈ Finset.Ico 1 (1 + s), ∑ u ∈ Finset.Ico 1 (1 + s), if hit t u n then 1 else 0) ↔ n.Prime := by
  rw [hits_card]
  have key : ∀ S : Finset (ℕ × ℕ), (∀ p, p ∈ S ↔ (0 < p.1 ∧ 0 < p.2 ∧ hit p.1 p.2 n)) →
      ((Finset.Ico 1 (1 + s) ×ˢ Finset.Ico 1 (1 + s)).filter fun p => hit p.1 p.2 n) = S := by
    intro S hS
    ext p
    rw [hS]
    simp only [Finset.mem_filter, Finset.mem_product, Finset.mem_Ico]
    constructor
    · rintro ⟨⟨a, b⟩, c⟩
      exact ⟨by omega, by omega, c⟩
    · rintro ⟨a, b, c⟩
      refine ⟨⟨⟨a, ?_⟩, b, ?_⟩, c⟩
      · refine le_sqrt_of (n := n) ?_ hs
        rcases c with c | c | c
        · omega
        · omega
        · have := Nat.mul_le_mul c.2.1.le c.2.1.le
          omega
      · refine le_sqrt_of (n := n) ?_ hs
        rcases c with c | c | c
        · omega
        · omega
        · have := Nat.mul_le_mul c.2.1.le c.2.1.le
          omega
  rcases hm with h | h | h | h
  · rw [key (repA n) fun p => by rw [mem_repA]; unfold hit; omega]
    exact repA_odd hsq hn (by omega)
  · rw [key (repA n) fun p => by rw [mem_repA]; unfold hit; omega]
    exact repA_odd hsq hn (by omega)
  · rw [key (repB n) fun p => by rw [mem_repB]; unfold hit; omega]
    exact repB_odd hsq h
  · rw [key (repC n) fun p => by rw [mem_repC]; unfold hit; omega]
    exact repC_odd hsq h

theorem hits_zero {s n : ℕ} (hm : ¬ (n % 12 = 1 ∨ n % 12 = 5 ∨ n % 12 = 7 ∨ n % 12 = 11)) :
    (∑ t ∈ Finset.Ico 1 (1 + s), ∑ u ∈ Finset.Ico 1 (1 + s), if hit t u n then 1 else 0) = 0 := by
  refine Finset.sum_eq_zero fun t _ => Finset.sum_eq_zero fun u _ => ?_
  rw [if_neg]
  unfold hit
  omega

/-! ## Removal of multiples of squares -/

theorem put_spec {v : List Bool} {n : ℕ} {b : Bool} (h : n < v.length) : put v n b = some (v.set n b) := by
  unfold put; rw [if_pos h]

open Classical in
theorem multiples_spec {bound n : ℕ} (hn : 0 < n) : ∀ (f j : ℕ) {v : List Bool}, v.length = bound + 1 →
    bound < j + n * f → ∃ v', multiples bound n (f + 1) j v = some v' ∧ v'.length = bound + 1 ∧
      ∀ m ≤ bound, v'[m]? = v[m]?.map fun b => b && decide (¬ ∃ t, m = j + n * t) := by
  intro f
  induction f with
  | zero =>
    intro j v hv hf
    unfold multiples
    rw [if_neg (by omega)]
    refine ⟨v, rfl, hv, fun m hm => ?_⟩
    have : ¬ ∃ t, m = j + n * t := by rintro ⟨t, ht⟩; omega
    simp [this]
  | succ f ih =>
    intro j v hv hf
    unfold multiples
    by_cases hj : j ≤ bound
    · rw [if_pos hj]
      obtain ⟨v', e, l, g⟩ := ih (j + n) (v := v.set j false) (by simpa using hv) (by rw [Nat.mul_succ] at hf; omega)
      refine ⟨v', by rw [put_spec (by omega)]; simpa using e, l, fun m hm => ?_⟩
      rw [g m hm, List.getElem?_set]
      by_cases e : j = m
      · subst e
        have : ∃ t, j = j + n * t := ⟨0, by simp⟩
        simp [show j < v.length by omega, this]
      · rw [if_neg e]
        congr 1
        funext b
        congr 2
        refine propext (not_congr ⟨?_, ?_⟩)
        · rintro ⟨t, ht⟩; exact ⟨t + 1, by rw [Nat.mul_succ]; omega⟩
        · rintro ⟨t, ht⟩
          cases t with
          | zero => simp at ht; omega
          | succ t => exact ⟨t, by rw [Nat.mul_succ] at ht; omega⟩
    · rw [if_neg hj]
      refine ⟨v, rfl, hv, fun m hm => ?_⟩
      have : ¬ ∃ t, m = j + n * t := by rintro ⟨t, ht⟩; omega
      simp [this]

open Classical in
theorem squares_spec {bound : ℕ} (hb : 4 < bound) : ∀ (k i : ℕ) {v : List Bool}, v.length = bound + 1 → 5 ≤ i →
    i + k ≤ bound + 1 → (∀ p, p.Prime → i ≤ p → p < i + k → v[p]? = some true) →
    ∃ v', squares bound k i v = some v' ∧ v'.length = bound + 1 ∧
      (∀ m : ℕ, v'[m]? = some true → v[m]? = some true) ∧
      (∀ m : ℕ, m.Prime → m ≤ bound → v'[m]? = v[m]?) ∧
      ∀ m p : ℕ, 0 < m → m ≤ bound → p.Prime → i ≤ p → p < i + k → p * p ∣ m → v'[m]? ≠ some true := by
  intro k
  induction k with
  | zero =>
    intro i v hv _ _ _
    exact ⟨v, rfl, hv, fun _ h => h, fun _ _ _ => rfl, fun m p _ _ _ h1 h2 => by omega⟩
  | succ k ih =>
    intro i v hv hi hk hp
    have hlt : i < v.length := by omega
    unfold squares
    rw [List.getElem?_eq_getElem hlt]
    cases hvi : v[i] with
    | true =>
      simp only
      obtain ⟨v1, e1, l1, g1⟩ := multiples_spec (bound := bound) (n := i * i) (by positivity) bound (i * i) hv (by
          have h0 : 1 ≤ i * i := by nlinarith
          have := Nat.mul_le_mul_right bound h0
          omega)
      have g1' : ∀ m : ℕ, m ≤ bound → v1[m]? = some true → v[m]? = some true := by
        intro m hm h
        rw [g1 m hm] at h
        obtain ⟨b, hb, h⟩ := Option.map_eq_some_iff.1 h
        simp only [Bool.and_eq_true] at h
        rw [hb, h.1]
      have g1p : ∀ m : ℕ, m.Prime → m ≤ bound → v1[m]? = v[m]? := by
        intro m hm hmb
        rw [g1 m hmb]
        have : ¬ ∃ t, m = i * i + i * i * t := by
          rintro ⟨t, ht⟩
          have hd : i ∣ m := ⟨i * (1 + t), by rw [ht]; ring⟩
          rcases (Nat.dvd_prime hm).1 hd with h | h
          · omega
          · subst h; nlinarith
        simp [this]
      obtain ⟨v2, e2, l2, a2, b2, c2⟩ := ih (i + 1) l1 (by omega) (by omega) (by
        intro p hpp h1 h2
        rw [g1p p hpp (by omega)]
        exact hp p hpp (by omega) (by omega))
      refine ⟨v2, by simp only [Option.bind_eq_bind, e1, Option.bind_some, e2], l2, ?_, ?_, ?_⟩
      · intro m h
        have h' := a2 m h
        have hm : m ≤ bound := by
          by_contra hc
          rw [List.getElem?_eq_none (by omega)] at h'
          cases h'
        exact g1' m hm h'
      · intro m hm hmb
        rw [b2 m hm hmb, g1p m hm hmb]
      · intro m p h0 hmb hpp h1 h2 hd
        by_cases hpi : p = i
        · subst hpi
          intro h
          have h := a2 m h
          rw [g1 m hmb] at h
          obtain ⟨b, hb, h⟩ := Option.map_eq_some_iff.1 h
          simp only [Bool.and_eq_true, decide_eq_true_eq] at h
          obtain ⟨t, rfl⟩ := hd
          refine h.2 ⟨t - 1, ?_⟩
          cases t with
          | zero => simp at h0
          | succ t => simp only [Nat.add_sub_cancel]; ring
        · exact c2 m p h0 hmb hpp (by omega) (by omega) hd
    | false =>
      simp only
      obtain ⟨v2, e2, l2, a2, b2, c2⟩ := ih (i + 1) hv (by omega) (by omega) (by
        intro p hpp h1 h2
        exact hp p hpp (by omega) (by omega))
      refine ⟨v2, e2, l2, a2, b2, ?_⟩
      intro m p h0 hmb hpp h1 h2 hd
      by_cases hpi : p = i
      · subst hpi
        have := hp p hpp (by omega) (by omega)
        rw [List.getElem?_eq_getElem hlt, hvi] at this
        cases this
      · exact c2 m p h0 hmb hpp (by omega) (by omega) hd

theorem collect_spec {bound : ℕ} {v : List Bool} (hv : v.length = bound + 1) : ∀ (k i : ℕ), i + k ≤ bound + 1 →
    ∃ l, collect v k i = some l ∧ (∀ m, m ∈ l ↔ i ≤ m ∧ m < i + k ∧ v[m]? = some true ∧ m % 3 ≠ 0 ∧ m % 5 ≠ 0) ∧
      l.Pairwise (· < ·) := by
  intro k
  induction k with
  | zero => intro i _; exact ⟨[], rfl, fun m => by simp; omega, List.Pairwise.nil⟩
  | succ k ih =>
    intro i hk
    have hlt : i < v.length := by omega
    obtain ⟨l, e, h, hs⟩ := ih (i + 1) (by omega)
    unfold collect
    rw [List.getElem?_eq_getElem hlt]
    simp only [Option.bind_eq_bind, e, Option.bind_some]
    by_cases c : (v[i] && decide (i % 3 ≠ 0) && decide (i % 5 ≠ 0)) = true
    · rw [if_pos c]
      simp only [Bool.and_eq_true, decide_eq_true_eq] at c
      refine ⟨i :: l, rfl, fun m => ?_, ?_⟩
      · rw [List.mem_cons, h]
        constructor
        · rintro (rfl | ⟨a1, a2, a3⟩)
          · exact ⟨le_refl _, by omega, by rw [List.getElem?_eq_getElem hlt, c.1.1], c.1.2, c.2⟩
          · exact ⟨by omega, by omega, a3⟩
        · rintro ⟨a1, a2, a3⟩
          by_cases hm : m = i
          · exact Or.inl hm
          · exact Or.inr ⟨by omega, by omega, a3⟩
      · refine List.pairwise_cons.2 ⟨fun m hm => ?_, hs⟩
        have := ((h m).1 hm).1
        omega
    · rw [if_neg c]
      refine ⟨l, rfl, fun m => ?_, hs⟩
      rw [h]
      constructor
      · rintro ⟨a1, a2, a3⟩
        exact ⟨by omega, by omega, a3⟩
      · rintro ⟨a1, a2, a3, a4, a5⟩
        refine ⟨?_, by omega, a3, a4, a5⟩
        by_contra hc
        have : m = i := by omega
        subst this
        rw [List.getElem?_eq_getElem hlt] at a3
        simp only [Option.some.injEq] at a3
        exact c (by simp [a3, a4, a5])

theorem prime_mod {p : ℕ} (hp : p.Prime) (h : 5 ≤ p) : p % 12 = 1 ∨ p % 12 = 5 ∨ p % 12 = 7 ∨ p % 12 = 11 := by
  have h2 : p % 2 ≠ 0 := by
    intro e
    rcases (Nat.dvd_prime hp).1 (Nat.dvd_of_mod_eq_zero e) with h | h <;> omega
  have h3 : p % 3 ≠ 0 := by
    intro e
    rcases (Nat.dvd_prime hp).1 (Nat.dvd_of_mod_eq_zero e) with h | h <;> omega
  omega

theorem sieve_spec {bound : ℕ} (hb : 281 < bound) (hb' : bound < 2 ^ 31 - 1) : ∃ l, sieve bound = some l ∧
    (∀ p, p ∈ l ↔ p.Prime ∧ p ≤ bound) ∧ l.Pairwise (· < ·) := by
  have hs1 : bound.sqrt * bound.sqrt ≤ bound := Nat.sqrt_le bound
  have hs2 : bound < (bound.sqrt + 1) * (bound.sqrt + 1) := Nat.lt_succ_sqrt bound
  generalize hs : bound.sqrt = s at hs1 hs2
  have hs3 : s ≤ bound := by
    by_contra hc
    push Not at hc
    nlinarith
  have hs5 : 5 ≤ s := by
    by_contra hc
    push Not at hc
    have : (s + 1) * (s + 1) ≤ 5 * 5 := Nat.mul_le_mul (by omega) (by omega)
    omega
  have p1 : put (List.replicate (bound + 1) false) 2 true = some ((List.replicate (bound + 1) false).set 2 true) :=
    put_spec (by simp; omega)
  have p2 : put ((List.replicate (bound + 1) false).set 2 true) 3 true =
      some (((List.replicate (bound + 1) false).set 2 true).set 3 true) := put_spec (by simp; omega)
  obtain ⟨v3, e3, l3, g3⟩ := outer_spec (bound := bound) (s := s) (by omega) hs1 s 1
    (v := ((List.replicate (bound + 1) false).set 2 true).set 3 true) (by simp) (by omega) (by omega)
  have t3 : ∀ m, 5 ≤ m → m ≤ bound → v3[m]? = some (decide (Odd (∑ t ∈ Finset.Ico 1 (1 + s), ∑ u ∈ Finset.Ico 1 (1 + s),
      if hit t u m then 1 else 0))) := by
    intro m h5 hm
    rw [g3 m hm, List.getElem?_set_ne (by omega), List.getElem?_set_ne (by omega), List.getElem?_replicate,
      if_pos (by omega)]
    simp
  have prime_true : ∀ p : ℕ, p.Prime → 5 ≤ p → p ≤ bound → v3[p]? = some true := by
    intro p hp h5 hpb
    rw [t3 p h5 hpb]
    congr 1
    rw [decide_eq_true_eq]
    exact (hits_odd (by omega) hp.prime.squarefree hp.one_lt (prime_mod hp h5)).2 hp
  obtain ⟨v4, e4, l4, a4, b4, c4⟩ := squares_spec (bound := bound) (by omega) (s + 1 - 5) 5 l3 (le_refl _) (by omega)
    (fun p hp h5 hps => prime_true p hp h5 (by omega))
  obtain ⟨l, e, hl, hsort⟩ := collect_spec l4 (bound + 1 - 6) 6 (by omega)
  refine ⟨2 :: 3 :: 5 :: l, ?_, ?_, ?_⟩
  · unfold sieve
    simp only [Option.bind_eq_bind, p1, p2, Option.bind_some, hs]
    simp only [Nat.sub_self, Nat.mul_zero] at e3
    simp only [e3, Option.bind_some, e4, e]
  · intro p
    have main : 6 ≤ p → (p ∈ l ↔ p.Prime ∧ p ≤ bound) := by
      intro h6
      rw [hl]
      constructor
      · rintro ⟨-, h1, h2, h3, h5⟩
        refine ⟨?_, by omega⟩
        have hpb : p ≤ bound := by omega
        have ht := a4 p h2
        rw [t3 p (by omega) hpb] at ht
        simp only [Option.some.injEq, decide_eq_true_eq] at ht
        by_cases hm : p % 12 = 1 ∨ p % 12 = 5 ∨ p % 12 = 7 ∨ p % 12 = 11
        · refine (hits_odd (by omega) ?_ (by omega) hm).1 ht
          rw [Nat.squarefree_iff_prime_squarefree]
          intro q hq hd
          have hqp : q * q ≤ p := Nat.le_of_dvd (by omega) hd
          have hqs : q < 1 + s := le_sqrt_of hqp (by omega)
          by_cases hq5 : 5 ≤ q
          · exact c4 p q (by omega) hpb hq hq5 (by omega) hd h2
          · have : q = 2 ∨ q = 3 ∨ q = 4 := by have := hq.two_le; omega
            rcases this with rfl | rfl | rfl <;> omega
        · rw [hits_zero hm] at ht
          simp at ht
      · rintro ⟨hp, hpb⟩
        refine ⟨h6, by omega, ?_, ?_, ?_⟩
        · rw [b4 p hp hpb]
          exact prime_true p hp (by omega) hpb
        · intro h
          rcases (Nat.dvd_prime hp).1 (Nat.dvd_of_mod_eq_zero h) with h | h <;> omega
        · intro h
          rcases (Nat.dvd_prime hp).1 (Nat.dvd_of_mod_eq_zero h) with h | h <;> omega
    simp only [List.mem_cons]
    constructor
    · rintro (rfl | rfl | rfl | h)
      · exact ⟨by norm_num, by omega⟩
      · exact ⟨by norm_num, by omega⟩
      · exact ⟨by norm_num, by omega⟩
      · exact (main ((hl p).1 h).1).1 h
    · rintro ⟨hp, hpb⟩
      by_cases h6 : 6 ≤ p
      · exact Or.inr (Or.inr (Or.inr ((main h6).2 ⟨hp, hpb⟩)))
      · have h2 := hp.two_le
        have : p = 2 ∨ p = 3 ∨ p = 4 ∨ p = 5 := by omega
        rcases this with rfl | rfl | rfl | rfl
        · simp
        · simp
        · exact absurd hp (by norm_num)
        · simp
  · refine List.pairwise_cons.2 ⟨?_, List.pairwise_cons.2 ⟨?_, List.pairwise_cons.2 ⟨?_, hsort⟩⟩⟩
    · intro m hm
      simp only [List.mem_cons] at hm
      rcases hm with rfl | rfl | hm
      · omega
      · omega
      · have := ((hl m).1 hm).1; omega
    · intro m hm
      simp only [List.mem_cons] at hm
      rcases hm with rfl | hm
      · omega
      · have := ((hl m).1 hm).1; omega
    · intro m hm
      have := ((hl m).1 hm).1; omega

/-! ## Results -/

theorem cached_sorted : cached.Pairwise (· < ·) := by decide +kernel

theorem cached_spec : ∀ p < 282, p ∈ cached ↔ p.Prime := by decide +kernel

theorem mem_takeWhile_le {b : ℕ} : ∀ {l : List ℕ}, l.Pairwise (· < ·) → ∀ p,
    p ∈ l.takeWhile (fun p => decide (p ≤ b)) ↔ p ∈ l ∧ p ≤ b := by
  intro l
  induction l with
  | nil => simp
  | cons a l ih =>
    intro h p
    obtain ⟨h1, h2⟩ := List.pairwise_cons.1 h
    by_cases hab : a ≤ b
    · simp only [List.takeWhile_cons, hab, decide_true, if_true, List.mem_cons, ih h2]
      constructor
      · rintro (rfl | h)
        · exact ⟨Or.inl rfl, hab⟩
        · exact ⟨Or.inr h.1, h.2⟩
      · rintro ⟨rfl | h, h'⟩
        · exact Or.inl rfl
        · exact Or.inr ⟨h, h'⟩
    · simp only [List.takeWhile_cons, hab, decide_false]
      simp only [Bool.false_eq_true, if_false, List.not_mem_nil, false_iff, List.mem_cons]
      rintro ⟨rfl | h, h'⟩
      · exact hab h'
      · have := h1 p h; omega

/-- C42: the list contains prime numbers which are not greater than a bound and nothing else, and it is sorted. The
bound is less than the greatest value of the type `int`. -/
theorem count_primes_partial (bound : ℕ) (h : bound < 2 ^ 31 - 1) : ∃ l, count bound = some l ∧
    (∀ p, p ∈ l ↔ p.Prime ∧ p ≤ bound) ∧ l.Pairwise (· < ·) := by
  unfold count
  by_cases hb : bound ≤ 281
  · rw [if_pos hb]
    refine ⟨_, rfl, fun p => ?_, ?_⟩
    · rw [mem_takeWhile_le cached_sorted]
      constructor
      · rintro ⟨h1, h2⟩; exact ⟨(cached_spec p (by omega)).1 h1, h2⟩
      · rintro ⟨h1, h2⟩; exact ⟨(cached_spec p (by omega)).2 h1, h2⟩
    · exact cached_sorted.sublist (List.takeWhile_sublist _)
  · rw [if_neg hb, if_neg (by omega)]
    exact sieve_spec (by omega) h

/-- C42: the behavior is undefined for other bounds. -/
theorem count_fails : ¬ ∀ bound < 2 ^ 64, ∃ l, count bound = some l ∧ (∀ p, p ∈ l ↔ p.Prime ∧ p ≤ bound) := by
  intro h
  obtain ⟨l, h, -⟩ := h (2 ^ 31 - 1) (by norm_num)
  unfold count at h
  rw [if_neg (by norm_num), if_pos (by norm_num)] at h
  cases h

/-- A bound which requires the sieve. -/
example : ∃ l, count 400 = some l ∧ 397 ∈ l ∧ 391 ∉ l := by
  obtain ⟨l, h1, h2, -⟩ := count_primes_partial 400 (by norm_num)
  refine ⟨l, h1, (h2 397).2 ⟨by norm_num, by norm_num⟩, fun h => ?_⟩
  exact absurd ((h2 391).1 h).1 (by norm_num)

example : count 300 = some [2, 3, 5, 7, 11, 13, 17, 19, 23, 29, 31, 37, 41, 43, 47, 53, 59, 61, 67, 71, 73, 79, 83, 89, 97,
    101, 103, 107, 109, 113, 127, 131, 137, 139, 149, 151, 157, 163, 167, 173, 179, 181, 191, 193, 197, 199, 211, 223, 227,
    229, 233, 239, 241, 251, 257, 263, 269, 271, 277, 281, 283, 293] := by decide +kernel

end Primes
end Tsar
