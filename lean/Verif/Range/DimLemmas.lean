import Verif.Range.Spec
import Mathlib.Tactic.Ring
import Mathlib.Tactic.Linarith

/-! # Helper lemmas: one dimension -/

namespace Tsar.Range

theorem Dim.mem_le_last {d : Dim} {i : Nat} (h : d.Mem i) : d.start ≤ i ∧ i ≤ d.last := by
  obtain ⟨k, hk, rfl⟩ := h
  refine ⟨Nat.le_add_right _ _, ?_⟩
  unfold Dim.last
  exact Nat.add_le_add_left (Nat.mul_le_mul_left _ (by omega)) _

theorem ceilDiv_le {a b t : Int} (hb : 0 < b) : ceilDiv a b ≤ t ↔ a ≤ b * t := by
  unfold ceilDiv
  have : -((-a) / b) ≤ t ↔ -t ≤ (-a) / b := by omega
  rw [this, Int.le_ediv_iff_mul_le hb]
  constructor <;> intro h <;> nlinarith

theorem le_floorDiv {a b t : Int} (hb : 0 < b) : t ≤ floorDiv a b ↔ b * t ≤ a := by
  unfold floorDiv
  rw [Int.le_ediv_iff_mul_le hb, mul_comm]

/-- Membership expressed with an integer parameter. -/
theorem Dim.mem_iff_int {d : Dim} {i : Nat} :
    d.Mem i ↔ ∃ x : Int, 0 ≤ x ∧ x ≤ (d.trip : Int) - 1 ∧ (i : Int) = d.start + d.step * x := by
  constructor
  · rintro ⟨k, hk, rfl⟩
    exact ⟨k, by omega, by omega, by push_cast; ring⟩
  · rintro ⟨x, h0, h1, h⟩
    refine ⟨x.toNat, by omega, ?_⟩
    have : ((x.toNat : Nat) : Int) = x := Int.toNat_of_nonneg h0
    zify; rw [this]; exact h

theorem dimIntersect_spec {S : Solver} (hS : SolverOK S) {l r : Dim}
    (hl : l.Wf) (hr : r.Wf) (hsz : l.size = r.size) :
    (dimIntersect S l r = .empty ∧ ∀ i, ¬ (l.Mem i ∧ r.Mem i)) ∨
    (∃ d, dimIntersect S l r = .ok d ∧ d.Wf ∧ d.size = l.size ∧
      ∀ i, d.Mem i ↔ l.Mem i ∧ r.Mem i) := by
  obtain ⟨hl1, hl2⟩ := hl
  obtain ⟨hr1, hr2⟩ := hr
  have hK1 : (0 : Int) < l.step := by exact_mod_cast hl1
  have hK2 : (0 : Int) < r.step := by exact_mod_cast hr1
  unfold dimIntersect
  rw [if_neg (by simpa using hsz), if_neg (by omega)]
  by_cases hdis : l.last < r.start ∨ r.last < l.start
  · left
    rw [if_pos hdis]
    refine ⟨rfl, fun i ⟨h1, h2⟩ => ?_⟩
    have := Dim.mem_le_last h1
    have := Dim.mem_le_last h2
    omega
  rw [if_neg hdis]
  have hc := hS l.step r.step ((r.start : Int) - l.start) hK1 hK2
  simp only
  -- a common index is a solution of the equation
  have key : ∀ i, (l.Mem i ∧ r.Mem i) ↔ ∃ x y : Int, 0 ≤ x ∧ x ≤ (l.trip : Int) - 1 ∧ 0 ≤ y ∧
      y ≤ (r.trip : Int) - 1 ∧ (i : Int) = l.start + l.step * x ∧
      (l.step : Int) * x - r.step * y = (r.start : Int) - l.start := by
    intro i
    rw [Dim.mem_iff_int, Dim.mem_iff_int]
    constructor
    · rintro ⟨⟨x, a, b, c⟩, ⟨y, a', b', c'⟩⟩
      exact ⟨x, y, a, b, a', b', c, by linarith⟩
    · rintro ⟨x, y, a, b, a', b', c, e⟩
      exact ⟨⟨x, a, b, c⟩, ⟨y, a', b', by linarith⟩⟩
  cases hsol : S l.step r.step ((r.start : Int) - l.start) with
  | none =>
    rw [hsol] at hc
    left
    refine ⟨rfl, fun i h => ?_⟩
    obtain ⟨x, y, _, _, _, _, _, e⟩ := (key i).1 h
    exact hc x y e
  | some q =>
    obtain ⟨A, B, C, D⟩ := q
    rw [hsol] at hc
    obtain ⟨hB, hD, hline⟩ := hc
    simp only
    rw [if_neg (by omega)]
    set tMin := max (ceilDiv (0 - A) B) (ceilDiv (0 - C) D) with htMin
    set tMax := min (floorDiv ((l.trip : Int) - 1 - A) B) (floorDiv ((r.trip : Int) - 1 - C) D)
      with htMax
    have key2 : ∀ i, (l.Mem i ∧ r.Mem i) ↔ ∃ t : Int, tMin ≤ t ∧ t ≤ tMax ∧
        (i : Int) = l.start + l.step * (A + B * t) := by
      intro i
      rw [key i]
      constructor
      · rintro ⟨x, y, a, b, a', b', c, e⟩
        obtain ⟨t, rfl, rfl⟩ := (hline x y).1 e
        refine ⟨t, ?_, ?_, c⟩
        · rw [htMin, max_le_iff, ceilDiv_le hB, ceilDiv_le hD]; constructor <;> linarith
        · rw [htMax, le_min_iff, le_floorDiv hB, le_floorDiv hD]; constructor <;> linarith
      · rintro ⟨t, h1, h2, h3⟩
        rw [htMin, max_le_iff, ceilDiv_le hB, ceilDiv_le hD] at h1
        rw [htMax, le_min_iff, le_floorDiv hB, le_floorDiv hD] at h2
        exact ⟨A + B * t, C + D * t, by linarith, by linarith, by linarith, by linarith, h3,
          (hline _ _).2 ⟨t, rfl, rfl⟩⟩
    by_cases hlt : tMax < tMin
    · left
      rw [if_pos hlt]
      refine ⟨rfl, fun i h => ?_⟩
      obtain ⟨t, h1, h2, _⟩ := (key2 i).1 h
      omega
    · right
      rw [if_neg hlt]
      have hx : 0 ≤ A + B * tMin := by
        have : ceilDiv (0 - A) B ≤ tMin := le_max_left _ _
        rw [ceilDiv_le hB] at this; linarith
      have hstep : 0 < (l.step : Int) * B := mul_pos hK1 hB
      have hstart : 0 ≤ (l.step : Int) * A + l.start + l.step * B * tMin := by
        have h := mul_nonneg hK1.le hx
        have h3 : (0 : Int) ≤ l.start := by positivity
        nlinarith
      rw [if_neg (by omega)]
      refine ⟨_, rfl, ⟨by simp only; omega, by simp only; omega⟩, rfl, fun i => ?_⟩
      rw [key2 i, Dim.mem_iff_int]
      simp only
      have e1 : (((↑l.step * A + ↑l.start + ↑l.step * B * tMin).toNat : Nat) : Int) =
          l.step * A + l.start + l.step * B * tMin := Int.toNat_of_nonneg hstart
      have e2 : (((↑l.step * B : Int).toNat : Nat) : Int) = l.step * B :=
        Int.toNat_of_nonneg hstep.le
      have e3 : (((tMax - tMin + 1).toNat : Nat) : Int) = tMax - tMin + 1 :=
        Int.toNat_of_nonneg (by omega)
      rw [e1, e2, e3]
      constructor
      · rintro ⟨x, h0, h1, h2⟩
        exact ⟨tMin + x, by omega, by omega, by rw [h2]; ring⟩
      · rintro ⟨t, h0, h1, h2⟩
        exact ⟨t - tMin, by omega, by omega, by rw [h2]; ring⟩

/-- Facts about a sub-progression: position of its start and step ratio. -/
theorem sub_facts {d i : Dim} (hd : d.Wf) (hi : i.Wf) (hsub : ∀ x, i.Mem x → d.Mem x) :
    ∃ a, i.start = d.start + d.step * a ∧
      (i.trip = 1 ∧ a < d.trip ∨
       ∃ m, 1 < i.trip ∧ 0 < m ∧ i.step = d.step * m ∧ a + m * (i.trip - 1) < d.trip) := by
  obtain ⟨hd1, hd2⟩ := hd
  obtain ⟨hi1, hi2⟩ := hi
  obtain ⟨a, ha, h0⟩ := hsub i.start ⟨0, hi2, by simp⟩
  refine ⟨a, h0, ?_⟩
  by_cases h1 : i.trip = 1
  · exact Or.inl ⟨h1, ha⟩
  · right
    obtain ⟨b, hb, hb0⟩ := hsub (i.start + i.step * 1) ⟨1, by omega, by simp⟩
    obtain ⟨c, hc, hc0⟩ := hsub (i.start + i.step * (i.trip - 1)) ⟨i.trip - 1, by omega, rfl⟩
    have hab : a < b := by
      by_contra hn
      have : d.step * b ≤ d.step * a := Nat.mul_le_mul_left _ (by omega)
      omega
    obtain ⟨m, rfl⟩ : ∃ m, b = a + m := ⟨b - a, by omega⟩
    have hm : i.step = d.step * m := by
      rw [h0] at hb0; simp only [Nat.mul_add, Nat.mul_one] at hb0; omega
    refine ⟨m, by omega, by omega, hm, ?_⟩
    have : d.step * c = d.step * (a + m * (i.trip - 1)) := by
      rw [h0, hm] at hc0
      have e : d.step * (a + m * (i.trip - 1)) = d.step * a + d.step * m * (i.trip - 1) := by ring
      omega
    have := Nat.eq_of_mul_eq_mul_left hd1 this
    omega

/-- The pieces are exactly the difference. -/
theorem difference_spec {d i : Dim} (hd : d.Wf) (hi : i.Wf) (hsub : ∀ x, i.Mem x → d.Mem x)
    {th : Nat} {ps : List Dim} (h : difference d i th = some ps) :
    (∀ p ∈ ps, p.Wf ∧ p.size = d.size) ∧
    ∀ x, (∃ p ∈ ps, p.Mem x) ↔ d.Mem x ∧ ¬ i.Mem x := by
  obtain ⟨a, ha, hcase⟩ := sub_facts hd hi hsub
  obtain ⟨hd1, hd2⟩ := hd
  obtain ⟨hi1, hi2⟩ := hi
  -- normalised description of the pieces through the position inside of `d`
  set s := d.step with hs
  -- `e` is a position of the last element of `i` in `d`
  obtain ⟨e, he, hele, hae⟩ : ∃ e, i.last = d.start + s * e ∧ e < d.trip ∧ a ≤ e := by
    rcases hcase with ⟨h1, h2⟩ | ⟨m, h1, h2, h3, h4⟩
    · exact ⟨a, by simp [Dim.last, h1, ha], h2, le_refl _⟩
    · refine ⟨a + m * (i.trip - 1), ?_, h4, Nat.le_add_right _ _⟩
      simp only [Dim.last, ha, h3]; ring
  have hleft : ∀ x, (∃ p ∈ (if d.start < i.start then
      [(⟨d.start, s, (i.start - d.start) / s, d.size⟩ : Dim)] else []), p.Mem x) ↔
      ∃ k, k < a ∧ x = d.start + s * k := by
    intro x
    have e1 : (i.start - d.start) / s = a := by
      rw [ha, Nat.add_sub_cancel_left, Nat.mul_div_cancel_left _ hd1]
    by_cases hlt : d.start < i.start
    · rw [if_pos hlt]; simp [Dim.Mem, e1]
    · rw [if_neg hlt]
      have : a = 0 := by
        have : s * a = 0 := by omega
        rcases Nat.mul_eq_zero.1 this with h | h <;> omega
      simp [this]
  have hdlast : d.last = d.start + s * (d.trip - 1) := rfl
  have hright : ∀ x, (∃ p ∈ (if d.last > i.last then
      [(⟨i.last + s, s, (d.last - i.last) / s, d.size⟩ : Dim)] else []), p.Mem x) ↔
      ∃ k, e < k ∧ k < d.trip ∧ x = d.start + s * k := by
    intro x
    have e1 : d.last - i.last = s * (d.trip - 1 - e) := by
      rw [hdlast, he, Nat.mul_sub s (d.trip - 1) e]; omega
    have e2 : (d.last - i.last) / s = d.trip - 1 - e := by
      rw [e1, Nat.mul_div_cancel_left _ hd1]
    by_cases hlt : d.last > i.last
    · rw [if_pos hlt]
      simp only [List.mem_singleton, exists_eq_left, Dim.Mem, e2]
      constructor
      · rintro ⟨k, hk, rfl⟩
        exact ⟨e + 1 + k, by omega, by omega, by rw [he]; ring⟩
      · rintro ⟨k, hk1, hk2, rfl⟩
        obtain ⟨j, rfl⟩ : ∃ j, k = e + 1 + j := ⟨k - e - 1, by omega⟩
        exact ⟨j, by omega, by rw [he]; ring⟩
    · rw [if_neg hlt]
      have h0 : d.trip - 1 - e = 0 := by
        have : s * (d.trip - 1 - e) = 0 := by omega
        rcases Nat.mul_eq_zero.1 this with h | h <;> omega
      simp only [List.not_mem_nil, false_and, exists_false, false_iff, not_exists, not_and]
      intro k hk1 hk2; omega
  have hmemd : ∀ x, d.Mem x ↔ ∃ k, k < d.trip ∧ x = d.start + s * k := fun x => Iff.rfl
  have hinj : ∀ k k', d.start + s * k = d.start + s * k' → k = k' := by
    intro k k' hkk
    exact Nat.eq_of_mul_eq_mul_left hd1 (by omega)
  have hwfL : ∀ p ∈ (if d.start < i.start then
      [(⟨d.start, s, (i.start - d.start) / s, d.size⟩ : Dim)] else []), p.Wf ∧ p.size = d.size := by
    intro p hp
    by_cases hlt : d.start < i.start
    · rw [if_pos hlt] at hp
      obtain rfl := List.mem_singleton.1 hp
      refine ⟨⟨hd1, ?_⟩, rfl⟩
      simp only
      rw [ha, Nat.add_sub_cancel_left, Nat.mul_div_cancel_left _ hd1]
      by_contra h0
      have : a = 0 := by omega
      rw [this] at ha; simp at ha; omega
    · rw [if_neg hlt] at hp; simp at hp
  have hwfR : ∀ p ∈ (if d.last > i.last then
      [(⟨i.last + s, s, (d.last - i.last) / s, d.size⟩ : Dim)] else []),
      p.Wf ∧ p.size = d.size := by
    intro p hp
    by_cases hlt : d.last > i.last
    · rw [if_pos hlt] at hp
      obtain rfl := List.mem_singleton.1 hp
      refine ⟨⟨hd1, ?_⟩, rfl⟩
      simp only
      rw [hdlast, he, show d.start + s * (d.trip - 1) - (d.start + s * e) = s * (d.trip - 1 - e) by
        rw [Nat.mul_sub s (d.trip - 1) e]; omega, Nat.mul_div_cancel_left _ hd1]
      by_contra h0
      have h1 : d.trip - 1 = e := by omega
      rw [hdlast, he, h1] at hlt; omega
    · rw [if_neg hlt] at hp; simp at hp
  unfold difference at h
  simp only at h
  rcases hcase with ⟨h1, h2⟩ | ⟨m, h1, h2, h3, h4⟩
  · -- single element
    rw [if_neg (by omega)] at h
    obtain rfl := (Option.some.inj h).symm
    refine ⟨fun p hp => ?_, fun x => ?_⟩
    · rcases List.mem_append.1 hp with hp | hp
      · exact hwfL p hp
      · exact hwfR p hp
    · have hea : e = a := by
        have : i.last = i.start := by simp [Dim.last, h1]
        rw [this, ha] at he
        exact (hinj _ _ he).symm
      have hmi : i.Mem x ↔ x = d.start + s * a := by
        constructor
        · rintro ⟨k, hk, rfl⟩
          have : k = 0 := by omega
          simp [this, ha]
        · rintro rfl; exact ⟨0, hi2, by simp [ha]⟩
      simp only [List.mem_append, or_and_right, exists_or]
      rw [hleft x, hright x, hmi, hmemd]
      constructor
      · rintro (⟨k, hk, rfl⟩ | ⟨k, hk, hk', rfl⟩)
        · exact ⟨⟨k, by omega, rfl⟩, fun hc => by have := hinj _ _ hc; omega⟩
        · exact ⟨⟨k, by omega, rfl⟩, fun hc => by have := hinj _ _ hc; omega⟩
      · rintro ⟨⟨k, hk, rfl⟩, hne⟩
        by_cases hka : k < a
        · exact Or.inl ⟨k, hka, rfl⟩
        · right
          refine ⟨k, ?_, hk, rfl⟩
          have : k ≠ a := fun h => hne (by rw [h])
          omega
  · rw [if_pos h1] at h
    have hdiv : i.step / s = m := by rw [h3, Nat.mul_div_cancel_left _ hd1]
    have hea : e = a + m * (i.trip - 1) := by
      have : i.last = d.start + s * (a + m * (i.trip - 1)) := by
        simp only [Dim.last, ha, h3]; ring
      rw [this] at he
      exact (hinj _ _ he).symm
    rw [hdiv] at h
    by_cases hth : m - 1 > th
    · rw [if_pos hth] at h; simp at h
    rw [if_neg hth] at h
    obtain rfl := (Option.some.inj h).symm
    refine ⟨fun p hp => ?_, fun x => ?_⟩
    · rcases List.mem_append.1 hp with hp | hp
      · rcases List.mem_append.1 hp with hp | hp
        · exact hwfL p hp
        · exact hwfR p hp
      · obtain ⟨j, _, rfl⟩ := List.mem_map.1 hp
        exact ⟨⟨hi1, by simp only; omega⟩, rfl⟩
    · have hmi : i.Mem x ↔ ∃ j, j < i.trip ∧ x = d.start + s * (a + m * j) := by
        constructor
        · rintro ⟨k, hk, rfl⟩; exact ⟨k, hk, by rw [ha, h3]; ring⟩
        · rintro ⟨k, hk, rfl⟩; exact ⟨k, hk, by rw [ha, h3]; ring⟩
      have hcen : (∃ p ∈ (List.range (m - 1)).map (fun j =>
          (⟨i.start + s * (j + 1), i.step, i.trip - 1, d.size⟩ : Dim)), p.Mem x) ↔
          ∃ j q, j + 1 < m ∧ q < i.trip - 1 ∧ x = d.start + s * (a + (j + 1) + m * q) := by
        simp only [List.mem_map, List.mem_range, exists_exists_and_eq_and, Dim.Mem]
        constructor
        · rintro ⟨j, hj, q, hq, rfl⟩
          exact ⟨j, q, by omega, hq, by rw [ha, h3]; ring⟩
        · rintro ⟨j, q, hj, hq, rfl⟩
          exact ⟨j, by omega, q, hq, by rw [ha, h3]; ring⟩
      simp only [List.mem_append, or_and_right, exists_or]
      rw [hleft x, hright x, hcen, hmi, hmemd]
      have hbound : ∀ q, q < i.trip → m * q ≤ m * (i.trip - 1) := fun q hq =>
        Nat.mul_le_mul_left _ (by omega)
      constructor
      · rintro ((⟨k, hk, rfl⟩ | ⟨k, hk, hk', rfl⟩) | ⟨j, q, hj, hq, rfl⟩)
        · refine ⟨⟨k, by omega, rfl⟩, ?_⟩
          rintro ⟨q, hq, hc⟩
          have := hinj _ _ hc
          have : k ≥ a := by rw [this]; exact Nat.le_add_right _ _
          omega
        · refine ⟨⟨k, by omega, rfl⟩, ?_⟩
          rintro ⟨q, hq, hc⟩
          have := hinj _ _ hc
          have := hbound q hq
          omega
        · have hb : m * (q + 1) ≤ m * (i.trip - 1) := Nat.mul_le_mul_left _ (by omega)
          rw [Nat.mul_add] at hb
          refine ⟨⟨_, by omega, rfl⟩, ?_⟩
          rintro ⟨q', hq', hc⟩
          have hc := hinj _ _ hc
          have hc : (j + 1) + m * q = m * q' := by omega
          have h5 : ((j + 1) + m * q) % m = j + 1 := by
            rw [Nat.add_mul_mod_self_left, Nat.mod_eq_of_lt hj]
          rw [hc, Nat.mul_mod_right] at h5
          omega
      · rintro ⟨⟨k, hk, rfl⟩, hne⟩
        by_cases hka : k < a
        · exact Or.inl (Or.inl ⟨k, hka, rfl⟩)
        by_cases hke : e < k
        · exact Or.inl (Or.inr ⟨k, hke, hk, rfl⟩)
        right
        have hdm := Nat.div_add_mod (k - a) m
        have hml := Nat.mod_lt (k - a) h2
        have hq : (k - a) / m ≤ i.trip - 1 := by
          rw [Nat.div_le_iff_le_mul_add_pred h2]; omega
        by_cases hr0 : (k - a) % m = 0
        · exfalso
          apply hne
          refine ⟨(k - a) / m, by omega, ?_⟩
          congr 2; omega
        · have hq' : (k - a) / m < i.trip - 1 := by
            rcases Nat.lt_or_ge ((k - a) / m) (i.trip - 1) with h | h
            · exact h
            · have : (k - a) / m = i.trip - 1 := by omega
              rw [this] at hdm; omega
          refine ⟨(k - a) % m - 1, (k - a) / m, by omega, hq', ?_⟩
          congr 2; omega

end Tsar.Range
