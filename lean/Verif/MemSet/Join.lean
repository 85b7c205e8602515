import Verif.MemSet.Spec
import Verif.Range.Bytes

/-!
# Joining of locations
-/

namespace Tsar.MemSet

open Tsar.Range

theorem joinDim_self (d : Dim) : joinDim d d = d := by
  simp [joinDim]

theorem joinDimChanged_self (d : Dim) : joinDimChanged d d = false := by
  simp [joinDimChanged]

/-- Arithmetic: a multiple of the step. -/
theorem mem_aligned {d : Dim} {x : Nat} (hd : d.Wf) :
    d.Mem x ↔ d.start ≤ x ∧ x ≤ d.last ∧ (x - d.start) % d.step = 0 := by
  obtain ⟨hs, ht⟩ := hd
  constructor
  · rintro ⟨k, hk, rfl⟩
    refine ⟨by omega, ?_, ?_⟩
    · unfold Dim.last
      have : d.step * k ≤ d.step * (d.trip - 1) := Nat.mul_le_mul_left _ (by omega)
      omega
    · simp
  · rintro ⟨h1, h2, h3⟩
    obtain ⟨k, hk⟩ := Nat.dvd_of_mod_eq_zero h3
    refine ⟨k, ?_, by omega⟩
    unfold Dim.last at h2
    have : d.step * k ≤ d.step * (d.trip - 1) := by omega
    have := Nat.le_of_mul_le_mul_left this hs
    omega

theorem last_shift {d : Dim} {m : Nat} (hd : d.Wf) :
    d.start + d.step * (d.trip + m - 1) = d.last + d.step * m := by
  unfold Dim.last
  have : d.trip + m - 1 = (d.trip - 1) + m := by have := hd.2; omega
  rw [this, Nat.mul_add]; omega

/-- The joined dimension starts at the minimal start, ends at the maximal end and has the
same step. -/
theorem joinDim_shape {w t : Dim} (hw : w.Wf) (ht : t.Wf) (hst : w.step = t.step)
    (h1 : t.start ≥ w.start → (t.start - w.start) % t.step = 0)
    (h2 : w.start ≥ t.start → (w.start - t.start) % t.step = 0) :
    (joinDim w t).Wf ∧ (joinDim w t).step = t.step ∧ (joinDim w t).size = t.size ∧
    (joinDim w t).start = min w.start t.start ∧ (joinDim w t).last = max w.last t.last := by
  obtain ⟨ws, wst, wt, wz⟩ := w
  obtain ⟨ts, tst, tt, tz⟩ := t
  simp only at hst
  subst hst
  obtain ⟨hs, hwt⟩ := hw
  obtain ⟨_, htt⟩ := ht
  simp only at hs hwt htt h1 h2
  obtain ⟨a, rfl⟩ : ∃ a, wt = a + 1 := ⟨wt - 1, by omega⟩
  obtain ⟨c, rfl⟩ : ∃ c, tt = c + 1 := ⟨tt - 1, by omega⟩
  have hdvd : ∀ x y : Nat, x = wst * y → x / wst = y := by
    rintro _ y rfl; exact Nat.mul_div_cancel_left _ hs
  unfold joinDim
  simp only [Dim.last, Nat.add_sub_cancel]
  by_cases hlt : ws < ts
  · obtain ⟨k, hk⟩ := Nat.dvd_of_mod_eq_zero (h1 (by omega))
    have hts : ts = ws + wst * k := by omega
    rw [if_pos hlt]
    simp only [hdvd _ _ hk]
    have e1 : c + 1 + k - 1 = c + k := by omega
    simp only [e1]
    by_cases h : ws + wst * a > ws + wst * (c + k)
    · have hak : wst * (c + k) < wst * a := by omega
      have hak' := Nat.lt_of_mul_lt_mul_left hak
      obtain ⟨m, rfl⟩ : ∃ m, a = c + k + m := ⟨a - (c + k), by omega⟩
      rw [if_pos h]
      have h3 : ws + wst * (c + k + m) - (ws + wst * (c + k)) = wst * m := by
        rw [Nat.mul_add wst (c + k) m]; omega
      simp only [hdvd _ _ h3]
      have e2 : c + 1 + k + m - 1 = c + k + m := by omega
      simp only [Dim.Wf, e2, hts]
      refine ⟨⟨hs, by omega⟩, trivial, trivial, by omega, ?_⟩
      rw [Nat.mul_add wst (c + k) m, Nat.mul_add wst c k]; omega
    · rw [if_neg h]
      simp only [Dim.Wf, e1, hts]
      refine ⟨⟨hs, by omega⟩, trivial, trivial, by omega, ?_⟩
      rw [Nat.mul_add wst c k] at *; omega
  · obtain ⟨k, hk⟩ := Nat.dvd_of_mod_eq_zero (h2 (by omega))
    have hts : ws = ts + wst * k := by omega
    rw [if_neg hlt]
    simp only [Nat.add_sub_cancel]
    by_cases h : ws + wst * a > ts + wst * c
    · rw [hts] at h
      have hak : wst * c < wst * (k + a) := by rw [Nat.mul_add]; omega
      have hak' := Nat.lt_of_mul_lt_mul_left hak
      obtain ⟨m, hm⟩ : ∃ m, k + a = c + m := ⟨k + a - c, by omega⟩
      rw [hts, if_pos h]
      have hm' : wst * k + wst * a = wst * c + wst * m := by
        rw [← Nat.mul_add, ← Nat.mul_add, hm]
      have h3 : ts + wst * k + wst * a - (ts + wst * c) = wst * m := by omega
      simp only [hdvd _ _ h3]
      have e2 : c + 1 + m - 1 = c + m := by omega
      simp only [Dim.Wf, e2]
      refine ⟨⟨hs, by omega⟩, trivial, trivial, by omega, ?_⟩
      rw [Nat.mul_add wst c m]; omega
    · rw [if_neg h]
      simp only [Dim.Wf, Nat.add_sub_cancel]
      refine ⟨⟨hs, by omega⟩, trivial, trivial, by omega, by omega⟩

theorem aligned_mod {s x a b : Nat} (ha : a ≤ x) (hb : b ≤ x)
    (hab : a ≥ b → (a - b) % s = 0) (hba : b ≥ a → (b - a) % s = 0) :
    (x - a) % s = 0 ↔ (x - b) % s = 0 := by
  rcases Nat.le_total b a with h | h
  · obtain ⟨k, hk⟩ := Nat.dvd_of_mod_eq_zero (hab h)
    have : x - b = (x - a) + s * k := by omega
    rw [this, Nat.add_mul_mod_self_left]
  · obtain ⟨k, hk⟩ := Nat.dvd_of_mod_eq_zero (hba h)
    have : x - a = (x - b) + s * k := by omega
    rw [this, Nat.add_mul_mod_self_left]

/-- Members of the joined dimension. -/
theorem joinDim_mem {w t : Dim} (hw : w.Wf) (ht : t.Wf) (h : dimJoinable t w = true) :
    (joinDim w t).Wf ∧ (joinDim w t).size = t.size ∧
    ∀ x, (joinDim w t).Mem x ↔ t.Mem x ∨ w.Mem x := by
  simp only [dimJoinable, Bool.not_eq_true', Bool.or_eq_false_iff, Bool.and_eq_false_iff,
    decide_eq_false_iff_not, not_not, not_lt, ge_iff_le, not_le] at h
  obtain ⟨⟨⟨⟨hst, h1⟩, h2⟩, h3⟩, h4⟩ := h
  have h1' : t.start ≥ w.start → (t.start - w.start) % t.step = 0 := fun h => by
    rcases h1 with h1 | h1
    · omega
    · exact h1
  have h2' : w.start ≥ t.start → (w.start - t.start) % t.step = 0 := fun h => by
    rcases h2 with h2 | h2
    · omega
    · exact h2
  obtain ⟨j1, j2, j3, j4, j5⟩ := joinDim_shape hw ht hst.symm h1' h2'
  refine ⟨j1, j3, fun x => ?_⟩
  rw [mem_aligned j1, mem_aligned hw, mem_aligned ht, j2, j4, j5, ← hst]
  have hs := ht.1
  have hwl : w.start ≤ w.last := by unfold Dim.last; omega
  have htl : t.start ≤ t.last := by unfold Dim.last; omega
  rcases Nat.le_total w.start t.start with hle | hle
  · rw [Nat.min_eq_left hle]
    have h1'' := h1' hle
    constructor
    · rintro ⟨x1, x2, x3⟩
      by_cases hx : t.start ≤ x
      · by_cases hx2 : x ≤ t.last
        · exact Or.inl ⟨hx, hx2, (aligned_mod (s := t.step) x1 hx h2' h1').1 x3⟩
        · exact Or.inr ⟨x1, by omega, x3⟩
      · right
        refine ⟨x1, ?_, x3⟩
        by_contra hx2
        -- `w.last < x < t.start`, so `t.start - w.last = step`, but `x` is aligned
        have hgap : t.start - w.last = t.step := by
          rcases h4 with h4 | h4
          · omega
          · exact h4
        obtain ⟨k, hk⟩ := Nat.dvd_of_mod_eq_zero x3
        have hl : w.last = w.start + t.step * (w.trip - 1) := by rw [hst]; rfl
        have e1 : t.step * (w.trip - 1) < t.step * k := by omega
        have e2 := Nat.lt_of_mul_lt_mul_left e1
        have e3 : t.step * (w.trip - 1 + 1) ≤ t.step * k := Nat.mul_le_mul_left _ e2
        rw [Nat.mul_add] at e3
        omega
    · rintro (⟨x1, x2, x3⟩ | ⟨x1, x2, x3⟩)
      · exact ⟨by omega, by omega, (aligned_mod (s := t.step) (by omega) x1 h2' h1').2 x3⟩
      · exact ⟨by omega, by omega, x3⟩
  · rw [Nat.min_eq_right hle]
    constructor
    · rintro ⟨x1, x2, x3⟩
      by_cases hx : w.start ≤ x
      · by_cases hx2 : x ≤ w.last
        · exact Or.inr ⟨hx, hx2, (aligned_mod (s := t.step) x1 hx h1' h2').1 x3⟩
        · exact Or.inl ⟨x1, by omega, x3⟩
      · left
        refine ⟨x1, ?_, x3⟩
        by_contra hx2
        have hgap : w.start - t.last = t.step := by
          rcases h3 with h3 | h3
          · omega
          · exact h3
        obtain ⟨k, hk⟩ := Nat.dvd_of_mod_eq_zero x3
        have hl : t.last = t.start + t.step * (t.trip - 1) := rfl
        have e1 : t.step * (t.trip - 1) < t.step * k := by omega
        have e2 := Nat.lt_of_mul_lt_mul_left e1
        have e3 : t.step * (t.trip - 1 + 1) ≤ t.step * k := Nat.mul_le_mul_left _ e2
        rw [Nat.mul_add] at e3
        omega
    · rintro (⟨x1, x2, x3⟩ | ⟨x1, x2, x3⟩)
      · exact ⟨by omega, by omega, x3⟩
      · exact ⟨by omega, by omega, (aligned_mod (s := t.step) (by omega) x1 h1' h2').2 x3⟩

theorem joinDims_self : ∀ ds : List Dim, joinDims ds ds = ds
  | [] => rfl
  | d :: ds => by simp [joinDims, joinDim_self, joinDims_self ds]

theorem joinableCount_zero : ∀ {ls rs : List Dim}, ls.length = rs.length →
    joinableCount ls rs = some 0 → ls = rs
  | [], [], _, _ => rfl
  | [], _ :: _, h, _ => by simp at h
  | _ :: _, [], h, _ => by simp at h
  | l :: ls, r :: rs, h, hc => by
    unfold joinableCount at hc
    by_cases e : l = r
    · rw [if_pos e] at hc
      rw [e, joinableCount_zero (by simpa using h) hc]
    · rw [if_neg e] at hc
      split at hc
      · simp [Option.map_eq_some_iff] at hc
      · simp at hc

/-- Members of joined dimensions. -/
theorem joinDims_mem : ∀ {ws ts : List Dim}, (∀ d ∈ ws, d.Wf) → (∀ d ∈ ts, d.Wf) →
    ts.length = ws.length → ∀ {n}, joinableCount ts ws = some n → n ≤ 1 →
    (∀ d ∈ joinDims ws ts, d.Wf) ∧ (joinDims ws ts).map Dim.size = ts.map Dim.size ∧
    ∀ v, DimsMem (joinDims ws ts) v ↔ DimsMem ts v ∨ DimsMem ws v
  | [], [], _, _, _, n, _, _ => by simp [joinDims]
  | [], _ :: _, _, _, h, _, _, _ => by simp at h
  | _ :: _, [], _, _, h, _, _, _ => by simp at h
  | w :: ws, t :: ts, hw, ht, hlen, n, hc, hn => by
    unfold joinableCount at hc
    by_cases e : t = w
    · subst e
      rw [if_pos rfl] at hc
      obtain ⟨i1, i2, i3⟩ := joinDims_mem (ws := ws) (ts := ts) (fun d hd => hw d (by simp [hd]))
        (fun d hd => ht d (by simp [hd])) (by simpa using hlen) hc hn
      simp only [joinDims, joinDim_self]
      refine ⟨?_, by simp [i2], ?_⟩
      · intro d hd
        rcases List.mem_cons.1 hd with rfl | hd
        · exact ht _ (by simp)
        · exact i1 d hd
      · intro v
        cases v with
        | nil => simp [DimsMem]
        | cons x v => simp only [DimsMem, i3]; tauto
    · rw [if_neg e] at hc
      split at hc
      · rename_i hj
        obtain ⟨m, hm, hmn⟩ := Option.map_eq_some_iff.1 hc
        have hm0 : m = 0 := by omega
        subst hm0
        have heq := joinableCount_zero (by simpa using hlen) hm
        subst heq
        obtain ⟨j1, j2, j3⟩ := joinDim_mem (hw w (by simp)) (ht t (by simp)) hj
        simp only [joinDims, joinDims_self]
        refine ⟨?_, by simp [j2], ?_⟩
        · intro d hd
          rcases List.mem_cons.1 hd with rfl | hd
          · exact j1
          · exact ht d (by simp [hd])
        · intro v
          cases v with
          | nil => simp [DimsMem]
          | cons x v => simp only [DimsMem, j3]; tauto
      · simp at hc

theorem sizeLe_some {a : Nat} : ∀ {u : Option Nat}, sizeLe (some a) u = true ↔
    ∀ x, u = some x → a ≤ x
  | none => by simp [sizeLe]
  | some b => by simp [sizeLe]

/-- Joining of byte ranges. -/
theorem join_scalar {tgt what : Loc} (h1 : tgt.kind.collapsed = false)
    (hd1 : tgt.dims = []) (hd2 : what.dims = []) {lo lo' : Nat} (hlo : tgt.lower = some lo)
    (hlo' : what.lower = some lo') (hj : areJoinable tgt what = true) :
    what.kind = tgt.kind ∧ (join what tgt).lower = some (min lo lo') ∧
    ((join what tgt).upper = tgt.upper ∨ (join what tgt).upper = what.upper) ∧
    ∀ b, Reach (join what tgt) b ↔ Reach tgt b ∨ Reach what b := by
  unfold areJoinable at hj
  split at hj
  · simp at hj
  rename_i hk
  have hk' : tgt.kind = what.kind := by
    by_contra h; exact hk (Or.inr h)
  simp only [Bool.and_eq_true, hlo, hlo', sizeLe_some] at hj
  obtain ⟨hj1, hj2⟩ := hj
  have hl : (join what tgt).lower = some (min lo lo') := by
    unfold join
    rw [if_neg (by simp [hd1, hd2]), if_pos hd1]
    simp only [hlo, hlo', sizeLt]
    by_cases h : lo' < lo
    · simp [h]; omega
    · simp [h]; omega
  have hu : (join what tgt).upper = if sizeLt tgt.upper what.upper then what.upper else tgt.upper := by
    unfold join
    rw [if_neg (by simp [hd1, hd2]), if_pos hd1]
  have hkk : (join what tgt).kind = tgt.kind := by
    unfold join
    rw [if_neg (by simp [hd1, hd2]), if_pos hd1]
  refine ⟨hk'.symm, hl, ?_, ?_⟩
  · rw [hu]; split <;> simp
  · intro b
    have h2 : what.kind.collapsed = false := by rw [← hk', h1]
    simp only [Reach, hkk, h1, h2, hl, hu, hlo, hlo', Option.some.injEq, exists_eq_left',
      Bool.false_eq_true, if_false]
    cases hu1 : tgt.upper with
    | none =>
      cases hu2 : what.upper with
      | none => simp [sizeLt]
      | some b2 =>
        simp only [hu1, hu2, Option.some.injEq, sizeLt] at hj1 hj2 ⊢
        have := hj2 _ rfl
        simp; omega
    | some b1 =>
      cases hu2 : what.upper with
      | none =>
        simp only [hu1, hu2, Option.some.injEq, sizeLt] at hj1 hj2 ⊢
        have := hj1 _ rfl
        simp; omega
      | some b2 =>
        simp only [hu1, hu2, Option.some.injEq, sizeLt] at hj1 hj2 ⊢
        have := hj2 _ rfl
        have := hj1 _ rfl
        by_cases h : b1 < b2 <;> simp [h] <;> omega

theorem dims_ne {o : Obj} {l : Loc} (h : l.IsArray o.elem) : l.dims ≠ [] := h.2.2.2.2.1

theorem reach_array {o : Obj} {l : Loc} (h : l.IsArray o.elem) (b : Nat) :
    Reach l b ↔ ByteOf l.dims o.elem (DimsMem l.dims) b := by
  simp only [Reach, h.1, if_true]; exact array_byte h b

theorem byteOf_or {ds : List Dim} {e : Nat} {P Q : List Nat → Prop} (b : Nat) :
    ByteOf ds e (fun v => P v ∨ Q v) b ↔ ByteOf ds e P b ∨ ByteOf ds e Q b := by
  simp only [ByteOf, or_and_right, exists_or]

theorem byteOf_map {ds es : List Dim} (h : ds.map Dim.size = es.map Dim.size) {e : Nat}
    {P : List Nat → Prop} (b : Nat) : ByteOf ds e P b ↔ ByteOf es e P b := by
  simp only [ByteOf, linear_congr _ h]

/-- Members of the joined dimension stay inside of the array. -/
theorem mem_last {d : Dim} (h : d.Wf) : d.Mem d.last := ⟨d.trip - 1, by have := h.2; omega, rfl⟩

theorem joinDims_inBounds {ws ts : List Dim} (hw : ∀ d ∈ ws, d.Wf) (ht : ∀ d ∈ ts, d.Wf)
    (hlen : ts.length = ws.length) (hsz : ws.map Dim.size = ts.map Dim.size) {n : Nat}
    (hc : joinableCount ts ws = some n)
    (bw : ∀ d ∈ ws, d.last < d.size) (bt : ∀ d ∈ ts, d.last < d.size) :
    ∀ d ∈ joinDims ws ts, d.last < d.size := by
  induction ws generalizing ts n with
  | nil =>
    cases ts with
    | nil => simp [joinDims]
    | cons t ts => simp at hlen
  | cons w ws ih =>
    cases ts with
    | nil => simp at hlen
    | cons t ts =>
      simp only [List.map_cons, List.cons.injEq] at hsz
      unfold joinableCount at hc
      intro d hd
      simp only [joinDims, List.mem_cons] at hd
      by_cases e : t = w
      · subst e
        rw [if_pos rfl] at hc
        rcases hd with rfl | hd
        · rw [joinDim_self]; exact bt _ (by simp)
        · exact ih (fun d hd => hw d (by simp [hd])) (fun d hd => ht d (by simp [hd]))
            (by simpa using hlen) hsz.2 hc (fun d hd => bw d (by simp [hd]))
            (fun d hd => bt d (by simp [hd])) d hd
      · rw [if_neg e] at hc
        split at hc
        · rename_i hj
          obtain ⟨m, hm, _⟩ := Option.map_eq_some_iff.1 hc
          rcases hd with rfl | hd
          · obtain ⟨j1, j2, j3⟩ := joinDim_mem (hw w (by simp)) (ht t (by simp)) hj
            rcases (j3 _).1 (mem_last j1) with h | h
            · have := (Dim.mem_le_last h).2
              have := bt t (by simp)
              omega
            · have := (Dim.mem_le_last h).2
              have := bw w (by simp)
              omega
          · exact ih (fun d hd => hw d (by simp [hd])) (fun d hd => ht d (by simp [hd]))
              (by simpa using hlen) hsz.2 hm (fun d hd => bw d (by simp [hd]))
              (fun d hd => bt d (by simp [hd])) d hd
        · simp at hc

theorem joinDims_length : ∀ {ws ts : List Dim}, (joinDims ws ts).length = ts.length
  | [], ts => by cases ts <;> simp [joinDims]
  | _ :: _, [] => by simp [joinDims]
  | w :: ws, t :: ts => by simp [joinDims, joinDims_length (ws := ws) (ts := ts)]

/-- Joining of well-formed locations is exact and gives a well-formed location. -/
theorem join_spec {o : Obj} {tgt what : Loc} (ht : WfLoc o tgt)
    (hw : WfLoc o what) (hj : areJoinable tgt what = true) :
    (join what tgt).ptr = tgt.ptr ∧ WfLoc o (join what tgt) ∧
    ∀ b, Reach (join what tgt) b ↔ Reach tgt b ∨ Reach what b := by
  have hpt : (join what tgt).ptr = tgt.ptr := by
    unfold join; split
    · rfl
    · split <;> rfl
  have hlen : tgt.dims.length = what.dims.length ∧ tgt.kind = what.kind := by
    unfold areJoinable at hj
    split at hj
    · simp at hj
    · rename_i h
      constructor
      · by_contra h2; exact h (Or.inl h2)
      · by_contra h2; exact h (Or.inr h2)
  obtain ⟨hlen, hkind⟩ := hlen
  refine ⟨hpt, ?_⟩
  obtain ⟨htp, ht⟩ := ht
  obtain ⟨hwp, hw⟩ := hw
  rcases ht with ⟨t1, t2, ⟨lo, t3⟩, t4⟩ | ⟨ta, ts⟩
  · rcases hw with ⟨w1, w2, ⟨lo', w3⟩, w4⟩ | ⟨wa, ws⟩
    · obtain ⟨a1, a2, a3, a4⟩ := join_scalar t1 t2 w2 t3 w3 hj
      refine ⟨⟨by rw [hpt]; exact htp, Or.inl ⟨?_, ?_, ⟨_, a2⟩, ?_⟩⟩, a4⟩
      · unfold join
        rw [if_neg (by simp [hlen]), if_pos t2]; exact t1
      · unfold join
        rw [if_neg (by simp [hlen]), if_pos t2]; exact t2
      · intro up hup
        rcases a3 with a3 | a3
        · exact t4 up (by rw [← a3, hup])
        · exact w4 up (by rw [← a3, hup])
    · rw [t2] at hlen
      exact absurd (List.length_eq_zero_iff.1 hlen.symm) (dims_ne wa)
  · have hwa : what.IsArray o.elem ∧ what.dims.map Dim.size = o.sizes := by
      rcases hw with ⟨w1, w2, _⟩ | h
      · rw [w2] at hlen
        exact absurd (List.length_eq_zero_iff.1 hlen) (dims_ne ta)
      · exact h
    obtain ⟨wa, ws⟩ := hwa
    have hnt := dims_ne ta
    unfold areJoinable at hj
    rw [if_neg (by simp [hlen, hkind]), if_neg hnt] at hj
    cases hc : joinableCount tgt.dims what.dims with
    | none => simp [hc] at hj
    | some n =>
      simp [hc] at hj
      have hsz : what.dims.map Dim.size = tgt.dims.map Dim.size := ws.trans ts.symm
      obtain ⟨tc, tl, tu, te, tn, twf, tin⟩ := ta
      obtain ⟨wc, wl, wu, we, wn, wwf, win⟩ := wa
      obtain ⟨j1, j2, j3⟩ := joinDims_mem wwf twf hlen hc hj
      have hje : join what tgt = { tgt with dims := joinDims what.dims tgt.dims } := by
        unfold join; rw [if_neg (by simp [hlen]), if_neg hnt]
      have harr : (join what tgt).IsArray o.elem := by
        rw [hje]
        refine ⟨tc, tl, tu, te, ?_, j1, ?_⟩
        · intro h0
          have := congrArg List.length h0
          simp only [joinDims_length, List.length_nil] at this
          exact hnt (List.length_eq_zero_iff.1 this)
        · -- tails
          cases hcw : what.dims with
          | nil => exact absurd hcw wn
          | cons w ws' =>
            cases hct : tgt.dims with
            | nil => exact absurd hct hnt
            | cons t ts' =>
              rw [hcw, hct] at hc hlen hsz
              simp only [List.map_cons, List.cons.injEq] at hsz
              simp only [joinDims, List.tail_cons]
              rw [hcw] at win wwf
              rw [hct] at tin twf
              have : ∃ m, joinableCount ts' ws' = some m := by
                unfold joinableCount at hc
                by_cases e : t = w
                · rw [if_pos e] at hc; exact ⟨_, hc⟩
                · rw [if_neg e] at hc
                  split at hc
                  · obtain ⟨m, hm, _⟩ := Option.map_eq_some_iff.1 hc
                    exact ⟨m, hm⟩
                  · simp at hc
              obtain ⟨m, hm⟩ := this
              exact joinDims_inBounds (fun d hd => wwf d (by simp [hd]))
                (fun d hd => twf d (by simp [hd])) (by simpa using hlen) hsz.2 hm
                (by simpa using win) (by simpa using tin)
      have hsz' : (join what tgt).dims.map Dim.size = tgt.dims.map Dim.size := by
        rw [hje]; exact j2
      refine ⟨⟨by rw [hpt]; exact htp, Or.inr ⟨harr, hsz'.trans ts⟩⟩, ?_⟩
      intro b
      rw [reach_array harr, reach_array ⟨tc, tl, tu, te, tn, twf, tin⟩,
        reach_array ⟨wc, wl, wu, we, wn, wwf, win⟩, byteOf_map hsz', byteOf_map hsz,
        ← byteOf_or]
      have : (join what tgt).dims = joinDims what.dims tgt.dims := by rw [hje]
      rw [this]
      simp only [ByteOf, j3]

/-- The returned flag tells whether the dimension was changed. -/
theorem joinDim_unchanged {w t : Dim} (h : joinDimChanged w t = false) : joinDim w t = t := by
  unfold joinDimChanged at h
  simp only [Bool.or_eq_false_iff, decide_eq_false_iff_not] at h
  obtain ⟨h1, h2⟩ := h
  rw [if_neg h1] at h2
  unfold joinDim
  simp only [if_neg h1, if_neg h2]

theorem joinDim_changed {w t : Dim} (hw : w.Wf) (ht : t.Wf) (hj : dimJoinable t w = true)
    (h : joinDimChanged w t = true) : joinDim w t ≠ t := by
  simp only [dimJoinable, Bool.not_eq_true', Bool.or_eq_false_iff, Bool.and_eq_false_iff,
    decide_eq_false_iff_not, not_not, not_lt, ge_iff_le, not_le] at hj
  obtain ⟨⟨⟨⟨hst, h1⟩, h2⟩, h3⟩, h4⟩ := hj
  obtain ⟨j1, j2, j3, j4, j5⟩ := joinDim_shape hw ht hst.symm
    (fun h => by rcases h1 with h1 | h1 <;> omega) (fun h => by rcases h2 with h2 | h2 <;> omega)
  intro he
  rw [he] at j4 j5
  unfold joinDimChanged at h
  simp only [Bool.or_eq_true, decide_eq_true_eq] at h
  rcases h with h | h
  · omega
  · by_cases hlt : w.start < t.start
    · omega
    · rw [if_neg hlt] at h
      omega

theorem joinDims_changed_iff : ∀ {ws ts : List Dim}, (∀ d ∈ ws, d.Wf) → (∀ d ∈ ts, d.Wf) →
    ts.length = ws.length → ∀ {n}, joinableCount ts ws = some n →
    (joinDimsChanged ws ts = false ↔ joinDims ws ts = ts)
  | [], [], _, _, _, _, _ => by simp [joinDims, joinDimsChanged]
  | [], _ :: _, _, _, h, _, _ => by simp at h
  | _ :: _, [], _, _, h, _, _ => by simp at h
  | w :: ws, t :: ts, hw, ht, hlen, n, hc => by
    unfold joinableCount at hc
    by_cases e : t = w
    · subst e
      rw [if_pos rfl] at hc
      have := joinDims_changed_iff (ws := ws) (ts := ts) (fun d hd => hw d (by simp [hd]))
        (fun d hd => ht d (by simp [hd])) (by simpa using hlen) hc
      simp [joinDims, joinDimsChanged, joinDim_self, joinDimChanged_self, this]
    · rw [if_neg e] at hc
      split at hc
      · rename_i hj
        obtain ⟨m, hm, _⟩ := Option.map_eq_some_iff.1 hc
        have := joinDims_changed_iff (ws := ws) (ts := ts) (fun d hd => hw d (by simp [hd]))
          (fun d hd => ht d (by simp [hd])) (by simpa using hlen) hm
        simp only [joinDims, joinDimsChanged, Bool.or_eq_false_iff, List.cons.injEq, this]
        constructor
        · rintro ⟨h1, h2⟩; exact ⟨joinDim_unchanged h1, h2⟩
        · rintro ⟨h1, h2⟩
          refine ⟨?_, h2⟩
          cases h : joinDimChanged w t with
          | false => rfl
          | true => exact absurd h1 (joinDim_changed (hw w (by simp)) (ht t (by simp)) hj h)
      · simp at hc

theorem sizeLt_ne {a b : Option Nat} (h : sizeLt a b = true) : b ≠ a := by
  cases a <;> cases b <;> simp [sizeLt] at h ⊢
  omega

/-- The returned flag tells whether the location was changed. -/
theorem join_changed_iff {o : Obj} {tgt what : Loc} (ht : WfLoc o tgt)
    (hw : WfLoc o what) (hj : areJoinable tgt what = true) :
    joinChanged what tgt = false ↔ join what tgt = tgt := by
  have hlen : tgt.dims.length = what.dims.length ∧ tgt.kind = what.kind := by
    unfold areJoinable at hj
    split at hj
    · simp at hj
    · rename_i h
      constructor
      · by_contra h2; exact h (Or.inl h2)
      · by_contra h2; exact h (Or.inr h2)
  obtain ⟨hlen, hkind⟩ := hlen
  unfold join joinChanged
  have hl' : ¬ tgt.dims.length ≠ what.dims.length := by simp [hlen]
  rw [if_neg hl', if_neg hl']
  by_cases hd : tgt.dims = []
  · rw [if_pos hd, if_pos hd]
    obtain ⟨p, lo, up, ds, k⟩ := tgt
    simp only [Bool.or_eq_false_iff, Loc.mk.injEq, true_and, and_true]
    constructor
    · rintro ⟨h1, h2⟩; simp [h1, h2]
    · rintro ⟨h1, h2⟩
      constructor
      · cases h : sizeLt up what.upper with
        | false => rfl
        | true => rw [if_pos h] at h2; exact absurd h2 (sizeLt_ne h)
      · cases h : sizeLt what.lower lo with
        | false => rfl
        | true => rw [if_pos h] at h1; exact absurd h1.symm (sizeLt_ne h)
  · rw [if_neg hd, if_neg hd]
    have hta : tgt.IsArray o.elem := by
      rcases ht.2 with h | h
      · exact absurd h.2.1 hd
      · exact h.1
    have hwa : what.IsArray o.elem := by
      rcases hw.2 with h | h
      · rw [h.2.1] at hlen; exact absurd (List.length_eq_zero_iff.1 hlen) hd
      · exact h.1
    unfold areJoinable at hj
    rw [if_neg (by simp [hlen, hkind]), if_neg hd] at hj
    cases hc : joinableCount tgt.dims what.dims with
    | none => simp [hc] at hj
    | some n =>
      rw [joinDims_changed_iff hwa.2.2.2.2.2.1 hta.2.2.2.2.2.1 hlen hc]
      obtain ⟨p, lo, up, ds, k⟩ := tgt
      simp

end Tsar.MemSet
