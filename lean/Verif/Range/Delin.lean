import Verif.Range.Lemmas

/-! # Helper lemmas: `delinearize` preserves the set of bytes -/

namespace Tsar.Range

theorem sizesInBytes_head (elem : Nat) : ∀ ds : List Dim,
    (sizesInBytes elem ds).headD elem = (ds.map Dim.size).prod * elem
  | [] => by simp [sizesInBytes]
  | d :: ds => by
    simp only [sizesInBytes, List.headD_cons, List.map_cons, List.prod_cons]
    rw [sizesInBytes_head elem ds]; ring

theorem idxs_cons {elem : Nat} (he : 0 < elem) (d : Dim) (ds : List Dim) (n : Nat) :
    idxs elem (n * elem) (d :: ds) =
      (if d.size * (ds.map Dim.size).prod > 0 then
        n % (d.size * (ds.map Dim.size).prod) / (ds.map Dim.size).prod
       else n / (ds.map Dim.size).prod) :: idxs elem (n * elem) ds := by
  simp only [idxs, sizesInBytes_head, idxAt]
  congr 1
  by_cases h : d.size * (ds.map Dim.size).prod > 0
  · have h' : d.size * ((ds.map Dim.size).prod * elem) > 0 := by
      rw [← Nat.mul_assoc]; exact Nat.mul_pos h he
    rw [if_pos h, if_pos h', ← Nat.mul_assoc, Nat.mul_mod_mul_right,
      Nat.mul_div_mul_right _ _ he]
  · have h' : ¬ d.size * ((ds.map Dim.size).prod * elem) > 0 := by
      have : d.size * (ds.map Dim.size).prod = 0 := by omega
      rw [← Nat.mul_assoc, this]; simp
    rw [if_neg h, if_neg h', Nat.mul_div_mul_right _ _ he]

/-- Elements of a list of dimensions are exactly elements `a, a + 1, ..., b`. -/
def Covers (ds : List Dim) (a b : Nat) : Prop :=
  ∀ n, (∃ v, DimsMem ds v ∧ linear ds v = n) ↔ a ≤ n ∧ n ≤ b

theorem mem_unit {lo up s i : Nat} (h : lo ≤ up) (hb : up - lo + 1 < 2 ^ 64) :
    Dim.Mem ⟨lo, 1, (up + 2 ^ 64 - lo + 1) % 2 ^ 64, s⟩ i ↔ lo ≤ i ∧ i ≤ up := by
  have e : (up + 2 ^ 64 - lo + 1) % 2 ^ 64 = up - lo + 1 := by
    rw [show up + 2 ^ 64 - lo + 1 = (up - lo + 1) + 2 ^ 64 by omega, Nat.add_mod_right,
      Nat.mod_eq_of_lt hb]
  simp only [Dim.Mem, e, Nat.one_mul]
  constructor
  · rintro ⟨k, hk, rfl⟩; omega
  · rintro ⟨h1, h2⟩; exact ⟨i - lo, by omega, by omega⟩

/-- Adding an outer dimension. -/
theorem head_step {d : Dim} {ds rest : List Dim} {lo up a b P : Nat} {f : Bool}
    (hP : 0 < P) (hPd : P = (ds.map Dim.size).prod) (hsz : rest.map Dim.size = ds.map Dim.size)
    (hff : f = false → a = 0 ∧ b + 1 = P)
    (ha : a < P) (_hb : b < P)
    (hcov : a ≤ b → Covers rest a b ∧ ∀ e ∈ rest, e.Wf ∧ e.last < e.size)
    (hle : lo * P + a ≤ up * P + b) (hub : up + 1 < 2 ^ 64)
    {f' : Bool} {res : List Dim}
    (h : (if f then if lo ≠ up then none else some (true, (⟨lo, 1, 1, d.size⟩ : Dim) :: rest)
      else some (decide (lo ≠ 0 ∨ up + 1 ≠ d.size),
        ⟨lo, 1, (up + 2 ^ 64 - lo + 1) % 2 ^ 64, d.size⟩ :: rest)) = some (f', res)) :
    Covers res (lo * P + a) (up * P + b) ∧ (∀ e ∈ res, e.Wf) ∧
      (∀ e ∈ res.tail, e.last < e.size) ∧ (up < d.size → ∀ e ∈ res, e.last < e.size) := by
  cases f with
  | true =>
    simp only [if_true] at h
    by_cases hlu : lo = up
    case neg => rw [if_pos hlu] at h; simp at h
    rw [if_neg (by simpa using hlu)] at h
    simp only [Option.some.injEq, Prod.mk.injEq] at h
    obtain ⟨rfl, rfl⟩ := h
    subst hlu
    have hab : a ≤ b := by omega
    obtain ⟨hcv, hwf⟩ := hcov hab
    refine ⟨fun n => ?_, ?_, ?_, ?_⟩
    · constructor
      · rintro ⟨v, hv, rfl⟩
        cases v with
        | nil => exact hv.elim
        | cons i v =>
          obtain ⟨⟨k, hk, hi⟩, hv⟩ := hv
          simp only at hk hi
          have : i = lo := by omega
          subst this
          have := (hcv (linear rest v)).1 ⟨v, hv, rfl⟩
          simp only [linear, hsz, ← hPd]; omega
      · rintro ⟨h1, h2⟩
        obtain ⟨v, hv, hn⟩ := (hcv (n - lo * P)).2 (by omega)
        refine ⟨lo :: v, ⟨⟨0, by simp, by simp⟩, hv⟩, ?_⟩
        simp only [linear, hsz, ← hPd]; omega
    · intro e he
      rcases List.mem_cons.1 he with rfl | he
      · exact ⟨by simp, by simp⟩
      · exact (hwf e he).1
    · intro e he; exact (hwf e he).2
    · intro hs e he
      rcases List.mem_cons.1 he with rfl | he
      · simpa [Dim.last] using hs
      · exact (hwf e he).2
  | false =>
    simp only [Bool.false_eq_true, if_false] at h
    simp only [Option.some.injEq, Prod.mk.injEq] at h
    obtain ⟨_, rfl⟩ := h
    obtain ⟨rfl, hbP⟩ := hff rfl
    obtain ⟨hcv, hwf⟩ := hcov (Nat.zero_le _)
    have hlu : lo ≤ up := by
      by_contra hn
      have h1 : (up + 1) * P ≤ lo * P := Nat.mul_le_mul_right _ (by omega)
      have : (up + 1) * P = up * P + P := by ring
      omega
    have htrip : (up + 2 ^ 64 - lo + 1) % 2 ^ 64 = up - lo + 1 := by
      rw [show up + 2 ^ 64 - lo + 1 = (up - lo + 1) + 2 ^ 64 by omega, Nat.add_mod_right,
        Nat.mod_eq_of_lt (by omega)]
    refine ⟨fun n => ?_, ?_, ?_, ?_⟩
    · constructor
      · rintro ⟨v, hv, rfl⟩
        cases v with
        | nil => exact hv.elim
        | cons i v =>
          obtain ⟨hi, hv⟩ := hv
          have hi := (mem_unit hlu (by omega)).1 hi
          have := (hcv (linear rest v)).1 ⟨v, hv, rfl⟩
          simp only [linear, hsz, ← hPd]
          have h1 : lo * P ≤ i * P := Nat.mul_le_mul_right _ hi.1
          have h2 : i * P ≤ up * P := Nat.mul_le_mul_right _ hi.2
          omega
      · rintro ⟨h1, h2⟩
        have hm := Nat.mod_lt n hP
        have hd := Nat.div_add_mod n P
        obtain ⟨v, hv, hn⟩ := (hcv (n % P)).2 (by omega)
        have hi1 : lo ≤ n / P := (Nat.le_div_iff_mul_le hP).2 (by omega)
        have hi2 : n / P ≤ up := by
          have h3 : n < (up + 1) * P := by
            have : (up + 1) * P = up * P + P := by ring
            omega
          have := (Nat.div_lt_iff_lt_mul hP).2 h3
          omega
        refine ⟨n / P :: v, ⟨(mem_unit hlu (by omega)).2 ⟨hi1, hi2⟩, hv⟩, ?_⟩
        simp only [linear, hsz, ← hPd, hn]
        rw [Nat.mul_comm]; omega
    · intro e he
      rcases List.mem_cons.1 he with rfl | he
      · exact ⟨by simp, by simp only [htrip]; omega⟩
      · exact (hwf e he).1
    · intro e he; exact (hwf e he).2
    · intro hs e he
      rcases List.mem_cons.1 he with rfl | he
      · simp only [Dim.last, htrip]; omega
      · exact (hwf e he).2

theorem buildDims_cons (d : Dim) (ds : List Dim) (lo up : Nat) (los ups : List Nat)
    {f' : Bool} {res : List Dim} (h : buildDims (d :: ds) (lo :: los) (up :: ups) = some (f', res)) :
    ∃ f rest, buildDims ds los ups = some (f, rest) ∧
    (if f then if lo ≠ up then none else some (true, (⟨lo, 1, 1, d.size⟩ : Dim) :: rest)
      else some (decide (lo ≠ 0 ∨ up + 1 ≠ d.size),
        ⟨lo, 1, (up + 2 ^ 64 - lo + 1) % 2 ^ 64, d.size⟩ :: rest)) = some (f', res) := by
  simp only [buildDims] at h
  cases hb : buildDims ds los ups with
  | none => rw [hb] at h; simp at h
  | some q =>
    obtain ⟨f, rest⟩ := q
    rw [hb] at h
    exact ⟨f, rest, rfl, h⟩

theorem buildDims_sizes : ∀ (ds : List Dim) (los ups : List Nat) {f : Bool} {res : List Dim},
    los.length = ds.length → ups.length = ds.length →
    buildDims ds los ups = some (f, res) → res.map Dim.size = ds.map Dim.size
  | [], los, ups, f, res, _, _, h => by
    simp [buildDims] at h; simp [← h.2]
  | d :: ds, lo :: los, up :: ups, f, res, h1, h2, h => by
    obtain ⟨f', rest, hb, h⟩ := buildDims_cons d ds lo up los ups h
    have ih := buildDims_sizes ds los ups (by simpa using h1) (by simpa using h2) hb
    cases f' with
    | true =>
      simp only [if_true] at h
      split at h
      · simp at h
      · simp only [Option.some.injEq, Prod.mk.injEq] at h; rw [← h.2]; simp [ih]
    | false =>
      simp only [Bool.false_eq_true, if_false] at h
      simp only [Option.some.injEq, Prod.mk.injEq] at h; rw [← h.2]; simp [ih]
  | _ :: _, [], _, _, _, h, _, _ => by simp at h
  | _ :: _, _ :: _, [], _, _, _, h, _ => by simp at h

theorem idxs_length (elem x : Nat) : ∀ ds : List Dim, (idxs elem x ds).length = ds.length
  | [] => rfl
  | _ :: ds => by simp [idxs, idxs_length elem x ds]

theorem prod_pos_of : ∀ {ds : List Dim}, (∀ d ∈ ds, 0 < d.size) → 0 < (ds.map Dim.size).prod
  | [], _ => by simp
  | d :: ds, h => by
    simp only [List.map_cons, List.prod_cons]
    exact Nat.mul_pos (h d (by simp)) (prod_pos_of fun e he => h e (by simp [he]))

theorem buildDims_spec {elem : Nat} (he : 0 < elem) (x y : Nat) :
    ∀ (ds : List Dim), (∀ d ∈ ds, 0 < d.size) → (ds.map Dim.size).prod < 2 ^ 64 →
    ∀ {f : Bool} {res : List Dim},
    buildDims ds (idxs elem (x * elem) ds) (idxs elem (y * elem) ds) = some (f, res) →
    (f = false → x % (ds.map Dim.size).prod = 0 ∧
      y % (ds.map Dim.size).prod + 1 = (ds.map Dim.size).prod) ∧
    (x % (ds.map Dim.size).prod ≤ y % (ds.map Dim.size).prod →
      Covers res (x % (ds.map Dim.size).prod) (y % (ds.map Dim.size).prod) ∧
      ∀ e ∈ res, e.Wf ∧ e.last < e.size)
  | [], _, _, f, res, h => by
    simp [buildDims] at h
    obtain ⟨rfl, rfl⟩ := h
    simp only [List.map_nil, List.prod_nil, Nat.mod_one]
    refine ⟨fun _ => ⟨trivial, rfl⟩, fun _ => ⟨fun n => ?_, by simp⟩⟩
    constructor
    · rintro ⟨v, hv, rfl⟩
      cases v <;> simp [linear]
    · intro hn
      exact ⟨[], trivial, by simp [linear]; omega⟩
  | d :: ds, hpos, hlt, f, res, h => by
    have hds : ∀ e ∈ ds, 0 < e.size := fun e he => hpos e (by simp [he])
    have hd0 : 0 < d.size := hpos d (by simp)
    have hP : 0 < (ds.map Dim.size).prod := prod_pos_of hds
    simp only [List.map_cons, List.prod_cons] at hlt ⊢
    set P := (ds.map Dim.size).prod with hPdef
    have hPT : P ≤ d.size * P := Nat.le_mul_of_pos_left _ hd0
    have hsT : d.size ≤ d.size * P := Nat.le_mul_of_pos_right _ hP
    have hT : 0 < d.size * P := Nat.mul_pos hd0 hP
    rw [idxs_cons he, idxs_cons he, ← hPdef, if_pos hT, if_pos hT] at h
    obtain ⟨f', rest, hb, h⟩ := buildDims_cons _ _ _ _ _ _ h
    have hsz := buildDims_sizes _ _ _ (idxs_length _ _ _) (idxs_length _ _ _) hb
    obtain ⟨ih1, ih2⟩ := buildDims_spec he x y ds hds (by omega) hb
    rw [← hPdef] at ih1 ih2
    have hx := Nat.div_add_mod (x % (d.size * P)) P
    have hy := Nat.div_add_mod (y % (d.size * P)) P
    have hxm : x % (d.size * P) % P = x % P := Nat.mod_mul_left_mod _ _ _
    have hym : y % (d.size * P) % P = y % P := Nat.mod_mul_left_mod _ _ _
    rw [hxm, Nat.mul_comm] at hx
    rw [hym, Nat.mul_comm] at hy
    have hyb : y % (d.size * P) / P < d.size :=
      (Nat.div_lt_iff_lt_mul hP).2 (Nat.mod_lt _ hT)
    refine ⟨?_, ?_⟩
    · intro hf
      subst hf
      cases f' with
      | true =>
        simp only [if_true] at h
        split at h <;> simp at h
      | false =>
        simp only [Bool.false_eq_true, if_false, Option.some.injEq, Prod.mk.injEq,
          decide_eq_false_iff_not] at h
        obtain ⟨hx0, hy0⟩ := ih1 rfl
        obtain ⟨h, _⟩ := h
        have h1 : x % (d.size * P) / P = 0 := by omega
        have h2 : y % (d.size * P) / P + 1 = d.size := by omega
        constructor
        · rw [← hx, h1, hx0]; simp
        · have h3 : (y % (d.size * P) / P + 1) * P = d.size * P := by rw [h2]
          rw [Nat.add_mul, Nat.one_mul] at h3
          omega
    · intro hle
      have := head_step (d := d) hP hPdef hsz ih1 (Nat.mod_lt _ hP) (Nat.mod_lt _ hP) ih2
        (lo := x % (d.size * P) / P) (up := y % (d.size * P) / P) (by omega) (by omega) h
      rw [hx, hy] at this
      exact ⟨this.1, fun e hem => ⟨this.2.1 e hem, this.2.2.2 hyb e hem⟩⟩

end Tsar.Range
