import Verif.Range.Delin

/-! # Helper lemmas: from vectors of indexes to bytes -/

namespace Tsar.Range

/-- Vectors which stay inside of an array (the first index is arbitrary). -/
def InBox (ds : List Dim) (v : List Nat) : Prop :=
  ∃ d es i w, ds = d :: es ∧ v = i :: w ∧ InSizes es w

theorem linear_inj_box {ds : List Dim} {v w : List Nat} (hv : InBox ds v) (hw : InBox ds w)
    (h : linear ds v = linear ds w) : v = w := by
  obtain ⟨d, es, i, v', rfl, rfl, hv⟩ := hv
  obtain ⟨d', es', j, w', h', rfl, hw⟩ := hw
  obtain ⟨rfl, rfl⟩ := List.cons.inj h'
  obtain ⟨rfl, rfl⟩ := linear_inj hv hw h
  rfl

/-- Bytes of the elements whose vectors of indexes satisfy `P`. -/
def ByteOf (ds : List Dim) (e : Nat) (P : List Nat → Prop) (b : Nat) : Prop :=
  ∃ v, P v ∧ ∃ o, o < e ∧ b = linear ds v * e + o

theorem elem_unique {e x y o o' : Nat} (ho : o < e) (ho' : o' < e)
    (h : x * e + o = y * e + o') : x = y ∧ o = o' := by
  have he : 0 < e := by omega
  have h1 : (x * e + o) / e = x := by
    rw [Nat.mul_comm, Nat.mul_add_div he, Nat.div_eq_of_lt ho]; omega
  have h2 : (y * e + o') / e = y := by
    rw [Nat.mul_comm, Nat.mul_add_div he, Nat.div_eq_of_lt ho']; omega
  have : x = y := by rw [← h1, h, h2]
  subst this
  exact ⟨rfl, by omega⟩

theorem byteOf_and {ds : List Dim} {e : Nat} {P Q : List Nat → Prop} (hP : ∀ v, P v → InBox ds v)
    (hQ : ∀ v, Q v → InBox ds v) (b : Nat) :
    ByteOf ds e (fun v => P v ∧ Q v) b ↔ ByteOf ds e P b ∧ ByteOf ds e Q b := by
  constructor
  · rintro ⟨v, ⟨h1, h2⟩, o, ho, rfl⟩
    exact ⟨⟨v, h1, o, ho, rfl⟩, ⟨v, h2, o, ho, rfl⟩⟩
  · rintro ⟨⟨v, h1, o, ho, rfl⟩, ⟨w, h2, o', ho', h⟩⟩
    obtain ⟨hl, rfl⟩ := elem_unique ho ho' h
    obtain rfl := linear_inj_box (hP v h1) (hQ w h2) hl
    exact ⟨v, ⟨h1, h2⟩, o, ho, rfl⟩

theorem byteOf_diff {ds : List Dim} {e : Nat} {P Q : List Nat → Prop} (hP : ∀ v, P v → InBox ds v)
    (hQ : ∀ v, Q v → InBox ds v) (b : Nat) :
    ByteOf ds e (fun v => P v ∧ ¬ Q v) b ↔ ByteOf ds e P b ∧ ¬ ByteOf ds e Q b := by
  constructor
  · rintro ⟨v, ⟨h1, h2⟩, o, ho, rfl⟩
    refine ⟨⟨v, h1, o, ho, rfl⟩, ?_⟩
    rintro ⟨w, hw, o', ho', h⟩
    obtain ⟨hl, rfl⟩ := elem_unique ho ho' h
    obtain rfl := linear_inj_box (hP v h1) (hQ w hw) hl
    exact h2 hw
  · rintro ⟨⟨v, h1, o, ho, rfl⟩, h2⟩
    exact ⟨v, ⟨h1, fun h => h2 ⟨v, h, o, ho, rfl⟩⟩, o, ho, rfl⟩

theorem inBox_of_mem {ds ref : List Dim} (hsz : ds.map Dim.size = ref.map Dim.size)
    (hne : ref ≠ []) (hin : ∀ d ∈ ds.tail, d.last < d.size) {v : List Nat} (hv : DimsMem ds v) :
    InBox ref v := by
  cases ds with
  | nil => simp at hsz; exact absurd hsz hne
  | cons d ds =>
    cases ref with
    | nil => simp at hne
    | cons r ref =>
      cases v with
      | nil => exact hv.elim
      | cons i v =>
        simp only [List.map_cons, List.cons.injEq] at hsz
        exact ⟨r, ref, i, v, rfl, rfl, inSizes_congr hsz.2 (inSizes_of_mem hin hv.2)⟩

theorem array_byte {l : Loc} {e : Nat} (h : l.IsArray e) (b : Nat) :
    l.Byte b ↔ ByteOf l.dims e (DimsMem l.dims) b := by
  obtain ⟨hc, hlo, hup, _⟩ := h
  simp [Loc.Byte, hc, hlo, hup, ByteOf]

theorem arr_inBox {l : Loc} {e : Nat} (h : l.IsArray e) {v : List Nat} (hv : DimsMem l.dims v) :
    InBox l.dims v :=
  inBox_of_mem rfl h.2.2.2.2.1 h.2.2.2.2.2.2 hv

theorem covers_bytes {ds : List Dim} {e x y : Nat} (h : Covers ds x y) (b : Nat) :
    ByteOf ds e (DimsMem ds) b ↔ x * e ≤ b ∧ b < (y + 1) * e := by
  constructor
  · rintro ⟨v, hv, o, ho, rfl⟩
    have := (h _).1 ⟨v, hv, rfl⟩
    have h1 : x * e ≤ linear ds v * e := Nat.mul_le_mul_right _ this.1
    have h2 : linear ds v * e ≤ y * e := Nat.mul_le_mul_right _ this.2
    have : (y + 1) * e = y * e + e := by ring
    omega
  · rintro ⟨h1, h2⟩
    have he : 0 < e := by
      rcases Nat.eq_zero_or_pos e with rfl | h
      · simp at h2
      · exact h
    have hb := Nat.div_add_mod b e
    have hx : x ≤ b / e := (Nat.le_div_iff_mul_le he).2 h1
    have hy : b / e < y + 1 := (Nat.div_lt_iff_lt_mul he).2 h2
    obtain ⟨v, hv, hn⟩ := (h (b / e)).2 (by omega)
    exact ⟨v, hv, b % e, Nat.mod_lt _ he, by rw [hn, Nat.mul_comm]; omega⟩

/-- `delinearize` never fails on well-formed arguments and preserves the set of bytes;
it either leaves the location as it is or turns it to an array of the same shape. -/
theorem delinearize_spec {a w : Loc} {e : Nat} (ha : a.IsArray e) (hw : w.IsScalar)
    (hfit : ∀ up, w.upper = some up → FitsIn a e up) :
    ∃ w', delinearize a w = some w' ∧
      (w' = w ∨ (w'.IsArray e ∧ w'.dims.map Dim.size = a.dims.map Dim.size ∧ w'.ptr = w.ptr ∧
        ∀ b, w'.Byte b ↔ w.Byte b)) := by
  obtain ⟨hc, hlo, hup, he, hne, hwf, hin⟩ := ha
  obtain ⟨hwc, lo, up, hwl, hwu⟩ := hw
  obtain ⟨hup64, hP64, hT64, d, ds, hdims, hfit⟩ := hfit up hwu
  unfold delinearize
  rw [if_neg (by simp [hwc])]
  by_cases hnc : w.kind.nonCollapsable
  · exact ⟨w, by simp [hnc], Or.inl rfl⟩
  rw [if_neg (by simp [hnc, hc])]
  simp only [hwl, hwu, hup, hlo]
  by_cases hle : lo ≥ up
  · exact ⟨w, by simp [hle], Or.inl rfl⟩
  rw [if_neg hle, if_neg (by simp [hne]), if_neg (by omega)]
  by_cases hmod : lo % e ≠ 0 ∨ up % e ≠ 0
  · exact ⟨w, by rw [if_pos hmod], Or.inl rfl⟩
  rw [if_neg hmod]
  push Not at hmod
  obtain ⟨hm1, hm2⟩ := hmod
  have hpos : ∀ x ∈ ds, 0 < x.size := by
    intro x hx
    have := hin x (by simp [hdims, hx])
    omega
  have hany : ¬ (a.dims.tail.any fun d => d.size = 0) = true := by
    simp only [hdims, List.tail_cons, List.any_eq_true, not_exists, not_and]
    intro x hx
    have := hpos x hx
    simp; omega
  rw [if_neg hany]
  -- element numbers
  obtain ⟨x, rfl⟩ : ∃ x, lo = x * e := ⟨lo / e, by
    rw [Nat.mul_comm]; exact (Nat.mul_div_cancel' (Nat.dvd_of_mod_eq_zero hm1)).symm⟩
  obtain ⟨z, rfl⟩ : ∃ z, up = z * e := ⟨up / e, by
    rw [Nat.mul_comm]; exact (Nat.mul_div_cancel' (Nat.dvd_of_mod_eq_zero hm2)).symm⟩
  have hxz : x < z := by
    by_contra hn
    have : z * e ≤ x * e := Nat.mul_le_mul_right _ (by omega)
    omega
  obtain ⟨y, rfl⟩ : ∃ y, z = y + 1 := ⟨z - 1, by omega⟩
  have hye : (y + 1) * e - e = y * e := by rw [Nat.add_mul]; omega
  rw [hye]
  cases hb : buildDims a.dims (idxs e (x * e) a.dims) (idxs e (y * e) a.dims) with
  | none => exact ⟨w, rfl, Or.inl rfl⟩
  | some q =>
    obtain ⟨f, res⟩ := q
    simp only
    refine ⟨_, rfl, Or.inr ?_⟩
    have hsz := buildDims_sizes _ _ _ (idxs_length _ _ _) (idxs_length _ _ _) hb
    have hyb : y + 1 < 2 ^ 64 := by
      have : y + 1 ≤ (y + 1) * e := Nat.le_mul_of_pos_right _ he
      omega
    have main : Covers res x y ∧ (∀ q ∈ res, q.Wf) ∧ ∀ q ∈ res.tail, q.last < q.size := by
      rw [hdims] at hb hT64 hfit
      rw [hdims, List.tail_cons] at hP64
      have hP : 0 < (ds.map Dim.size).prod := prod_pos_of hpos
      rcases Nat.eq_zero_or_pos d.size with hd0 | hd0
      · rw [idxs_cons he, idxs_cons he, hd0] at hb
        simp only [Nat.zero_mul, gt_iff_lt, Nat.lt_irrefl, if_false] at hb
        obtain ⟨f', rest, hb, h⟩ := buildDims_cons _ _ _ _ _ _ hb
        have hsz := buildDims_sizes _ _ _ (idxs_length _ _ _) (idxs_length _ _ _) hb
        obtain ⟨i1, i2⟩ := buildDims_spec he x y ds hpos hP64 hb
        have hx := Nat.div_add_mod x (ds.map Dim.size).prod
        have hy := Nat.div_add_mod y (ds.map Dim.size).prod
        rw [Nat.mul_comm] at hx hy
        have hyq : y / (ds.map Dim.size).prod ≤ y := Nat.div_le_self _ _
        have := head_step (d := d) hP rfl hsz i1 (Nat.mod_lt _ hP) (Nat.mod_lt _ hP) i2
          (lo := x / (ds.map Dim.size).prod) (up := y / (ds.map Dim.size).prod)
          (by omega) (by omega) h
        rw [hx, hy] at this
        exact ⟨this.1, this.2.1, this.2.2.1⟩
      · have hT : (y + 1) * e ≤ ((d :: ds).map Dim.size).prod * e := by
          rcases hfit with h | h
          · omega
          · exact h
        have hyT : y + 1 ≤ ((d :: ds).map Dim.size).prod := Nat.le_of_mul_le_mul_right hT he
        have := buildDims_spec he x y (d :: ds) (by
          intro q hq
          rcases List.mem_cons.1 hq with rfl | hq
          · exact hd0
          · exact hpos q hq) hT64 hb
        rw [Nat.mod_eq_of_lt (by omega), Nat.mod_eq_of_lt (by omega)] at this
        obtain ⟨hcv, hq⟩ := this.2 (by omega)
        exact ⟨hcv, fun q hm => (hq q hm).1, fun q hm => (hq q (List.mem_of_mem_tail hm)).2⟩
    have harr : Loc.IsArray (Loc.mk w.ptr (some 0) (some e) res ⟨false, true, w.kind.hint⟩) e := by
      refine ⟨rfl, rfl, rfl, he, ?_, main.2.1, main.2.2⟩
      intro h0
      simp only at h0
      rw [h0, hdims] at hsz
      simp at hsz
    refine ⟨harr, hsz, rfl, fun b => ?_⟩
    rw [array_byte harr, covers_bytes main.1]
    simp [Loc.Byte, hwc, hwl, hwu]

theorem intersectDimsFrom_known {S : Solver} (hS : SolverOK S) (th : Nat) :
    ∀ (ls rs preL preR int : List Dim) (lc rc : List (List Dim)),
      (∀ d ∈ ls, d.Wf) → (∀ d ∈ rs, d.Wf) → ls.map Dim.size = rs.map Dim.size →
      (intersectDimsFrom S false false th preL preR ls rs int lc rc).1 ≠ .unknown := by
  intro ls
  induction ls with
  | nil =>
    intro rs preL preR int lc rc _ _ hsz
    obtain rfl : rs = [] := by simpa using hsz.symm
    simp [intersectDimsFrom]
  | cons l ls ih =>
    intro rs preL preR int lc rc hwl hwr hsz
    obtain ⟨r, rs, rfl⟩ : ∃ r rs', rs = r :: rs' := by
      cases rs with
      | nil => simp at hsz
      | cons a b => exact ⟨a, b, rfl⟩
    simp only [List.map_cons, List.cons.injEq] at hsz
    rcases dimIntersect_spec hS (hwl l (by simp)) (hwr r (by simp)) hsz.1 with
      ⟨he, _⟩ | ⟨d, he, _⟩
    · simp [intersectDimsFrom, he]
    · simp only [intersectDimsFrom, he, compl]
      exact ih _ _ _ _ _ _ (fun d hd => hwl d (by simp [hd])) (fun d hd => hwr d (by simp [hd]))
        hsz.2

theorem last_le_of_sub {a b : Dim} (ha : a.Wf) (hsub : ∀ x, a.Mem x → b.Mem x) :
    a.last ≤ b.last := by
  have : a.Mem a.last := ⟨a.trip - 1, by have := ha.2; omega, rfl⟩
  exact (Dim.mem_le_last (hsub _ this)).2

theorem exists_mem {ds : List Dim} (h : ∀ d ∈ ds, d.Wf) : ∃ v, DimsMem ds v := by
  induction ds with
  | nil => exact ⟨[], trivial⟩
  | cons d ds ih =>
    obtain ⟨v, hv⟩ := ih fun e he => h e (by simp [he])
    exact ⟨d.start :: v, ⟨0, (h d (by simp)).2, by simp⟩, hv⟩

/-- A sub-box stays inside of the array. -/
theorem inBounds_of_sub : ∀ {ds ref : List Dim}, (∀ d ∈ ds, d.Wf) →
    ds.map Dim.size = ref.map Dim.size →
    (∀ v, DimsMem ds v → DimsMem ref v) → (∀ d ∈ ref, d.last < d.size) →
    ∀ d ∈ ds, d.last < d.size
  | [], _, _, _, _, _ => by simp
  | d :: ds, [], _, h, _, _ => by simp at h
  | d :: ds, r :: ref, hwf, hsz, hsub, hin => by
    simp only [List.map_cons, List.cons.injEq] at hsz
    have hdw : d.Wf := hwf d (by simp)
    have hds : ∀ e ∈ ds, e.Wf := fun e he => hwf e (by simp [he])
    obtain ⟨v, hv⟩ := exists_mem hds
    have h1 : ∀ x, d.Mem x → r.Mem x := fun x hx => (hsub (x :: v) ⟨hx, hv⟩).1
    have hd0 : d.Mem d.start := ⟨0, hdw.2, by simp⟩
    have h2 : ∀ w, DimsMem ds w → DimsMem ref w := fun w hw => (hsub (d.start :: w) ⟨hd0, hw⟩).2
    have ih := inBounds_of_sub hds hsz.2 h2 fun e he => hin e (by simp [he])
    intro e he
    rcases List.mem_cons.1 he with rfl | he
    · have := last_le_of_sub hdw h1
      have := hin r (by simp)
      omega
    · exact ih e he

theorem inBounds_tail_of_sub {ds ref : List Dim} (hwf : ∀ d ∈ ds, d.Wf)
    (hsz : ds.map Dim.size = ref.map Dim.size)
    (hsub : ∀ v, DimsMem ds v → DimsMem ref v) (hin : ∀ d ∈ ref.tail, d.last < d.size) :
    ∀ d ∈ ds.tail, d.last < d.size := by
  cases ds with
  | nil => simp
  | cons d ds =>
    cases ref with
    | nil => simp at hsz
    | cons r ref =>
      simp only [List.map_cons, List.cons.injEq] at hsz
      have hdw : d.Wf := hwf d (by simp)
      have hd0 : d.Mem d.start := ⟨0, hdw.2, by simp⟩
      exact inBounds_of_sub (fun e he => hwf e (List.mem_cons_of_mem _ he)) hsz.2
        (fun w hw => (hsub (d.start :: w) ⟨hd0, hw⟩).2) hin

end Tsar.Range
