import Verif.Range.DimLemmas

/-! # Helper lemmas: lists of dimensions, linearization -/

namespace Tsar.Range

theorem compl_spec {want : Bool} {d i : Dim} {th : Nat} {ps : List Dim} (hd : d.Wf) (hi : i.Wf)
    (hsub : ∀ x, i.Mem x → d.Mem x) (h : compl want d i th = some ps) :
    (∀ p ∈ ps, p.Wf ∧ p.size = d.size) ∧
    (want = true → ∀ x, (∃ p ∈ ps, p.Mem x) ↔ d.Mem x ∧ ¬ i.Mem x) := by
  unfold compl at h
  cases want with
  | false => simp at h; subst h; simp
  | true =>
    have := difference_spec hd hi hsub (by simpa using h)
    exact ⟨this.1, fun _ => this.2⟩

theorem DimsMem.length_eq : ∀ {ds : List Dim} {v : List Nat}, DimsMem ds v → v.length = ds.length
  | [], [], _ => rfl
  | _ :: _, _ :: _, h => by simpa using DimsMem.length_eq h.2

/-- Shape of a list of dimensions: sizes and well-formedness. -/
def Shape (ds ref : List Dim) : Prop :=
  ds.map Dim.size = ref.map Dim.size ∧ ∀ d ∈ ds, d.Wf

theorem intersectDimsFrom_spec {S : Solver} (hS : SolverOK S) (wantL wantR : Bool) (th : Nat) :
    ∀ (ls rs preL preR int : List Dim) (lc rc : List (List Dim)),
      (∀ d ∈ ls, d.Wf) → (∀ d ∈ rs, d.Wf) → ls.length = rs.length →
      ((intersectDimsFrom S wantL wantR th preL preR ls rs int lc rc).1 = .unknown) ∨
      ((intersectDimsFrom S wantL wantR th preL preR ls rs int lc rc).1 = .empty ∧
        ∀ v, ¬ (DimsMem ls v ∧ DimsMem rs v)) ∨
      ∃ (ds : List Dim) (tl tr : List (List Dim)), intersectDimsFrom S wantL wantR th preL preR ls rs int lc rc =
          (.ok (int ++ ds), lc ++ tl.map (preL ++ ·), rc ++ tr.map (preR ++ ·)) ∧
        (∀ v, DimsMem ds v ↔ DimsMem ls v ∧ DimsMem rs v) ∧
        Shape ds ls ∧ ls.map Dim.size = rs.map Dim.size ∧
        (∀ t ∈ tl, Shape t ls) ∧ (∀ t ∈ tr, Shape t rs) ∧
        (wantL = true → ∀ v, (∃ t ∈ tl, DimsMem t v) ↔ DimsMem ls v ∧ ¬ DimsMem ds v) ∧
        (wantR = true → ∀ v, (∃ t ∈ tr, DimsMem t v) ↔ DimsMem rs v ∧ ¬ DimsMem ds v) := by
  intro ls
  induction ls with
  | nil =>
    intro rs preL preR int lc rc _ _ hlen
    obtain rfl : rs = [] := by simpa using hlen.symm
    refine Or.inr (Or.inr ⟨[], [], [], by simp [intersectDimsFrom], ?_, by simp [Shape], rfl,
      by simp, by simp, ?_, ?_⟩)
    · intro v; simp
    · intro _ v; simp
    · intro _ v; simp
  | cons l ls ih =>
    intro rs preL preR int lc rc hwl hwr hlen
    obtain ⟨r, rs, rfl⟩ : ∃ r rs', rs = r :: rs' := by
      cases rs with
      | nil => simp at hlen
      | cons a b => exact ⟨a, b, rfl⟩
    have hl : l.Wf := hwl l (by simp)
    have hr : r.Wf := hwr r (by simp)
    have hls : ∀ d ∈ ls, d.Wf := fun d hd => hwl d (by simp [hd])
    have hrs : ∀ d ∈ rs, d.Wf := fun d hd => hwr d (by simp [hd])
    have hlen' : ls.length = rs.length := by simpa using hlen
    by_cases hsz : l.size = r.size
    case neg =>
      left
      have : dimIntersect S l r = .unknown := by unfold dimIntersect; rw [if_pos hsz]
      simp [intersectDimsFrom, this]
    rcases dimIntersect_spec hS hl hr hsz with ⟨he, hno⟩ | ⟨d, he, hdw, hds, hdm⟩
    · right; left
      refine ⟨by simp [intersectDimsFrom, he], ?_⟩
      rintro (_ | ⟨i, v⟩) ⟨h1, h2⟩
      · exact h1
      · exact hno i ⟨h1.1, h2.1⟩
    · simp only [intersectDimsFrom, he]
      cases hcl : compl wantL l d th with
      | none => left; rfl
      | some cl =>
        simp only
        cases hcr : compl wantR r d th with
        | none => left; rfl
        | some cr =>
          simp only
          obtain ⟨hclw, hclm⟩ := compl_spec hl hdw (fun x hx => ((hdm x).1 hx).1) hcl
          obtain ⟨hcrw, hcrm⟩ := compl_spec hr hdw (fun x hx => ((hdm x).1 hx).2) hcr
          rcases ih rs (preL ++ [l]) (preR ++ [r]) (int ++ [d])
            (lc ++ cl.map fun c => preL ++ c :: ls) (rc ++ cr.map fun c => preR ++ c :: rs)
            hls hrs hlen' with h | ⟨h, hno⟩ | ⟨ds, tl, tr, h, hm, hsh, hszs, hshl, hshr, hL, hR⟩
          · exact Or.inl h
          · refine Or.inr (Or.inl ⟨h, ?_⟩)
            rintro (_ | ⟨i, v⟩) ⟨h1, h2⟩
            · exact h1
            · exact hno v ⟨h1.2, h2.2⟩
          · refine Or.inr (Or.inr ⟨d :: ds, cl.map (· :: ls) ++ tl.map (l :: ·),
              cr.map (· :: rs) ++ tr.map (r :: ·), ?_, ?_, ?_, ?_, ?_, ?_, ?_, ?_⟩)
            · rw [h]
              simp [List.map_map, Function.comp_def]
            · rintro (_ | ⟨i, v⟩)
              · simp [DimsMem]
              · simp only [DimsMem, hdm i, hm v]; tauto
            · refine ⟨by simp [hds, hsh.1], ?_⟩
              intro e he
              rcases List.mem_cons.1 he with rfl | he
              · exact hdw
              · exact hsh.2 e he
            · simp [hsz, hszs]
            · intro t ht
              rcases List.mem_append.1 ht with ht | ht
              · obtain ⟨c, hc, rfl⟩ := List.mem_map.1 ht
                refine ⟨by simp [(hclw c hc).2], ?_⟩
                intro e he
                rcases List.mem_cons.1 he with rfl | he
                · exact (hclw _ hc).1
                · exact hls e he
              · obtain ⟨c, hc, rfl⟩ := List.mem_map.1 ht
                refine ⟨by simp [(hshl c hc).1], ?_⟩
                intro e he
                rcases List.mem_cons.1 he with rfl | he
                · exact hl
                · exact (hshl c hc).2 e he
            · intro t ht
              rcases List.mem_append.1 ht with ht | ht
              · obtain ⟨c, hc, rfl⟩ := List.mem_map.1 ht
                refine ⟨by simp [(hcrw c hc).2], ?_⟩
                intro e he
                rcases List.mem_cons.1 he with rfl | he
                · exact (hcrw _ hc).1
                · exact hrs e he
              · obtain ⟨c, hc, rfl⟩ := List.mem_map.1 ht
                refine ⟨by simp [(hshr c hc).1], ?_⟩
                intro e he
                rcases List.mem_cons.1 he with rfl | he
                · exact hr
                · exact (hshr c hc).2 e he
            · intro hw v
              simp only [List.mem_append, List.mem_map, or_and_right, exists_or,
                exists_exists_and_eq_and]
              cases v with
              | nil => simp [DimsMem]
              | cons i v =>
                have h1 := hclm hw i
                have h2 := hL hw v
                have h3 := hdm i
                have h4 := hm v
                simp only [DimsMem]
                constructor
                · rintro (⟨c, hc, hci, hv⟩ | ⟨t, ht, hli, hv⟩)
                  · have := h1.1 ⟨c, hc, hci⟩
                    exact ⟨⟨this.1, hv⟩, fun hn => this.2 hn.1⟩
                  · have := h2.1 ⟨t, ht, hv⟩
                    exact ⟨⟨hli, this.1⟩, fun hn => this.2 hn.2⟩
                · rintro ⟨⟨hli, hv⟩, hn⟩
                  by_cases hdi : d.Mem i
                  · obtain ⟨t, ht, hv'⟩ := h2.2 ⟨hv, fun hd => hn ⟨hdi, hd⟩⟩
                    exact Or.inr ⟨t, ht, hli, hv'⟩
                  · obtain ⟨c, hc, hci⟩ := h1.2 ⟨hli, hdi⟩
                    exact Or.inl ⟨c, hc, hci, hv⟩
            · intro hw v
              simp only [List.mem_append, List.mem_map, or_and_right, exists_or,
                exists_exists_and_eq_and]
              cases v with
              | nil => simp [DimsMem]
              | cons i v =>
                have h1 := hcrm hw i
                have h2 := hR hw v
                have h3 := hdm i
                have h4 := hm v
                simp only [DimsMem]
                constructor
                · rintro (⟨c, hc, hci, hv⟩ | ⟨t, ht, hli, hv⟩)
                  · have := h1.1 ⟨c, hc, hci⟩
                    exact ⟨⟨this.1, hv⟩, fun hn => this.2 hn.1⟩
                  · have := h2.1 ⟨t, ht, hv⟩
                    exact ⟨⟨hli, this.1⟩, fun hn => this.2 hn.2⟩
                · rintro ⟨⟨hli, hv⟩, hn⟩
                  by_cases hdi : d.Mem i
                  · obtain ⟨t, ht, hv'⟩ := h2.2 ⟨hv, fun hd => hn ⟨hdi, hd⟩⟩
                    exact Or.inr ⟨t, ht, hli, hv'⟩
                  · obtain ⟨c, hc, hci⟩ := h1.2 ⟨hli, hdi⟩
                    exact Or.inl ⟨c, hc, hci, hv⟩

/-! ## Linearization -/

/-- Row-major number depends on sizes only. -/
theorem linear_congr : ∀ {ds es : List Dim} (v : List Nat), ds.map Dim.size = es.map Dim.size →
    linear ds v = linear es v
  | [], [], _, _ => rfl
  | [], _ :: _, _, h => by simp at h
  | _ :: _, [], _, h => by simp at h
  | d :: ds, e :: es, [], _ => rfl
  | d :: ds, e :: es, i :: v, h => by
    simp only [List.map_cons, List.cons.injEq] at h
    simp [linear, h.2, linear_congr v h.2]

/-- Every index is less than the size of its dimension. -/
def InSizes : List Dim → List Nat → Prop
  | [], [] => True
  | d :: ds, i :: is => i < d.size ∧ InSizes ds is
  | _, _ => False

theorem linear_lt : ∀ {ds : List Dim} {v : List Nat}, InSizes ds v →
    linear ds v < (ds.map Dim.size).prod
  | [], [], _ => by simp [linear]
  | d :: ds, i :: v, h => by
    have ih := linear_lt h.2
    have : i + 1 ≤ d.size := h.1
    simp only [linear, List.map_cons, List.prod_cons]
    calc i * (ds.map Dim.size).prod + linear ds v
        < i * (ds.map Dim.size).prod + (ds.map Dim.size).prod := by omega
      _ = (i + 1) * (ds.map Dim.size).prod := by ring
      _ ≤ _ := Nat.mul_le_mul_right _ this

theorem linear_inj_all : ∀ {ds : List Dim} {v w : List Nat}, InSizes ds v → InSizes ds w →
    linear ds v = linear ds w → v = w
  | [], [], [], _, _, _ => rfl
  | d :: ds, i :: v, j :: w, hv, hw, h => by
    simp only [linear] at h
    have h1 := linear_lt hv.2
    have h2 := linear_lt hw.2
    set P := (ds.map Dim.size).prod
    have hP : 0 < P := by omega
    have e1 : (i * P + linear ds v) / P = i := by
      rw [Nat.mul_comm, Nat.mul_add_div hP, Nat.div_eq_of_lt h1]; omega
    have e2 : (j * P + linear ds w) / P = j := by
      rw [Nat.mul_comm, Nat.mul_add_div hP, Nat.div_eq_of_lt h2]; omega
    have hij : i = j := by rw [← e1, h, e2]
    subst hij
    have := linear_inj_all hv.2 hw.2 (by omega)
    rw [this]

/-- The first index may be arbitrary (size of the first dimension may be unknown). -/
theorem linear_inj {d : Dim} {ds : List Dim} {i j : Nat} {v w : List Nat}
    (hv : InSizes ds v) (hw : InSizes ds w)
    (h : linear (d :: ds) (i :: v) = linear (d :: ds) (j :: w)) : i = j ∧ v = w := by
  simp only [linear] at h
  have h1 := linear_lt hv
  have h2 := linear_lt hw
  set P := (ds.map Dim.size).prod
  have hP : 0 < P := by omega
  have e1 : (i * P + linear ds v) / P = i := by
    rw [Nat.mul_comm, Nat.mul_add_div hP, Nat.div_eq_of_lt h1]; omega
  have e2 : (j * P + linear ds w) / P = j := by
    rw [Nat.mul_comm, Nat.mul_add_div hP, Nat.div_eq_of_lt h2]; omega
  have hij : i = j := by rw [← e1, h, e2]
  subst hij
  exact ⟨rfl, linear_inj_all hv hw (by omega)⟩

theorem inSizes_of_mem : ∀ {ds : List Dim} {v : List Nat}, (∀ d ∈ ds, d.last < d.size) →
    DimsMem ds v → InSizes ds v
  | [], [], _, _ => trivial
  | d :: ds, i :: v, h, hm => by
    refine ⟨?_, inSizes_of_mem (fun e he => h e (by simp [he])) hm.2⟩
    have := (Dim.mem_le_last hm.1).2
    have := h d (by simp)
    omega

theorem inSizes_congr : ∀ {ds es : List Dim} {v : List Nat}, ds.map Dim.size = es.map Dim.size →
    InSizes ds v → InSizes es v
  | [], [], [], _, _ => trivial
  | [], _ :: _, _, h, _ => by simp at h
  | _ :: _, [], _, h, _ => by simp at h
  | d :: ds, e :: es, i :: v, h, hv => by
    simp only [List.map_cons, List.cons.injEq] at h
    exact ⟨h.1 ▸ hv.1, inSizes_congr h.2 hv.2⟩

end Tsar.Range
