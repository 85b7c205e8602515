import Verif.Inline.SimB
/-!
# Expansion of calls in statements
-/
namespace Tsar.Inline

variable {Old Dst : Name → Prop} {D bd : List Name} {ids : Ids} {K : Frame} {sh : Shape} {C C' : Calls}
  {cnd vd lab : Name → Bool} {rt : Rt} {m : Name → Name} {fr : Name → Ids → Name} {inl : Inl}
  {st : List Name}

/-! ## Labels -/

theorem skipTo_tail {l : Name} {s : Stmt} {ss : List Stmt} (h : skipTo l (s :: ss) = none) :
    skipTo l ss = none := (skipTo_append (a := [s]).1 h).2

theorem skipTo_cons {l : Name} {s : Stmt} {ss : List Stmt} (hs : ∀ m s', s ≠ .label m s')
    (h : skipTo l ss = none) : skipTo l (s :: ss) = none := by
  cases s <;> simp only [skipTo, h, Option.map_none]
  rename_i m s'
  exact absurd rfl (hs m s')

theorem single_skip {l : Name} {A : PS} (h : skipTo l A.core = none) : skipTo l (single A).2 = none := by
  unfold single
  split
  · split
    · rfl
    · rename_i hc; rw [hc] at h; exact skipTo_tail h
  · rfl

theorem pD_id (hI : InlId (inl st)) : ∀ (ds : List Init) (m : Name → Name) (ids : Ids),
    (∀ y ∈ ids, y ∈ (pD inl st m ds ids).ids) ∧
    (∀ l ∈ ids, skipTo l (pD inl st m ds ids).pre = none ∧ skipTo l (pD inl st m ds ids).rep = none)
  | [], _, _ => by simp [pD, skipTo]
  | (x, none) :: ds, m, ids => by
    simp only [pD]
    exact pD_id hI ds _ ids
  | (x, some e) :: ds, m, ids => by
    simp only [pD]
    have hA := pE_id (m := m) hI true e ids
    have hB := pD_id hI ds (hide m [x]) (pE inl st m true e ids).ids
    exact ⟨fun y hy => hB.1 _ (hA.1 y hy), fun y hy =>
      ⟨skipTo_app (hA.2 y hy).1 (hB.2 y (hA.1 y hy)).1, skipTo_app (hA.2 y hy).2 (hB.2 y (hA.1 y hy)).2⟩⟩

theorem lower_skip {l : Name} {last : Bool} {e : Option Expr} : skipTo l (lower rt last e) = none := by
  unfold lower
  split
  · rfl
  · split <;> rfl
  · rfl
  · split <;> rfl

/-- No labels with known names, used identifiers are not forgotten. -/
def PS.fresh (A : PS) (ids : Ids) : Prop :=
  (∀ y ∈ ids, y ∈ A.ids) ∧ ∀ l ∈ ids, skipTo l A.pre = none ∧ skipTo l A.core = none

theorem init_ok {i : Stmt} (h : okInit cnd vd i = true) : okS cnd vd lab true i = true := by
  cases i <;> simp only [okInit, okS] at h ⊢ <;> try cases h
  · rename_i e
    cases e <;> simp only [okX] <;> try exact h
    simp only [okE, Bool.and_eq_true] at h
    simp [h.2]
  · rename_i ds; simpa using h

mutual

theorem pS_id (hI : InlId (inl st)) : ∀ (s : Stmt) (inL last : Bool) (m : Name → Name) (ids : Ids),
    okS cnd vd lab inL s = true → (pS fr inl st rt m last s ids).fresh ids
  | .skip, _, _, m, ids, _ => by simp [pS, PS.fresh, skipTo]
  | .bad, _, _, m, ids, _ => by simp [pS, PS.fresh, skipTo]
  | .expr e, _, _, m, ids, _ => by
    have h := pE_id (m := m) hI true e ids
    simp only [pS]
    split
    · exact ⟨h.1, fun l hl => ⟨(h.2 l hl).1, rfl⟩⟩
    · exact ⟨h.1, fun l hl => h.2 l hl⟩
  | .decl ds, _, _, m, ids, _ => by
    have h := pD_id hI ds m ids
    simp only [pS]
    split
    · exact ⟨h.1, fun l hl => ⟨(h.2 l hl).1, rfl⟩⟩
    · exact ⟨h.1, fun l hl => h.2 l hl⟩
  | .static x o, _, _, m, ids, _ => by
    simp only [pS]
    split
    · exact ⟨fun y hy => .tail _ hy, fun l _ => ⟨rfl, rfl⟩⟩
    · exact ⟨fun y hy => hy, fun l _ => ⟨rfl, rfl⟩⟩
  | .ift c t, _, _, m, ids, h => by
    simp only [okS, Bool.and_eq_true] at h
    have hE := pE_id (m := m) hI true c ids
    have hT := pS_id hI t false false m (pE inl st m true c ids).ids h.2
    simp only [pS]
    split
    · exact ⟨fun y hy => hT.1 _ (hE.1 y hy), fun l hl => ⟨(hE.2 l hl).1,
        skipTo_cons (by simp) (single_skip (hT.2 l (hE.1 l hl)).2)⟩⟩
    · exact ⟨fun y hy => hT.1 _ (hE.1 y hy), fun l hl => hE.2 l hl⟩
  | .ifte c t e, _, _, m, ids, h => by
    simp only [okS, Bool.and_eq_true] at h
    have hE := pE_id (m := m) hI true c ids
    have hT := pS_id hI t false false m (pE inl st m true c ids).ids h.2.1
    have hF := pS_id hI e false false m (pS fr inl st rt m false t (pE inl st m true c ids).ids).ids h.2.2
    have hi : ∀ y ∈ ids, _ := fun y hy => hF.1 _ (hT.1 _ (hE.1 y hy))
    simp only [pS]
    split
    · split
      · exact ⟨hi, fun l hl => ⟨(hE.2 l hl).1,
          skipTo_cons (by simp) (single_skip (hF.2 l (hT.1 _ (hE.1 l hl))).2)⟩⟩
      · exact ⟨hi, fun l hl => ⟨(hE.2 l hl).1, rfl⟩⟩
    · exact ⟨hi, fun l hl => hE.2 l hl⟩
  | .loop c b, _, _, m, ids, h => by
    simp only [okS] at h
    have hE := pE_id (m := m) hI false c ids
    have hB := pS_id hI b false false m (pE inl st m false c ids).ids h
    simp only [pS]
    exact ⟨fun y hy => hB.1 _ (hE.1 y hy), fun l hl => ⟨rfl,
      skipTo_cons (by simp) (single_skip (hB.2 l (hE.1 l hl)).2)⟩⟩
  | .doloop b c, _, _, m, ids, h => by
    simp only [okS] at h
    have hB := pS_id hI b false false m ids h
    have hE := pE_id (m := m) hI false c (pS fr inl st rt m false b ids).ids
    have hi : ∀ y ∈ ids, _ := fun y hy => hE.1 _ (hB.1 y hy)
    simp only [pS]
    split
    · exact ⟨hi, fun l hl => ⟨rfl, rfl⟩⟩
    · exact ⟨hi, fun l hl => ⟨rfl, rfl⟩⟩
  | .for i c inc b, _, _, m, ids, h => by
    simp only [okS, Bool.and_eq_true] at h
    have h₁ := pS_id hI i true false m ids (init_ok (lab := lab) h.1)
    have h₂ := pE_id (m := hide m i.declared) hI false c (pS fr inl st rt m false i ids).ids
    have h₃ := pE_id (m := hide m i.declared) hI false inc
      (pE inl st (hide m i.declared) false c (pS fr inl st rt m false i ids).ids).ids
    have h₄ := pS_id hI b false false (hide m i.declared) (pE inl st (hide m i.declared) false inc
      (pE inl st (hide m i.declared) false c (pS fr inl st rt m false i ids).ids).ids).ids h.2
    have hi : ∀ y ∈ ids, _ := fun y hy => h₄.1 _ (h₃.1 _ (h₂.1 _ (h₁.1 y hy)))
    simp only [pS]
    split
    · exact ⟨hi, fun l hl => h₁.2 l hl⟩
    · split
      · exact ⟨hi, fun l hl => ⟨(h₁.2 l hl).1, skipTo_cons (by simp)
          (single_skip (h₄.2 l (h₃.1 _ (h₂.1 _ (h₁.1 l hl)))).2)⟩⟩
      · exact ⟨hi, fun l hl => ⟨rfl, rfl⟩⟩
  | .block ss, _, _, m, ids, h => by
    simp only [okS] at h
    have := pSs_id hI ss false m ids h
    simp only [pS]
    exact ⟨this.1, fun l _ => ⟨rfl, rfl⟩⟩
  | .ret none, _, _, m, ids, _ => by
    simp only [pS]
    exact ⟨fun y hy => hy, fun l _ => ⟨rfl, lower_skip⟩⟩
  | .ret (some e), _, _, m, ids, _ => by
    have h := pE_id (m := m) hI true e ids
    simp only [pS]
    split
    · exact ⟨h.1, fun l hl => ⟨(h.2 l hl).1, lower_skip⟩⟩
    · exact ⟨h.1, fun l hl => h.2 l hl⟩
  | .brk, _, _, m, ids, _ => by simp [pS, PS.fresh, skipTo]
  | .goto _, _, _, m, ids, h => by simp [okS] at h
  | .label _ _, _, _, m, ids, h => by simp [okS] at h

theorem pSs_id (hI : InlId (inl st)) : ∀ (ss : List Stmt) (top : Bool) (m : Name → Name) (ids : Ids),
    okSs cnd vd lab ss = true → (∀ y ∈ ids, y ∈ (pSs fr inl st rt m top ss ids).2) ∧
    ∀ l ∈ ids, skipTo l (pSs fr inl st rt m top ss ids).1 = none
  | [], _, _, _, _ => by simp [pSs, skipTo]
  | s :: ss, top, m, ids, h => by
    simp only [okSs, Bool.and_eq_true] at h
    simp only [pSs]
    have hA := pS_id hI s true (top && ss.isEmpty) m ids h.1
    have hB := pSs_id hI ss top (hide m s.declared) (pS fr inl st rt m (top && ss.isEmpty) s ids).ids h.2
    exact ⟨fun y hy => hB.1 _ (hA.1 y hy), fun l hl =>
      skipTo_app (hA.2 l hl).1 (skipTo_app (hA.2 l hl).2 (hB.2 l (hA.1 l hl)))⟩

end

/-! ## The only statement of `if` or of a loop -/

theorem single_nil {A : PS} (h : A.core.length ≤ 1) : (single A).2 = [] := by
  unfold single
  split
  · split
    · rfl
    · rename_i s sp hc
      rw [hc] at h
      simp only [List.length_cons] at h
      show sp = []
      exact List.eq_nil_of_length_eq_zero (by omega)
  · rfl

theorem okS_declared {s : Stmt} (h : okS cnd vd lab false s = true) : s.declared = [] := by
  cases s <;> simp [okS, Stmt.declared] at h ⊢

theorem lower_length {last : Bool} {e : Option Expr} : (lower rt last e).length ≤ 1 := by
  unfold lower
  split
  · simp
  · split <;> simp
  · simp
  · split <;> simp

theorem okX_okE {inL : Bool} {e : Expr} (h : okX cnd vd lab inL e = true)
    (hc : ∀ k f as, e ≠ .call k f as) : okE cnd vd e = true := by
  cases e <;> simp only [okX] at h <;> first | exact h | exact absurd rfl (hc _ _ _)

theorem pS_core (hI : InlOk Old Dst cnd vd lab C C' (inl st)) : ∀ (s : Stmt) (last : Bool)
    (m : Name → Name) (ids : Ids), okS cnd vd lab false s = true →
    (pS fr inl st rt m last s ids).core.length ≤ 1
  | .skip, _, m, ids, _ => by simp [pS]
  | .bad, _, m, ids, _ => by simp [pS]
  | .expr e, _, m, ids, h => by
    have hI' := fun f ids T ids₁ h => let h := hI f ids T ids₁ h; And.intro h.1 h.2.1
    simp only [okS] at h
    by_cases hc : ∃ k f as, e = .call k f as
    · obtain ⟨k, f, as, rfl⟩ := hc
      simp only [okX, Bool.and_eq_true] at h
      have hA := pL_rep (m := m) hI' as true ids (.inr h.1)
      simp only [pS]
      split
      · simp
      · rename_i hr
        simp only [pE] at hr ⊢
        split
        · rename_i hn
          simp only [hn, hA] at hr
          exact absurd rfl hr
        · rename_i T ids₁ hT
          split
          · split
            · rename_i hv
              have hT' : (k && true) = true ∧ inl st f (pL inl st m true as ids).ids = some (T, ids₁) := by
                split at hT
                · rename_i hk'; exact ⟨hk', hT⟩
                · cases hT
              obtain ⟨h₁, h₂, h₃, _⟩ := hI _ _ _ _ hT'.2
              have hk : k = true := by simpa using hT'.1
              simp only [hk, h₁, h₂, hv, h₃, Bool.true_and, Bool.false_or, Bool.not_eq_true'] at h
              simp [hA, Tpl.text, hv, h.2]
            · simp [hA]
          · simp [hA]
    · have hE := pE_rep (m := m) hI' e true ids (.inr (okX_okE h fun k f as he => hc ⟨k, f, as, he⟩))
      simp [pS, hE]
  | .decl ds, _, m, ids, h => by simp [okS] at h
  | .static x o, _, m, ids, h => by simp [okS] at h
  | .ift c t, _, m, ids, h => by
    have hI' := fun f ids T ids₁ h => let h := hI f ids T ids₁ h; And.intro h.1 h.2.1
    simp only [okS, Bool.and_eq_true] at h
    have hE := pE_rep (m := m) hI' c true ids (.inr h.1)
    have hT := single_nil (pS_core hI t false m (pE inl st m true c ids).ids h.2)
    simp [pS, hE, hT]
  | .ifte c t e, _, m, ids, h => by
    have hI' := fun f ids T ids₁ h => let h := hI f ids T ids₁ h; And.intro h.1 h.2.1
    simp only [okS, Bool.and_eq_true] at h
    have hE := pE_rep (m := m) hI' c true ids (.inr h.1)
    have hT := single_nil (pS_core hI t false m (pE inl st m true c ids).ids h.2.1)
    have hF := single_nil (pS_core hI e false m
      (pS fr inl st rt m false t (pE inl st m true c ids).ids).ids h.2.2)
    simp [pS, hE, hT, hF]
  | .loop c b, _, m, ids, h => by
    simp only [okS] at h
    have hB := single_nil (pS_core hI b false m (pE inl st m false c ids).ids h)
    simp [pS, hB]
  | .doloop b c, _, m, ids, h => by
    simp only [pS]
    split <;> simp
  | .for i c inc b, _, m, ids, h => by
    simp only [okS, Bool.and_eq_true] at h
    have hB := single_nil (pS_core hI b false (hide m i.declared)
      (pE inl st (hide m i.declared) false inc
      (pE inl st (hide m i.declared) false c (pS fr inl st rt m false i ids).ids).ids).ids h.2)
    have hr : (pS fr inl st rt m false i ids).rep = false := init_rep hI h.1
    simp only [pS, hr, Bool.false_eq_true, if_false]
    split
    · simp [hB]
    · simp
  | .block ss, _, m, ids, h => by simp [pS]
  | .ret none, _, m, ids, _ => by simpa [pS] using lower_length
  | .ret (some e), _, m, ids, h => by
    have hI' := fun f ids T ids₁ h => let h := hI f ids T ids₁ h; And.intro h.1 h.2.1
    simp only [okS] at h
    have hE := pE_rep (m := m) hI' e true ids (.inr h)
    simpa [pS, hE] using lower_length
  | .brk, _, m, ids, _ => by simp [pS]
  | .goto _, _, m, ids, h => by simp [okS] at h
  | .label _ _, _, m, ids, h => by simp [okS] at h
where
  quietD_rep {Old Dst : Name → Prop} {C C' : Calls} {cnd vd lab : Name → Bool} {inl : Inl} {st : List Name}
      (hI : InlOk Old Dst cnd vd lab C C' (inl st)) : ∀ (ds : List Init) (m : Name → Name) (ids : Ids),
      quietD cnd ds = true → (pD inl st m ds ids).pre = [] ∧ (pD inl st m ds ids).rep = [] ∧
      (pD inl st m ds ids).ids = ids
    | [], _, _, _ => by simp [pD]
    | (x, none) :: ds, m, ids, h => by
      simpa [pD] using quietD_rep hI ds (hide m [x]) ids (by simpa [quietD] using h)
    | (x, some e) :: ds, m, ids, h => by
      simp only [quietD, Bool.and_eq_true] at h
      have hq := (pE_quiet (J := fun _ _ => True) (V := fun _ => True) (W := fun _ => True) (μ := m)
        (m := m) (fun f ids T h => (hI f ids T.1 T.2 h).1) (fun _ _ => rfl) e true ids (.inr h.1)
        ⟨fun _ _ => trivial, fun _ _ => trivial⟩).1
      have hD := quietD_rep hI ds (hide m [x]) ids h.2
      simp only [pD, hq.1, hq.2.1, hq.2.2, hD.1, hD.2.1, hD.2.2]
      exact ⟨rfl, rfl, trivial⟩
  okD_rep {Old Dst : Name → Prop} {C C' : Calls} {cnd vd lab : Name → Bool} {inl : Inl} {st : List Name}
      (hI : InlOk Old Dst cnd vd lab C C' (inl st)) (ds : List Init) (m : Name → Name) (ids : Ids)
      (h : okD cnd vd ds = true) : (pD inl st m ds ids).rep = [] := by
    have hI' := fun f ids T ids₁ h => let h := hI f ids T ids₁ h; And.intro h.1 h.2.1
    cases ds with
    | nil => simp [pD]
    | cons d ds =>
      obtain ⟨x, _ | e⟩ := d
      · simpa [pD] using (quietD_rep hI ds (hide m [x]) ids (by simpa [okD] using h)).2.1
      · simp only [okD, Bool.and_eq_true] at h
        have hE := pE_rep (m := m) hI' e true ids (.inr h.1)
        have hD := quietD_rep hI ds (hide m [x]) (pE inl st m true e ids).ids h.2
        simp [pD, hE, hD.2.1]
  init_rep {Old Dst : Name → Prop} {C C' : Calls} {cnd vd lab : Name → Bool} {inl : Inl} {st : List Name}
      {fr : Name → Ids → Name} {rt : Rt} {m : Name → Name} {ids : Ids}
      (hI : InlOk Old Dst cnd vd lab C C' (inl st)) {i : Stmt} (h : okInit cnd vd i = true) :
      (pS fr inl st rt m false i ids).rep = false := by
    have hI' := fun f ids T ids₁ h => let h := hI f ids T ids₁ h; And.intro h.1 h.2.1
    cases i <;> simp only [okInit] at h <;> try cases h
    · simp [pS]
    · rename_i e
      simp [pS, pE_rep (m := m) hI' e true ids (.inr h)]
    · rename_i ds
      simp [pS, okD_rep hI ds m ids h]

/-! ## Correspondence of states after a statement -/

/-- A statement is completed. -/
def NormR (Old Dst : Name → Prop) (D : List Name) (rt : Rt) (K : Frame) (m : Name → Name) (s : Stmt)
    (ids' : Ids) (pre : List Stmt) (sh : Shape) (σ σ' : St) : Prop :=
  ∃ sh₂, Ctx Old Dst D rt K (hide m s.declared) ids' (sh₂ ++ sh) ∧ SR K (sh₂ ++ sh) σ σ' ∧
    (∀ x ∈ s.declared, x ∈ olds sh₂) ∧ (s.declared = [] → AllJunk sh₂ ∧ (pre = [] → sh₂ = []))

/-- A loop is left. -/
def BrkR (K : Frame) (pre : List Stmt) (sh : Shape) (σ σ' : St) : Prop :=
  ∃ sh₂, AllJunk sh₂ ∧ SR K (sh₂ ++ sh) σ σ' ∧ (pre = [] → sh₂ = [])

theorem nil_junk : AllJunk [] := fun _ h => (by cases h)

/-- The only statement of `if` or of a loop. -/
theorem single_sim {A : PS} {s : Stmt} (hcore : A.core.length ≤ 1)
    (hlab : ∀ R L v, rt = some (R, L, v) → skipTo L (A.pre ++ A.core) = none) (hd : s.declared = [])
    {σ σ' : St} (hs : SR K sh σ σ')
    (hS : ∀ {t r'}, ExecL C' (A.pre ++ A.core) σ' t r' → ∃ r, Exec C s σ t r ∧
      OutR rt false K (NormR Old Dst D rt K m s A.ids A.pre sh) (BrkR K A.pre sh) r' r)
    {t : List Ev} {r' : Out} (h : Exec C' (single A).1 σ' t r') :
    ∃ r, Exec C s σ t r ∧ OutR rt false K (SR K sh) (SR K sh) r' r := by
  by_cases hp : A.pre = []
  · have fin : ∀ {t r'}, ExecL C' (A.pre ++ A.core) σ' t r' →
        ∃ r, Exec C s σ t r ∧ OutR rt false K (SR K sh) (SR K sh) r' r := by
      intro t r' h
      obtain ⟨r, h₁, h₂⟩ := hS h
      refine ⟨r, h₁, h₂.imp id ?_ ?_⟩
      · rintro σ σ' ⟨sh₂, _, h, _, h₃⟩
        rw [(h₃ hd).2 hp] at h; exact h
      · rintro σ σ' ⟨sh₂, _, h, h₃⟩
        rw [h₃ hp] at h; exact h
    have he : A.pre.isEmpty = true := by simp [hp]
    simp only [single, he, if_true] at h
    split at h
    · rename_i hc
      simp only at h
      cases h with
      | cut => exact ⟨_, .cut _ _, .halt _⟩
      | skip => exact fin (by rw [hp, hc]; exact .nil _)
    · rename_i c sp hc
      simp only at h
      have : sp = [] := by
        rw [hc] at hcore
        simp only [List.length_cons] at hcore
        exact List.eq_nil_of_length_eq_zero (by omega)
      subst this
      exact fin (by rw [hp, hc]; exact h.toL)
  · have he : A.pre.isEmpty = false := by simp [hp]
    simp only [single, he, Bool.false_eq_true, if_false] at h
    cases h with
    | cut => exact ⟨_, .cut _ _, .halt _⟩
    | block h =>
      have hl := hs.l.length.2
      have h := h.once fun {t l σ₁} hj => by
        obtain ⟨r, _, h₂⟩ := hS hj
        cases h₂ with
        | jump hr => exact hlab _ _ _ hr
      obtain ⟨r, h₁, h₂⟩ := hS h
      refine ⟨r, h₁, h₂.exit' (by omega) ?_ ?_⟩
      · rintro σ σ' ⟨sh₂, _, h, _, h₃⟩
        exact h.drop (h₃ hd).1 hl
      · rintro σ σ' ⟨sh₂, hj, h, _⟩
        exact h.drop hj hl

/-- Loops. -/
theorem loop_sim (hC : ∀ f vs g t r, C' f vs g t r → C f vs g t r) (hw : WF Old K sh) {c' c : Expr}
    {b' b : Stmt} (hc : Rel Old K sh c' c)
    (hb : ∀ {σ σ' t r'}, SR K sh σ σ' → Exec C' b' σ' t r' →
      ∃ r, Exec C b σ t r ∧ OutR rt false K (SR K sh) (SR K sh) r' r) :
    ∀ {s σ' t r'}, Exec C' s σ' t r' → s = .loop c' b' → ∀ {σ}, SR K sh σ σ' →
      ∃ r, Exec C (.loop c b) σ t r ∧ OutR rt false K (SR K sh) (SR K sh) r' r
  | _, _, _, _, .cut _ _, _, _, _ => ⟨_, .cut _ _, .halt _⟩
  | _, _, _, _, .loopF h hv, e, σ, hs => by
    cases e
    obtain ⟨σ₁, h₁, h₂⟩ := eval_sim hC hw h hc hs
    exact ⟨_, .loopF (.val h₁) hv, .norm h₂⟩
  | _, _, _, _, .loopU h hv, e, σ, hs => by
    cases e
    obtain ⟨σ₁, h₁, h₂⟩ := eval_sim hC hw h hc hs
    exact ⟨_, .loopU (.val h₁) hv, .halt _⟩
  | _, _, _, _, .loopH h, e, σ, hs => by
    cases e
    exact ⟨_, .loopH (.halt (eval_simH hC hw h hc hs)), .halt _⟩
  | _, _, _, _, .loopN h hv hb' hl, e, σ, hs => by
    have ih := fun {σ} hs => loop_sim hC hw hc hb hl e (σ := σ) hs
    cases e
    obtain ⟨σ₁, h₁, h₂⟩ := eval_sim hC hw h hc hs
    obtain ⟨r, h₃, h₄⟩ := hb h₂ hb'
    cases h₄ with
    | norm h₄ =>
      obtain ⟨r, h₅, h₆⟩ := ih h₄
      exact ⟨r, .loopN (.val h₁) hv h₃ h₅, h₆⟩
    | last _ h => cases h
  | _, _, _, _, .loopB h hv hb', e, σ, hs => by
    cases e
    obtain ⟨σ₁, h₁, h₂⟩ := eval_sim hC hw h hc hs
    obtain ⟨r, h₃, h₄⟩ := hb h₂ hb'
    cases h₄ with
    | brk h₄ => exact ⟨_, .loopB (.val h₁) hv h₃, .norm h₄⟩
  | _, _, _, _, .loopA h hv hb' hn hk, e, σ, hs => by
    cases e
    obtain ⟨σ₁, h₁, h₂⟩ := eval_sim hC hw h hc hs
    obtain ⟨r, h₃, h₄⟩ := hb h₂ hb'
    refine ⟨r, .loopA (.val h₁) hv h₃ ?_ ?_, h₄⟩
    · intro σ he; subst he; cases h₄; exact hn _ rfl
    · intro σ he; subst he; cases h₄; exact hk _ rfl
  | _, _, _, _, .skip _, e, _, _ => by cases e
  | _, _, _, _, .bad _, e, _, _ => by cases e
  | _, _, _, _, .expr _, e, _, _ => by cases e
  | _, _, _, _, .exprH _, e, _, _ => by cases e
  | _, _, _, _, .decl _, e, _, _ => by cases e
  | _, _, _, _, .static _ _ _, e, _, _ => by cases e
  | _, _, _, _, .ift _, e, _, _ => by cases e
  | _, _, _, _, .ifteT _ _ _, e, _, _ => by cases e
  | _, _, _, _, .ifteF _ _ _, e, _, _ => by cases e
  | _, _, _, _, .ifteU _ _, e, _, _ => by cases e
  | _, _, _, _, .ifteH _, e, _, _ => by cases e
  | _, _, _, _, .doN _ _, e, _, _ => by cases e
  | _, _, _, _, .doB _, e, _, _ => by cases e
  | _, _, _, _, .doA _ _ _, e, _, _ => by cases e
  | _, _, _, _, .for _, e, _, _ => by cases e
  | _, _, _, _, .block _, e, _, _ => by cases e
  | _, _, _, _, .retN _, e, _, _ => by cases e
  | _, _, _, _, .ret _, e, _, _ => by cases e
  | _, _, _, _, .retH _, e, _, _ => by cases e
  | _, _, _, _, .brk _, e, _, _ => by cases e
  | _, _, _, _, .goto _ _, e, _, _ => by cases e
  | _, _, _, _, .label _, e, _, _ => by cases e

/-- A body of `for`. -/
theorem seq_sim (hC : ∀ f vs g t r, C' f vs g t r → C f vs g t r) (hw : WF Old K sh) {c' c : Expr}
    {b' b : Stmt} (hc : Rel Old K sh c' c)
    (hb : ∀ {σ σ' t r'}, SR K sh σ σ' → Exec C' b' σ' t r' →
      ∃ r, Exec C b σ t r ∧ OutR rt false K (SR K sh) (SR K sh) r' r)
    (hlab : ∀ R L v, rt = some (R, L, v) → skipTo L [b'] = none)
    {σ σ' : St} {t : List Ev} {r' : Out} (hs : SR K sh σ σ')
    (h : Exec C' (.block [b', .expr c']) σ' t r') :
    ∃ r, Exec C (.block [b, .expr c]) σ t r ∧ OutR rt false K (SR K sh) (SR K sh) r' r := by
  cases h with
  | cut => exact ⟨_, .cut _ _, .halt _⟩
  | block h =>
    have key : ∀ {t r'}, ExecL C' [b', .expr c'] σ' t r' →
        ∃ r, ExecL C [b, .expr c] σ t r ∧ OutR rt false K (SR K sh) (SR K sh) r' r := by
      intro t r' h
      cases h with
      | cons h hr =>
        obtain ⟨r, h₁, h₂⟩ := hb hs h
        cases h₂ with
        | norm h₂ =>
          have := hr.single
          cases this with
          | cut => exact ⟨_, .cons h₁ (.stop (.cut _ _) (by simp) (by simp)), .halt _⟩
          | expr he =>
            obtain ⟨σ₂, h₃, h₄⟩ := eval_sim hC hw he hc h₂
            exact ⟨_, .cons h₁ (Exec.expr (.val h₃)).toL, .norm h₄⟩
          | exprH he =>
            exact ⟨_, .cons h₁ (Exec.exprH (.halt (eval_simH hC hw he hc h₂))).toL, .halt _⟩
        | @last _ _ _ _ hl => exact absurd hl (by simp)
      | stop h hn hj =>
        obtain ⟨r, h₁, h₂⟩ := hb hs h
        refine ⟨r, .stop h₁ ?_ fun l σ he => absurd he (h₂.not_jump l σ), h₂⟩
        intro σ he; subst he; cases h₂; exact hn _ rfl
      | jump h hj _ => simp [skipTo] at hj
    have h := h.once fun {t l σ₁} hj => by
      obtain ⟨r, _, h₂⟩ := key hj
      cases h₂ with
      | jump hr => exact skipTo_append (a := [b']).2 ⟨hlab _ _ _ hr, rfl⟩
    obtain ⟨r, h₁, h₂⟩ := key h
    refine ⟨_, Exec.ofL h₁ h₂.not_jump, h₂.exit (by have := hs.l.length.2; omega) ?_ ?_⟩
    · intro σ₁ σ₁' h
      exact ⟨h.g, by simpa using FR.bot (sh₁ := []) h.l hs.l⟩
    · intro σ₁ σ₁' h
      exact ⟨h.g, by simpa using FR.bot (sh₁ := []) h.l hs.l⟩

/-! ## Statements with inserted bodies -/

/-- Evaluation is continued after inserted bodies. -/
theorem Hoisted.eval (hC : ∀ f vs g t r, C' f vs g t r → C f vs g t r) {ids' : Ids} {pre : List Stmt}
    {e e' : Expr} {σ σ₁' : St} {t : List Ev}
    (h : Hoisted Old Dst D K C sh ids' pre e σ t e' (.norm σ₁')) :
    ∃ sh₁ σ₁, AllJunk sh₁ ∧ Amb Old Dst D ids' K (sh₁ ++ sh) ∧ (pre = [] → sh₁ = []) ∧
      SR K (sh₁ ++ sh) σ₁ σ₁' ∧ Steps C e σ t (.halt .cut) ∧
      (∀ t₂ v σ₂', Eval C' e' σ₁' t₂ (.val v σ₂') → ∃ σ₂, Eval C e σ (t ++ t₂) (.val v σ₂) ∧
        SR K (sh₁ ++ sh) σ₂ σ₂') ∧
      ∀ t₂ h, Eval C' e' σ₁' t₂ (.halt h) → Eval C e σ (t ++ t₂) (.halt h) := by
  obtain ⟨e₁, σ₁, sh₁, h₁, h₂, h₃, h₄, h₅, h₆⟩ := h
  refine ⟨sh₁, σ₁, h₁, h₂, h₃, h₅, h₄.halted, fun t₂ v σ₂' he => ?_, fun t₂ h he => ?_⟩
  · obtain ⟨σ₂, k₁, k₂⟩ := eval_sim hC h₂.wf he h₆ h₅
    exact ⟨σ₂, .val (h₄.trans k₁), k₂⟩
  · exact .halt (h₄.trans (eval_simH hC h₂.wf he h₆ h₅))

theorem Hoisted.then {ids' : Ids} {pre core : List Stmt} {e e' : Expr} {σ σ' : St} {t : List Ev} {r' : Out}
    (hH : ∀ {t r'}, ExecL C' pre σ' t r' → Hoisted Old Dst D K C sh ids' pre e σ t e' r')
    (h : ExecL C' (pre ++ core) σ' t r') :
    (∃ t₁ t₂ σ₁', Hoisted Old Dst D K C sh ids' pre e σ t₁ e' (.norm σ₁') ∧ ExecL C' core σ₁' t₂ r' ∧
      t = t₁ ++ t₂) ∨ ∃ h, r' = .halt h ∧ Eval C e σ t (.halt h) := by
  rcases h.append with ⟨t₁, t₂, σ₁', h₁, h₂, rfl⟩ | ⟨h₁, h₂⟩ | ⟨l, t₁, σ₁', h₁, _⟩
  · exact .inl ⟨t₁, t₂, σ₁', hH h₁, h₂, rfl⟩
  · have := hH h₁
    cases r' with
    | norm σ₁' => exact absurd rfl (h₂ _)
    | halt h' => exact .inr ⟨_, rfl, .halt this⟩
    | _ => exact this.elim
  · exact (hH h₁).elim

theorem NmS.tailD {x : Name} {o : Option Expr} {ds : List Init} (h : NmS Old D K bd (.decl ((x, o) :: ds))) :
    NmS Old D K (x :: bd) (.decl ds) := by
  refine ⟨fun e he => h.uses e ?_, fun e he => h.fns e ?_, fun y hy => h.free y ?_, fun y hy => h.decls y ?_⟩
  · cases o <;> simp_all [exprsS, exprsD]
  · cases o <;> simp_all [exprsS, exprsD]
  · cases o <;> simp_all [freeS, freeD]
  · simp_all [Stmt.decls]

theorem NmS.headD {x : Name} {e : Expr} {ds : List Init} (h : NmS Old D K bd (.decl ((x, some e) :: ds))) :
    NmE Old D K bd e :=
  ⟨h.uses e (by simp [exprsS, exprsD]), h.fns e (by simp [exprsS, exprsD]),
    fun y hy => h.free y (by simp [freeS, freeD, hy])⟩

/-- Result of declarators. -/
def DeclR (Old Dst : Name → Prop) (D : List Name) (rt : Rt) (K : Frame) (C : Calls) (m : Name → Name)
    (ds : List Init) (ids : Ids) (sh : Shape) (σ : St) (t : List Ev) : Out → Prop
  | .norm σ' => ∃ dsh σ₁, ExecD C ds σ t (.norm σ₁) ∧
      Ctx Old Dst D rt K (hide m (ds.map Prod.fst)) ids (dsh ++ sh) ∧ SR K (dsh ++ sh) σ₁ σ' ∧
      (∀ x ∈ ds.map Prod.fst, x ∈ olds dsh) ∧ (ds = [] → dsh = [])
  | .halt h => ExecD C ds σ t (.halt h)
  | _ => False

theorem quietD_sim (hC : ∀ f vs g t r, C' f vs g t r → C f vs g t r)
    (hI : InlOk Old Dst cnd vd lab C C' (inl st)) : ∀ (ds : List Init) {m : Name → Name} {ids : Ids}
    {sh : Shape} {bd : List Name}, quietD cnd ds = true → Ctx Old Dst D rt K m ids sh →
    NmS Old D K bd (.decl ds) → (∀ x ∈ bd, x ∈ olds sh) →
    ∀ {σ σ' : St} {t : List Ev} {r' : Out}, SR K sh σ σ' → ExecD C' (pD inl st m ds ids).ds σ' t r' →
    DeclR Old Dst D rt K C m ds ids sh σ t r'
  | [], m, ids, sh, bd, _, hx, _, _, σ, σ', t, r', hs, h => by
    simp only [pD] at h
    cases h
    exact ⟨[], σ, .nil σ, hx.congr fun x => (hide_nil x).symm, hs, by simp, fun _ => rfl⟩
  | (x, none) :: ds, m, ids, sh, bd, hq, hx, hn, hb, σ, σ', t, r', hs, h => by
    simp only [pD] at h
    cases h with
    | none h =>
      have hx₁ := hx.push (hn.decls x (by simp [Stmt.decls]))
      have := quietD_sim hC hI ds (bd := x :: bd) (by simpa [quietD] using hq) hx₁ hn.tailD (by
        intro y hy
        simp only [olds, List.filterMap_cons, Ent.old, List.mem_cons] at hy ⊢
        exact hy.imp_right (hb y))
        (σ := ⟨σ.g, (x, .auto none) :: σ.l⟩) (σ' := ⟨σ'.g, (x, .auto none) :: σ'.l⟩)
        ⟨hs.g, _, _, _, rfl, rfl, hs.l⟩ h
      cases r' with
      | norm σ₁' =>
        obtain ⟨dsh, σ₁, h₁, h₂, h₃, h₄, _⟩ := this
        refine ⟨dsh ++ [.pair x x], σ₁, .none h₁, ?_, by simpa using h₃, ?_, by simp⟩
        · rw [List.append_assoc]
          exact h₂.congr fun y => by rw [List.map_cons]; exact hide_cons y
        · intro y hy
          simp only [List.map_cons, List.mem_cons] at hy
          simp only [olds, List.filterMap_append, List.mem_append, List.filterMap_cons, Ent.old,
            List.filterMap_nil, List.mem_singleton]
          rcases hy with rfl | hy
          · exact .inr rfl
          · exact .inl (h₄ y hy)
      | halt h' => exact .none this
      | _ => exact this
  | (x, some e) :: ds, m, ids, sh, bd, hq, hx, hn, hb, σ, σ', t, r', hs, h => by
    simp only [quietD, Bool.and_eq_true] at hq
    have hE := pE_quiet (J := Known sh) (m := m) (fun f ids T h => (hI f ids T.1 T.2 h).1)
      (fun x hv => hx.m x hv.1) e true ids (.inr hq.1) (hn.headD.known hb hx.amb.dec)
    simp only [pD, hE.1.2.2] at h
    cases h with
    | halt he => exact .halt (.halt (eval_simH hC hx.amb.wf he hE.2 hs))
    | @some _ _ _ _ t₁ v σ₁' t₂ _ he h =>
      obtain ⟨σ₁, h₁, h₂⟩ := eval_sim hC hx.amb.wf he hE.2 hs
      have hx₁ := hx.push (hn.decls x (by simp [Stmt.decls]))
      have := quietD_sim hC hI ds (bd := x :: bd) hq.2 hx₁ hn.tailD (by
        intro y hy
        simp only [olds, List.filterMap_cons, Ent.old, List.mem_cons] at hy ⊢
        exact hy.imp_right (hb y))
        (σ := ⟨σ₁.g, (x, .auto v) :: σ₁.l⟩) (σ' := ⟨σ₁'.g, (x, .auto v) :: σ₁'.l⟩) ⟨h₂.g, _, _, _, rfl, rfl, h₂.l⟩ h
      cases r' with
      | norm σ₂' =>
        obtain ⟨dsh, σ₂, h₁', h₂', h₃, h₄, _⟩ := this
        refine ⟨dsh ++ [.pair x x], σ₂, .some (.val h₁) h₁', ?_, by simpa using h₃, ?_, by simp⟩
        · rw [List.append_assoc]
          exact h₂'.congr fun y => by rw [List.map_cons]; exact hide_cons y
        · intro y hy
          simp only [List.map_cons, List.mem_cons] at hy
          simp only [olds, List.filterMap_append, List.mem_append, List.filterMap_cons, Ent.old,
            List.filterMap_nil, List.mem_singleton]
          rcases hy with rfl | hy
          · exact .inr rfl
          · exact .inl (h₄ y hy)
      | halt h' => exact .some (.val h₁) this
      | _ => exact this

/-- Result of a simple statement after inserted bodies. -/
def SimpleR (Old Dst : Name → Prop) (D : List Name) (rt : Rt) (K : Frame) (C : Calls) (m : Name → Name)
    (s : Stmt) (ids : Ids) (sh : Shape) (σ : St) (t : List Ev) : Out → Prop
  | .norm σ' => ∃ dsh σ₁, Exec C s σ t (.norm σ₁) ∧
      Ctx Old Dst D rt K (hide m s.declared) ids (dsh ++ sh) ∧ SR K (dsh ++ sh) σ₁ σ' ∧
      (∀ x ∈ s.declared, x ∈ olds dsh) ∧ (s.declared = [] → dsh = [])
  | .halt h => Exec C s σ t (.halt h)
  | _ => False

/-- An expression or a declaration: inserted bodies are executed first. -/
theorem simple_sim (hC : ∀ f vs g t r, C' f vs g t r → C f vs g t r)
    (hI : InlOk Old Dst cnd vd lab C C' (inl st)) (hId : InlId (inl st)) {i : Stmt} {last : Bool}
    (hi : okInit cnd vd i = true) (hx : Ctx Old Dst D rt K m ids sh) (hn : NmS Old D K bd i)
    (hb : ∀ x ∈ bd, x ∈ olds sh) {σ σ' : St} (hs : SR K sh σ σ') :
    ∃ i', (pS fr inl st rt m last i ids).core = [i'] ∧ (pS fr inl st rt m last i ids).rep = false ∧
      (∀ l s, i' ≠ .label l s) ∧
      ∀ {t r'}, ExecL C' (pS fr inl st rt m last i ids).pre σ' t r' →
      (∃ sh₁ σ₁ σ₁', r' = .norm σ₁' ∧ AllJunk sh₁ ∧
        Ctx Old Dst D rt K m (pS fr inl st rt m last i ids).ids (sh₁ ++ sh) ∧
        ((pS fr inl st rt m last i ids).pre = [] → sh₁ = []) ∧ SR K (sh₁ ++ sh) σ₁ σ₁' ∧
        Exec C i σ t (.halt .cut) ∧
        ∀ t₂ r₂', Exec C' i' σ₁' t₂ r₂' → SimpleR Old Dst D rt K C m i (pS fr inl st rt m last i ids).ids
          (sh₁ ++ sh) σ (t ++ t₂) r₂') ∨
      ∃ h, r' = .halt h ∧ Exec C i σ t (.halt h) := by
  have hI' := fun f ids T ids₁ h => let h := hI f ids T ids₁ h; And.intro h.1 h.2.1
  cases i <;> simp only [okInit] at hi <;> try cases hi
  · -- an empty statement
    simp only [pS]
    refine ⟨.skip, rfl, trivial, by simp, fun h => .inl ?_⟩
    cases h
    refine ⟨[], σ, σ', rfl, nil_junk, hx, fun _ => rfl, hs, .cut _ _, fun t₂ r₂' h => ?_⟩
    cases h with
    | cut => exact .cut _ _
    | skip => exact ⟨[], σ, .skip σ, hx.congr fun x => (hide_nil x).symm, hs, by simp [Stmt.declared],
        fun _ => rfl⟩
  · -- an expression
    rename_i e
    have hr := pE_rep (m := m) hI' e true ids (.inr hi)
    have hne : NmE Old D K bd e := ⟨hn.uses e (by simp [exprsS]), hn.fns e (by simp [exprsS]),
      fun y hy => hn.free y (by simpa [freeS] using hy)⟩
    have hid := (pE_id (m := m) hId true e ids).1
    simp only [pS, hr, List.isEmpty_nil, if_true]
    refine ⟨_, rfl, trivial, by simp, fun {t r'} h => ?_⟩
    have hH := hoistE hC hI e true (.inr hi) hx.amb hx.m (hne.known hb hx.amb.dec) hs h
    cases r' with
    | norm σ₁' =>
      obtain ⟨sh₁, σ₁, h₁, h₂, h₃, h₄, h₅, h₆, h₇⟩ := hH.eval hC
      have hx₁ := hx.ext h₁ h₂ hid
      refine .inl ⟨sh₁, σ₁, σ₁', rfl, h₁, hx₁, h₃, h₄, .exprH (.halt h₅), fun t₂ r₂' h => ?_⟩
      cases h with
      | cut => simpa [SimpleR] using Exec.exprH (.halt h₅)
      | expr he =>
        obtain ⟨σ₂, k₁, k₂⟩ := h₆ _ _ _ he
        exact ⟨[], σ₂, .expr k₁, hx₁.congr fun x => (hide_nil x).symm, k₂, by simp [Stmt.declared],
          fun _ => rfl⟩
      | exprH he => exact .exprH (h₇ _ _ he)
    | halt h' => exact .inr ⟨_, rfl, .exprH (.halt hH)⟩
    | _ => exact hH.elim
  · -- a declaration
    rename_i ds
    have hr := pS_core.okD_rep hI ds m ids hi
    simp only [pS, hr, List.isEmpty_nil, if_true]
    refine ⟨_, rfl, trivial, by simp, fun {t r'} h => ?_⟩
    have fin : ∀ {ds m ids sh σ t r'}, DeclR Old Dst D rt K C m ds ids sh σ t r' →
        SimpleR Old Dst D rt K C m (.decl ds) ids sh σ t r' := by
      intro ds m ids sh σ t r' h
      cases r' with
      | norm σ₁' =>
        obtain ⟨dsh, σ₁, h₁, h₂, h₃, h₄, h₅⟩ := h
        refine ⟨dsh, σ₁, .decl h₁, h₂, h₃, h₄, fun h => h₅ ?_⟩
        simpa [Stmt.declared] using h
      | halt h' => exact .decl h
      | _ => exact h
    -- nothing is inserted
    by_cases hq : quietD cnd ds = true
    · have hr := pS_core.quietD_rep hI ds m ids hq
      rw [hr.1] at h ⊢
      rw [hr.2.2]
      cases h
      exact .inl ⟨[], σ, σ', rfl, nil_junk, hx, fun _ => rfl, hs, .cut _ _, fun t₂ r₂' h => by
        cases h with
        | cut => exact .cut _ _
        | decl h => simpa using fin (quietD_sim hC hI ds hq hx hn hb hs h)⟩
    cases ds with
    | nil => exact absurd rfl hq
    | cons d ds =>
      obtain ⟨x, _ | e⟩ := d
      · exact absurd (by simpa [okD, quietD] using hi) hq
      · simp only [okD, Bool.and_eq_true] at hi
        have hid := (pE_id (m := m) hId true e ids).1
        clear hq
        have hq := pS_core.quietD_rep hI ds (hide m [x]) (pE inl st m true e ids).ids hi.2
        simp only [pD, hq.1, hq.2.2, List.append_nil] at h ⊢
        have hH := hoistE hC hI e true (.inr hi.1) hx.amb hx.m (hn.headD.known hb hx.amb.dec) hs h
        have hh : ∀ {t h}, Eval C e σ t (.halt h) → Exec C (.decl ((x, some e) :: ds)) σ t (.halt h) :=
          fun h => .decl (.halt h)
        cases r' with
        | norm σ₁' =>
          obtain ⟨sh₁, σ₁, h₁, h₂, h₃, h₄, h₅, h₆, h₇⟩ := hH.eval hC
          have hx₁ := hx.ext h₁ h₂ hid
          refine .inl ⟨sh₁, σ₁, σ₁', rfl, h₁, hx₁, h₃, h₄, hh (.halt h₅), fun t₂ r₂' h => ?_⟩
          cases h with
          | cut => simpa [SimpleR] using hh (.halt h₅)
          | decl h =>
            cases h with
            | halt he => exact hh (h₇ _ _ he)
            | @some _ _ _ _ u₁ v σ₂' u₂ _ he h =>
              obtain ⟨σ₂, k₁, k₂⟩ := h₆ _ _ _ he
              have hx₂ := hx₁.push (hn.decls x (by simp [Stmt.decls]))
              have := quietD_sim hC hI ds (bd := x :: bd) hi.2 hx₂ hn.tailD (by
                intro y hy
                simp only [olds, List.filterMap_cons, Ent.old, List.mem_cons, List.filterMap_append,
                  List.mem_append] at hy ⊢
                rcases hy with rfl | hy
                · exact .inl rfl
                · exact .inr (.inr (hb y hy)))
                (σ := ⟨σ₂.g, (x, .auto v) :: σ₂.l⟩) (σ' := ⟨σ₂'.g, (x, .auto v) :: σ₂'.l⟩) ⟨k₂.g, _, _, _, rfl, rfl, k₂.l⟩ h
              rw [← List.append_assoc]
              cases r₂' with
              | norm σ₃' =>
                obtain ⟨dsh, σ₃, j₁, j₂, j₃, j₄, _⟩ := this
                refine ⟨dsh ++ [.pair x x], σ₃, .decl (.some k₁ j₁), ?_, by simpa using j₃, ?_,
                  by simp [Stmt.declared]⟩
                · rw [List.append_assoc]
                  exact j₂.congr fun y => by simp only [Stmt.declared, List.map_cons]; exact hide_cons y
                · intro y hy
                  simp only [Stmt.declared, List.map_cons, List.mem_cons] at hy
                  simp only [olds, List.filterMap_append, List.mem_append, List.filterMap_cons, Ent.old,
                    List.filterMap_nil, List.mem_singleton]
                  rcases hy with rfl | hy
                  · exact .inr rfl
                  · exact .inl (j₄ y hy)
              | halt h' => exact .decl (.some k₁ this)
              | _ => exact this
        | halt h' => exact .inr ⟨_, rfl, hh (.halt hH)⟩
        | _ => exact hH.elim

end Tsar.Inline
