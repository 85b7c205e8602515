import Verif.Inline.SimH
/-!
# Expansion of calls inside expressions
-/
namespace Tsar.Inline

/-! ## Identifiers and labels -/

/-- Names of labels which are inserted are new, used identifiers are never forgotten. -/
def InlId (inl : Name → Ids → Option (Tpl × Ids)) : Prop :=
  ∀ f ids T ids₁, inl f ids = some (T, ids₁) → (∀ y ∈ ids, y ∈ ids₁) ∧ T.L ∉ ids

theorem skipTo_text {l : Name} {T : Tpl} {as : List Expr} (h : l ≠ T.L) :
    skipTo l (T.text as) = none := by
  unfold Tpl.text
  cases T.void <;> cases T.lab <;> simp [skipTo, h]

theorem skipTo_app {l : Name} {a b : List Stmt} (h₁ : skipTo l a = none) (h₂ : skipTo l b = none) :
    skipTo l (a ++ b) = none := skipTo_append.2 ⟨h₁, h₂⟩

section
variable {inl : Inl} {st : List Name} {m : Name → Name}

mutual

theorem pE_id (hI : InlId (inl st)) : ∀ (ok : Bool) (e : Expr) (ids : Ids),
    (∀ y ∈ ids, y ∈ (pE inl st m ok e ids).ids) ∧
    (∀ l ∈ ids, skipTo l (pE inl st m ok e ids).pre = none ∧ skipTo l (pE inl st m ok e ids).rep = none)
  | _, .val _, ids => by simp [pE, skipTo]
  | _, .var _, ids => by simp [pE, skipTo]
  | ok, .assign x e, ids => by simpa only [pE] using pE_id hI ok e ids
  | ok, .bin o l r, ids => by
    simp only [pE]
    have hA := pE_id hI ok l ids
    have hB := pE_id hI (ok && o != .bor) r (pE inl st m ok l ids).ids
    exact ⟨fun y hy => hB.1 _ (hA.1 y hy), fun y hy =>
      ⟨skipTo_app (hA.2 y hy).1 (hB.2 y (hA.1 y hy)).1, skipTo_app (hA.2 y hy).2 (hB.2 y (hA.1 y hy)).2⟩⟩
  | ok, .land l r, ids => by
    simp only [pE]
    have hA := pE_id hI ok l ids
    have hB := pE_id hI false r (pE inl st m ok l ids).ids
    exact ⟨fun y hy => hB.1 _ (hA.1 y hy), fun y hy =>
      ⟨skipTo_app (hA.2 y hy).1 (hB.2 y (hA.1 y hy)).1, skipTo_app (hA.2 y hy).2 (hB.2 y (hA.1 y hy)).2⟩⟩
  | ok, .lor l r, ids => by
    simp only [pE]
    have hA := pE_id hI ok l ids
    have hB := pE_id hI false r (pE inl st m ok l ids).ids
    exact ⟨fun y hy => hB.1 _ (hA.1 y hy), fun y hy =>
      ⟨skipTo_app (hA.2 y hy).1 (hB.2 y (hA.1 y hy)).1, skipTo_app (hA.2 y hy).2 (hB.2 y (hA.1 y hy)).2⟩⟩
  | ok, .comma l r, ids => by
    simp only [pE]
    have hA := pE_id hI false l ids
    have hB := pE_id hI ok r (pE inl st m false l ids).ids
    exact ⟨fun y hy => hB.1 _ (hA.1 y hy), fun y hy =>
      ⟨skipTo_app (hA.2 y hy).1 (hB.2 y (hA.1 y hy)).1, skipTo_app (hA.2 y hy).2 (hB.2 y (hA.1 y hy)).2⟩⟩
  | _, .cond c a b, ids => by
    simp only [pE]
    have hE := pE_id hI false c ids
    have hA := pE_id hI false a (pE inl st m false c ids).ids
    have hB := pE_id hI false b (pE inl st m false a (pE inl st m false c ids).ids).ids
    exact ⟨fun y hy => hB.1 _ (hA.1 _ (hE.1 y hy)), fun y hy =>
      ⟨skipTo_app (hE.2 y hy).1 (skipTo_app (hA.2 y (hE.1 y hy)).1 (hB.2 y (hA.1 _ (hE.1 y hy))).1),
       skipTo_app (hE.2 y hy).2 (skipTo_app (hA.2 y (hE.1 y hy)).2 (hB.2 y (hA.1 _ (hE.1 y hy))).2)⟩⟩
  | ok, .elvis l r, ids => by
    simp only [pE]
    have hA := pE_id hI ok l ids
    have hB := pE_id hI ok r (pE inl st m ok l ids).ids
    exact ⟨fun y hy => hB.1 _ (hA.1 y hy), fun y hy =>
      ⟨skipTo_app (hA.2 y hy).1 (hB.2 y (hA.1 y hy)).1, skipTo_app (hA.2 y hy).2 (hB.2 y (hA.1 y hy)).2⟩⟩
  | ok, .size e, ids => by simpa only [pE] using pE_id hI ok e ids
  | ok, .call k f as, ids => by
    have hA := pL_id hI ok as ids
    simp only [pE]
    split
    · exact hA
    · rename_i T ids₁ h
      split
      · have h' : inl st f (pL inl st m ok as ids).ids = some (T, ids₁) := by
          split at h
          · exact h
          · cases h
        obtain ⟨h₁, h₂⟩ := hI _ _ _ _ h'
        have ht : ∀ y ∈ ids, skipTo y (T.text (pL inl st m ok as ids).es) = none :=
          fun y hy => skipTo_text fun he => h₂ (he ▸ hA.1 y hy)
        split
        · exact ⟨fun y hy => h₁ _ (hA.1 y hy), fun y hy =>
            ⟨(hA.2 y hy).1, skipTo_app (hA.2 y hy).2 (ht y hy)⟩⟩
        · exact ⟨fun y hy => h₁ _ (hA.1 y hy), fun y hy =>
            ⟨skipTo_app (hA.2 y hy).1 (ht y hy), (hA.2 y hy).2⟩⟩
      · exact hA

theorem pL_id (hI : InlId (inl st)) : ∀ (ok : Bool) (es : List Expr) (ids : Ids),
    (∀ y ∈ ids, y ∈ (pL inl st m ok es ids).ids) ∧
    (∀ l ∈ ids, skipTo l (pL inl st m ok es ids).pre = none ∧ skipTo l (pL inl st m ok es ids).rep = none)
  | _, [], ids => by simp [pL, skipTo]
  | ok, e :: es, ids => by
    simp only [pL]
    have hA := pE_id hI ok e ids
    have hB := pL_id hI ok es (pE inl st m ok e ids).ids
    exact ⟨fun y hy => hB.1 _ (hA.1 y hy), fun y hy =>
      ⟨skipTo_app (hA.2 y hy).1 (hB.2 y (hA.1 y hy)).1, skipTo_app (hA.2 y hy).2 (hB.2 y (hA.1 y hy)).2⟩⟩

end

end

/-! ## Expressions without calls to expand -/

/-- Names of an expression are known. -/
def Known' (V W : Name → Prop) (e : Expr) : Prop := (∀ x ∈ usesE e, V x) ∧ ∀ f ∈ fnsE e, W f

def KnownL (V W : Name → Prop) (es : List Expr) : Prop := (∀ x ∈ usesL es, V x) ∧ ∀ f ∈ fnsL es, W f

section
variable {inl : Inl} {st : List Name} {m μ : Name → Name} {V W : Name → Prop} {J : Name → Val → Prop}
  {cnd : Name → Bool}

/-- Nothing is inserted. -/
def PE.still (E : PE) (ids : Ids) : Prop := E.pre = [] ∧ E.rep = [] ∧ E.ids = ids

mutual

theorem pE_quiet (hI : ∀ f ids T, inl st f ids = some T → cnd f = true) (hm : ∀ x, V x → m x = μ x) :
    ∀ (e : Expr) (ok : Bool) (ids : Ids), (ok = false ∨ quietE cnd e = true) → Known' V W e →
    (pE inl st m ok e ids).still ids ∧ RE μ V W J (pE inl st m ok e ids).e e
  | .val _, _, ids, _, _ => by simp [pE, PE.still, RE]
  | .var x, _, ids, _, h => by
    have := h.1 x (by simp [usesE])
    simp [pE, PE.still, RE, hm x this, this]
  | .assign x e, ok, ids, hq, h => by
    have hx := h.1 x (by simp [usesE])
    have := pE_quiet hI hm e ok ids (hq.imp_right fun h => by simpa [quietE] using h)
      ⟨fun y hy => h.1 y (by simp [usesE, hy]), fun y hy => h.2 y (by simp [fnsE, hy])⟩
    simp only [pE, RE]
    exact ⟨this.1, hm x hx, hx, this.2⟩
  | .bin o l r, ok, ids, hq, h => by
    have hA := pE_quiet hI hm l ok ids (hq.imp_right fun h => by simp [quietE] at h; exact h.1)
      ⟨fun y hy => h.1 y (by simp [usesE, hy]), fun y hy => h.2 y (by simp [fnsE, hy])⟩
    have hB := pE_quiet hI hm r (ok && o != .bor) ids
      (hq.imp (fun h => by simp [h]) fun h => by simp [quietE] at h; exact h.2)
      ⟨fun y hy => h.1 y (by simp [usesE, hy]), fun y hy => h.2 y (by simp [fnsE, hy])⟩
    obtain ⟨⟨h₁, h₂, h₃⟩, h₄⟩ := hA
    obtain ⟨⟨h₅, h₆, h₇⟩, h₈⟩ := hB
    simp only [pE, RE, PE.still, h₃, h₁, h₂, h₅, h₆, h₇]
    exact ⟨⟨rfl, rfl, trivial⟩, trivial, h₄, h₈⟩
  | .land l r, ok, ids, hq, h => by
    have hA := pE_quiet hI hm l ok ids (hq.imp_right fun h => by simp [quietE] at h; exact h.1)
      ⟨fun y hy => h.1 y (by simp [usesE, hy]), fun y hy => h.2 y (by simp [fnsE, hy])⟩
    have hB := pE_quiet hI hm r false ids (.inl rfl)
      ⟨fun y hy => h.1 y (by simp [usesE, hy]), fun y hy => h.2 y (by simp [fnsE, hy])⟩
    obtain ⟨⟨h₁, h₂, h₃⟩, h₄⟩ := hA
    obtain ⟨⟨h₅, h₆, h₇⟩, h₈⟩ := hB
    simp only [pE, RE, PE.still, h₃, h₁, h₂, h₅, h₆, h₇]
    exact ⟨⟨rfl, rfl, trivial⟩, h₄, h₈⟩
  | .lor l r, ok, ids, hq, h => by
    have hA := pE_quiet hI hm l ok ids (hq.imp_right fun h => by simp [quietE] at h; exact h.1)
      ⟨fun y hy => h.1 y (by simp [usesE, hy]), fun y hy => h.2 y (by simp [fnsE, hy])⟩
    have hB := pE_quiet hI hm r false ids (.inl rfl)
      ⟨fun y hy => h.1 y (by simp [usesE, hy]), fun y hy => h.2 y (by simp [fnsE, hy])⟩
    obtain ⟨⟨h₁, h₂, h₃⟩, h₄⟩ := hA
    obtain ⟨⟨h₅, h₆, h₇⟩, h₈⟩ := hB
    simp only [pE, RE, PE.still, h₃, h₁, h₂, h₅, h₆, h₇]
    exact ⟨⟨rfl, rfl, trivial⟩, h₄, h₈⟩
  | .comma l r, ok, ids, hq, h => by
    have hA := pE_quiet hI hm l false ids (.inl rfl)
      ⟨fun y hy => h.1 y (by simp [usesE, hy]), fun y hy => h.2 y (by simp [fnsE, hy])⟩
    have hB := pE_quiet hI hm r ok ids (hq.imp_right fun h => by simp [quietE] at h; exact h.2)
      ⟨fun y hy => h.1 y (by simp [usesE, hy]), fun y hy => h.2 y (by simp [fnsE, hy])⟩
    obtain ⟨⟨h₁, h₂, h₃⟩, h₄⟩ := hA
    obtain ⟨⟨h₅, h₆, h₇⟩, h₈⟩ := hB
    simp only [pE, RE, PE.still, h₃, h₁, h₂, h₅, h₆, h₇]
    exact ⟨⟨rfl, rfl, trivial⟩, h₄, h₈⟩
  | .cond c a b, ok, ids, hq, h => by
    have hE := pE_quiet hI hm c false ids (.inl rfl)
      ⟨fun y hy => h.1 y (by simp [usesE, hy]), fun y hy => h.2 y (by simp [fnsE, hy])⟩
    have hA := pE_quiet hI hm a false ids (.inl rfl)
      ⟨fun y hy => h.1 y (by simp [usesE, hy]), fun y hy => h.2 y (by simp [fnsE, hy])⟩
    have hB := pE_quiet hI hm b false ids (.inl rfl)
      ⟨fun y hy => h.1 y (by simp [usesE, hy]), fun y hy => h.2 y (by simp [fnsE, hy])⟩
    obtain ⟨⟨h₁, h₂, h₃⟩, h₄⟩ := hA
    obtain ⟨⟨h₅, h₆, h₇⟩, h₈⟩ := hB
    obtain ⟨⟨k₁, k₂, k₃⟩, k₄⟩ := hE
    simp only [pE, RE, PE.still, h₃, h₁, h₂, h₅, h₆, h₇, k₁, k₂, k₃]
    exact ⟨⟨rfl, rfl, trivial⟩, k₄, h₄, h₈⟩
  | .elvis l r, ok, ids, hq, h => by
    have hA := pE_quiet hI hm l ok ids (hq.imp_right fun h => by simp [quietE] at h; exact h.1)
      ⟨fun y hy => h.1 y (by simp [usesE, hy]), fun y hy => h.2 y (by simp [fnsE, hy])⟩
    have hB := pE_quiet hI hm r ok ids (hq.imp_right fun h => by simp [quietE] at h; exact h.2)
      ⟨fun y hy => h.1 y (by simp [usesE, hy]), fun y hy => h.2 y (by simp [fnsE, hy])⟩
    obtain ⟨⟨h₁, h₂, h₃⟩, h₄⟩ := hA
    obtain ⟨⟨h₅, h₆, h₇⟩, h₈⟩ := hB
    simp only [pE, RE, PE.still, h₃, h₁, h₂, h₅, h₆, h₇]
    exact ⟨⟨rfl, rfl, trivial⟩, h₄, h₈⟩
  | .size e, ok, ids, hq, h => by
    have := pE_quiet hI hm e ok ids (hq.imp_right fun h => by simpa [quietE] using h)
      ⟨fun y hy => h.1 y (by simp [usesE, hy]), fun y hy => h.2 y (by simp [fnsE, hy])⟩
    simp only [pE, RE]
    exact this
  | .call k f as, ok, ids, hq, h => by
    have hA := pL_quiet hI hm as ok ids (hq.imp_right fun h => by simp [quietE] at h; exact h.2)
      ⟨fun y hy => h.1 y (by simp [usesE, hy]), fun y hy => h.2 y (by simp [fnsE, hy])⟩
    obtain ⟨h₁, h₂, h₃, h₄⟩ := hA
    have hf := h.2 f (by simp [fnsE])
    have hn : (if (k && ok) = true then inl st f (pL inl st m ok as ids).ids else none) = none := by
      split
      · rename_i hk
        cases hi : inl st f (pL inl st m ok as ids).ids with
        | none => rfl
        | some T =>
          have := hI _ _ _ hi
          rcases hq with rfl | hq
          · simp at hk
          · simp only [Bool.and_eq_true] at hk
            simp [quietE, this, hk.1] at hq
      · rfl
    rw [h₃] at hn
    simp only [pE, h₃, hn, RE, PE.still, h₁, h₂]
    exact ⟨⟨trivial, trivial, trivial⟩, trivial, hf, h₄⟩

theorem pL_quiet (hI : ∀ f ids T, inl st f ids = some T → cnd f = true) (hm : ∀ x, V x → m x = μ x) :
    ∀ (es : List Expr) (ok : Bool) (ids : Ids), (ok = false ∨ quietL cnd es = true) → KnownL V W es →
    (pL inl st m ok es ids).pre = [] ∧ (pL inl st m ok es ids).rep = [] ∧
    (pL inl st m ok es ids).ids = ids ∧ RL μ V W J (pL inl st m ok es ids).es es
  | [], _, ids, _, _ => by simp [pL, RL]
  | e :: es, ok, ids, hq, h => by
    have hA := pE_quiet hI hm e ok ids (hq.imp_right fun h => by simp [quietL] at h; exact h.1)
      ⟨fun y hy => h.1 y (by simp [usesL, hy]), fun y hy => h.2 y (by simp [fnsL, hy])⟩
    have hB := pL_quiet hI hm es ok ids (hq.imp_right fun h => by simp [quietL] at h; exact h.2)
      ⟨fun y hy => h.1 y (by simp [usesL, hy]), fun y hy => h.2 y (by simp [fnsL, hy])⟩
    obtain ⟨⟨h₁, h₂, h₃⟩, h₄⟩ := hA
    obtain ⟨h₅, h₆, h₇, h₈⟩ := hB
    simp only [pL, RL, h₃, h₁, h₂, h₅, h₆, h₇]
    exact ⟨rfl, rfl, trivial, h₄, h₈⟩

end

end

/-! ## A statement is not replaced -/

section
variable {inl : Inl} {st : List Name} {m : Name → Name} {cnd vd : Name → Bool}

mutual

theorem pE_rep (hI : ∀ f ids T ids₁, inl st f ids = some (T, ids₁) → cnd f = true ∧ vd f = T.void) :
    ∀ (e : Expr) (ok : Bool) (ids : Ids), (ok = false ∨ okE cnd vd e = true) →
    (pE inl st m ok e ids).rep = []
  | .val _, _, ids, _ => by simp [pE]
  | .var x, _, ids, _ => by simp [pE]
  | .assign x e, ok, ids, hq => by
    simpa [pE] using pE_rep hI e ok ids (hq.imp_right fun h => by simpa [okE] using h)
  | .bin o l r, ok, ids, hq => by
    have hA := pE_rep hI l ok ids (hq.imp_right fun h => by simp [okE] at h; exact h.1)
    have hB := pE_rep hI r (ok && o != .bor) (pE inl st m ok l ids).ids (by
      rcases hq with rfl | h
      · exact .inl rfl
      · simp only [okE, Bool.and_eq_true, Bool.or_eq_true, beq_iff_eq] at h
        rcases h.2 with rfl | h
        · exact .inl (by simp)
        · exact .inr h)
    simp [pE, hA, hB]
  | .land l r, ok, ids, hq => by
    have hA := pE_rep hI l ok ids (hq.imp_right fun h => by simpa [okE] using h)
    simp [pE, hA, pE_rep hI r false _ (.inl rfl)]
  | .lor l r, ok, ids, hq => by
    have hA := pE_rep hI l ok ids (hq.imp_right fun h => by simpa [okE] using h)
    simp [pE, hA, pE_rep hI r false _ (.inl rfl)]
  | .comma l r, ok, ids, hq => by
    have hA := pE_rep hI l false ids (.inl rfl)
    have hB := (pE_quietR hI r ok (pE inl st m false l ids).ids
      (hq.imp_right fun h => by simpa [okE] using h))
    simp [pE, hA, hB]
  | .cond c a b, ok, ids, hq => by
    simp [pE, pE_rep hI c false _ (.inl rfl), pE_rep hI a false _ (.inl rfl),
      pE_rep hI b false _ (.inl rfl)]
  | .elvis l r, ok, ids, hq => by
    have hA := pE_rep hI l ok ids (hq.imp_right fun h => by simp [okE] at h; exact h.1)
    have hB := (pE_quietR hI r ok (pE inl st m ok l ids).ids
      (hq.imp_right fun h => by simp [okE] at h; exact h.2))
    simp [pE, hA, hB]
  | .size e, ok, ids, hq => by
    simpa [pE] using pE_quietR hI e ok ids (hq.imp_right fun h => by simpa [okE] using h)
  | .call k f as, ok, ids, hq => by
    have hA := pL_rep hI as ok ids (hq.imp_right fun h => by simp [okE] at h; exact h.2)
    simp only [pE]
    split
    · exact hA
    · rename_i T ids₁ h
      split
      · split
        · rename_i hv
          split at h
          · rename_i hk
            simp only [Bool.and_eq_true] at hk
            obtain ⟨h₁, h₂⟩ := hI _ _ _ _ h
            rcases hq with rfl | hq
            · simp at hk
            · simp [okE, hk.1, h₁, h₂, hv] at hq
          · cases h
        · exact hA
      · exact hA

theorem pL_rep (hI : ∀ f ids T ids₁, inl st f ids = some (T, ids₁) → cnd f = true ∧ vd f = T.void) :
    ∀ (es : List Expr) (ok : Bool) (ids : Ids), (ok = false ∨ okL cnd vd es = true) →
    (pL inl st m ok es ids).rep = []
  | [], _, ids, _ => by simp [pL]
  | e :: es, ok, ids, hq => by
    have hA := pE_rep hI e ok ids (hq.imp_right fun h => by simp [okL] at h; exact h.1)
    have hB := pL_rep hI es ok (pE inl st m ok e ids).ids
      (hq.imp_right fun h => by simp [okL] at h; exact h.2)
    simp [pL, hA, hB]

/-- The same for an expression without calls to expand. -/
theorem pE_quietR (hI : ∀ f ids T ids₁, inl st f ids = some (T, ids₁) → cnd f = true ∧ vd f = T.void) :
    ∀ (e : Expr) (ok : Bool) (ids : Ids), (ok = false ∨ quietE cnd e = true) →
    (pE inl st m ok e ids).rep = [] := fun e ok ids h =>
  (pE_quiet (J := fun _ _ => True) (V := fun _ => True) (W := fun _ => True) (μ := m)
    (fun f ids T h => (hI f ids T.1 T.2 h).1) (fun _ _ => rfl) e ok ids h
    ⟨fun _ _ => trivial, fun _ _ => trivial⟩).1.2.1

end

end

/-! ## Execution of what is inserted -/

variable {Old Dst : Name → Prop} {D : List Name} {ids : Ids} {K : Frame} {sh : Shape} {C C' : Calls}
  {cnd vd lab : Name → Bool}

/-- After execution of inserted bodies the rest of an evaluation corresponds to an expression
they are inserted for. -/
def Hoisted (Old Dst : Name → Prop) (D : List Name) (K : Frame) (C : Calls) (sh : Shape) (ids' : Ids)
    (pre : List Stmt) (e : Expr) (σ : St) (t : List Ev) (e' : Expr) : Out → Prop
  | .norm σ₁' => ∃ e₁ σ₁ sh₁, AllJunk sh₁ ∧ Amb Old Dst D ids' K (sh₁ ++ sh) ∧ (pre = [] → sh₁ = []) ∧
      Steps C e σ t (.ok e₁ σ₁) ∧ SR K (sh₁ ++ sh) σ₁ σ₁' ∧ Rel Old K (sh₁ ++ sh) e' e₁
  | .halt h => Steps C e σ t (.halt h)
  | _ => False

/-- The same for arguments of a call. -/
def HoistedL (Old Dst : Name → Prop) (D : List Name) (K : Frame) (C : Calls) (sh : Shape) (ids' : Ids)
    (pre : List Stmt) (es : List Expr) (σ : St) (t : List Ev) (es' : List Expr) : Out → Prop
  | .norm σ₁' => ∃ es₁ σ₁ sh₁, AllJunk sh₁ ∧ Amb Old Dst D ids' K (sh₁ ++ sh) ∧ (pre = [] → sh₁ = []) ∧
      (∀ k f done, Steps C (.call k f (done ++ es)) σ t (.ok (.call k f (done ++ es₁)) σ₁)) ∧
      SR K (sh₁ ++ sh) σ₁ σ₁' ∧
      RL (mOf (sh₁ ++ sh)) (Vars Old K (sh₁ ++ sh)) (Fns Old K (sh₁ ++ sh)) (Known (sh₁ ++ sh)) es' es₁
  | .halt h => ∀ k f done, Steps C (.call k f (done ++ es)) σ t (.halt h)
  | _ => False

theorem Hoisted.stay {pre : List Stmt} (ha : Amb Old Dst D ids K sh) {e e' : Expr} (he : Rel Old K sh e' e)
    {σ σ' : St} {t : List Ev} {r' : Out} (hs : SR K sh σ σ') (h : ExecL C' [] σ' t r') :
    Hoisted Old Dst D K C sh ids pre e σ t e' r' := by
  cases h
  exact ⟨e, σ, [], fun _ h => (by cases h), ha, fun _ => rfl, .refl _ _, hs, he⟩

/-- One operand. -/
theorem Hoisted.one (H : Hole) {pre : List Stmt} {ids' : Ids} {a a' e' : Expr} {σ : St} {t : List Ev}
    {r' : Out} (h : Hoisted Old Dst D K C sh ids' pre a σ t a' r')
    (hr : ∀ sh₁ a₁, AllJunk sh₁ → Rel Old K (sh₁ ++ sh) a' a₁ → Rel Old K (sh₁ ++ sh) e' (H.plug a₁)) :
    Hoisted Old Dst D K C sh ids' pre (H.plug a) σ t e' r' := by
  cases r' with
  | norm σ₁' =>
    obtain ⟨a₁, σ₁, sh₁, h₁, h₂, h₃, h₄, h₅, h₆⟩ := h
    exact ⟨_, σ₁, sh₁, h₁, h₂, h₃, h₄.hole H, h₅, hr sh₁ a₁ h₁ h₆⟩
  | halt h' => exact Steps.hole H h
  | _ => exact h

/-- Two operands. -/
theorem Hoisted.two (HA : Hole) (HB : Expr → Hole) {b : Expr} (hAB : ∀ x, HA.plug x = (HB x).plug b)
    {pa pb : List Stmt} {i₁ i₂ : Ids} {a a' b' e' : Expr}
    (hA : ∀ {σ σ' t r'}, SR K sh σ σ' → ExecL C' pa σ' t r' → Hoisted Old Dst D K C sh i₁ pa a σ t a' r')
    (hB : ∀ {sh₁ σ σ' t r'}, AllJunk sh₁ → Amb Old Dst D i₁ K (sh₁ ++ sh) → SR K (sh₁ ++ sh) σ σ' →
      ExecL C' pb σ' t r' → Hoisted Old Dst D K C (sh₁ ++ sh) i₂ pb b σ t b' r')
    (hr : ∀ sh₂ a₁ b₁, Rel Old K sh₂ a' a₁ → Rel Old K sh₂ b' b₁ → Rel Old K sh₂ e' ((HB a₁).plug b₁))
    {σ σ' : St} {t : List Ev} {r' : Out} (hs : SR K sh σ σ') (h : ExecL C' (pa ++ pb) σ' t r') :
    Hoisted Old Dst D K C sh i₂ (pa ++ pb) (HA.plug a) σ t e' r' := by
  rcases h.append with ⟨t₁, t₂, σ₁', h₁, h₂, rfl⟩ | ⟨h₁, h₂⟩ | ⟨l, t₁, σ₁', h₁, _⟩
  · obtain ⟨a₁, σ₁, sh₁, k₁, k₂, k₃, k₄, k₅, k₆⟩ := hA hs h₁
    have hb := hB k₁ k₂ k₅ h₂
    have hst : Steps C (HA.plug a) σ t₁ (.ok ((HB a₁).plug b) σ₁) := by
      rw [← hAB]; exact k₄.hole HA
    cases r' with
    | norm σ₂' =>
      obtain ⟨b₁, σ₂, sh₂, j₁, j₂, j₃, j₄, j₅, j₆⟩ := hb
      refine ⟨_, σ₂, sh₂ ++ sh₁, j₁.append k₁, by simpa using j₂, fun h => ?_,
        hst.trans (j₄.hole (HB a₁)), by simpa using j₅, ?_⟩
      · rw [List.append_eq_nil_iff] at h
        rw [j₃ h.2, k₃ h.1]; rfl
      · rw [List.append_assoc]
        exact hr _ _ _ (k₆.ext j₁) j₆
    | halt h' => exact hst.trans (Steps.hole (HB a₁) hb)
    | _ => exact hb
  · have := hA hs h₁
    cases r' with
    | norm σ₁' => exact absurd rfl (h₂ _)
    | halt h' => exact Steps.hole HA this
    | _ => exact this
  · exact (hA hs h₁).elim

variable {inl : Inl} {st : List Name} {m : Name → Name}

theorem Vars.ext {sh₁ : Shape} (h : AllJunk sh₁) : Vars Old K (sh₁ ++ sh) = Vars Old K sh := by
  funext x; simp [Vars, h.olds]

theorem Fns.ext {sh₁ : Shape} (h : AllJunk sh₁) : Fns Old K (sh₁ ++ sh) = Fns Old K sh := by
  funext x; simp [Fns, h.olds]

mutual

theorem hoistE (hC : ∀ f vs g t r, C' f vs g t r → C f vs g t r)
    (hI : InlOk Old Dst cnd vd lab C C' (inl st)) : ∀ (e : Expr) (ok : Bool) {ids : Ids} {sh : Shape},
    (ok = false ∨ okE cnd vd e = true) → Amb Old Dst D ids K sh → (∀ x, Old x → m x = mOf sh x) →
    Known' (Vars Old K sh) (Fns Old K sh) e → ∀ {σ σ' : St} {t : List Ev} {r' : Out}, SR K sh σ σ' →
    ExecL C' (pE inl st m ok e ids).pre σ' t r' →
    Hoisted Old Dst D K C sh (pE inl st m ok e ids).ids (pE inl st m ok e ids).pre e σ t
      (pE inl st m ok e ids).e r'
  | .val v, _, ids, sh, _, ha, _, _, σ, σ', t, r', hs, h => by
    simp only [pE] at h ⊢
    exact .stay ha (by simp [RE]) hs h
  | .var x, _, ids, sh, _, ha, hm, hk, σ, σ', t, r', hs, h => by
    simp only [pE] at h ⊢
    have := hk.1 x (by simp [usesE])
    exact .stay ha (by simp [RE, hm x this.1, this]) hs h
  | .assign x e, ok, ids, sh, hq, ha, hm, hk, σ, σ', t, r', hs, h => by
    simp only [pE] at h ⊢
    have hx := hk.1 x (by simp [usesE])
    refine (hoistE hC hI e ok (hq.imp_right fun h => by simpa [okE] using h) ha hm
      ⟨fun y hy => hk.1 y (by simp [usesE, hy]), fun y hy => hk.2 y (by simp [fnsE, hy])⟩ hs h).one
      (.assign x) fun sh₁ a₁ hj hr => ?_
    simp only [Rel, Hole.plug, RE]
    exact ⟨by rw [hj.mOf]; exact hm x hx.1, by rw [Vars.ext hj]; exact hx, hr⟩
  | .bin o l r, ok, ids, sh, hq, ha, hm, hk, σ, σ', t, r', hs, h => by
    simp only [pE] at h ⊢
    have hkl : Known' (Vars Old K sh) (Fns Old K sh) l :=
      ⟨fun y hy => hk.1 y (by simp [usesE, hy]), fun y hy => hk.2 y (by simp [fnsE, hy])⟩
    have hkr : Known' (Vars Old K sh) (Fns Old K sh) r :=
      ⟨fun y hy => hk.1 y (by simp [usesE, hy]), fun y hy => hk.2 y (by simp [fnsE, hy])⟩
    refine Hoisted.two (.binL o r) (fun a => .binR o a) (fun _ => rfl)
      (fun hs h => hoistE hC hI l ok (hq.imp_right fun h => by simp [okE] at h; exact h.1) ha hm hkl hs h)
      (fun {sh₁} _ _ _ _ hj ha₁ hs h => hoistE hC hI r (ok && o != .bor) ?_ ha₁
        (fun x hx => by rw [hj.mOf]; exact hm x hx)
        (by rw [Vars.ext hj, Fns.ext hj]; exact hkr) hs h)
      (fun sh₂ a₁ b₁ h₁ h₂ => by simp only [Rel, Hole.plug, RE]; exact ⟨trivial, h₁, h₂⟩) hs h
    rcases hq with rfl | h
    · exact .inl rfl
    · simp only [okE, Bool.and_eq_true, Bool.or_eq_true, beq_iff_eq] at h
      rcases h.2 with rfl | h
      · exact .inl (by simp)
      · exact .inr h
  | .land l r, ok, ids, sh, hq, ha, hm, hk, σ, σ', t, r', hs, h => by
    have hr := pE_quiet (J := Known sh) (m := m) (fun f ids T h => (hI f ids T.1 T.2 h).1) (fun x hx => hm x hx.1) r false
      (pE inl st m ok l ids).ids (.inl rfl)
      ⟨fun y hy => hk.1 y (by simp [usesE, hy]), fun y hy => hk.2 y (by simp [fnsE, hy])⟩
    simp only [pE, hr.1.1, hr.1.2.2, List.append_nil] at h ⊢
    refine (hoistE hC hI l ok (hq.imp_right fun h => by simpa [okE] using h) ha hm
      ⟨fun y hy => hk.1 y (by simp [usesE, hy]), fun y hy => hk.2 y (by simp [fnsE, hy])⟩ hs h).one
      (.land r) fun sh₁ a₁ hj hr₁ => ?_
    simp only [Rel, Hole.plug, RE]
    exact ⟨hr₁, Rel.ext hj hr.2⟩
  | .lor l r, ok, ids, sh, hq, ha, hm, hk, σ, σ', t, r', hs, h => by
    have hr := pE_quiet (J := Known sh) (m := m) (fun f ids T h => (hI f ids T.1 T.2 h).1) (fun x hx => hm x hx.1) r false
      (pE inl st m ok l ids).ids (.inl rfl)
      ⟨fun y hy => hk.1 y (by simp [usesE, hy]), fun y hy => hk.2 y (by simp [fnsE, hy])⟩
    simp only [pE, hr.1.1, hr.1.2.2, List.append_nil] at h ⊢
    refine (hoistE hC hI l ok (hq.imp_right fun h => by simpa [okE] using h) ha hm
      ⟨fun y hy => hk.1 y (by simp [usesE, hy]), fun y hy => hk.2 y (by simp [fnsE, hy])⟩ hs h).one
      (.lor r) fun sh₁ a₁ hj hr₁ => ?_
    simp only [Rel, Hole.plug, RE]
    exact ⟨hr₁, Rel.ext hj hr.2⟩
  | .comma l r, ok, ids, sh, hq, ha, hm, hk, σ, σ', t, r', hs, h => by
    have hl := pE_quiet (J := Known sh) (m := m) (fun f ids T h => (hI f ids T.1 T.2 h).1) (fun x hx => hm x hx.1) l false
      ids (.inl rfl)
      ⟨fun y hy => hk.1 y (by simp [usesE, hy]), fun y hy => hk.2 y (by simp [fnsE, hy])⟩
    have hr := pE_quiet (J := Known sh) (m := m) (fun f ids T h => (hI f ids T.1 T.2 h).1) (fun x hx => hm x hx.1) r ok
      ids (hq.imp_right fun h => by simpa [okE] using h)
      ⟨fun y hy => hk.1 y (by simp [usesE, hy]), fun y hy => hk.2 y (by simp [fnsE, hy])⟩
    simp only [pE, hl.1.1, hl.1.2.2, hr.1.1, hr.1.2.2, List.append_nil] at h ⊢
    exact .stay ha (by simp only [Rel, RE]; exact ⟨hl.2, hr.2⟩) hs h
  | .cond c a b, ok, ids, sh, hq, ha, hm, hk, σ, σ', t, r', hs, h => by
    have hq := pE_quiet (J := Known sh) (m := m) (fun f ids T h => (hI f ids T.1 T.2 h).1) (fun x hx => hm x hx.1)
      (.cond c a b) false ids (.inl rfl) hk
    have he : pE inl st m ok (.cond c a b) ids = pE inl st m false (.cond c a b) ids := by
      simp only [pE]
    rw [he] at h ⊢
    rw [hq.1.1] at h
    rw [hq.1.2.2]
    exact .stay ha hq.2 hs h
  | .elvis l r, ok, ids, sh, hq, ha, hm, hk, σ, σ', t, r', hs, h => by
    have hr := pE_quiet (J := Known sh) (m := m) (fun f ids T h => (hI f ids T.1 T.2 h).1) (fun x hx => hm x hx.1) r ok
      (pE inl st m ok l ids).ids (hq.imp_right fun h => by simp [okE] at h; exact h.2)
      ⟨fun y hy => hk.1 y (by simp [usesE, hy]), fun y hy => hk.2 y (by simp [fnsE, hy])⟩
    simp only [pE, hr.1.1, hr.1.2.2, List.append_nil] at h ⊢
    refine (hoistE hC hI l ok (hq.imp_right fun h => by simp [okE] at h; exact h.1) ha hm
      ⟨fun y hy => hk.1 y (by simp [usesE, hy]), fun y hy => hk.2 y (by simp [fnsE, hy])⟩ hs h).one
      (.elvis r) fun sh₁ a₁ hj hr₁ => ?_
    simp only [Rel, Hole.plug, RE]
    exact ⟨hr₁, Rel.ext hj hr.2⟩
  | .size e, ok, ids, sh, hq, ha, hm, hk, σ, σ', t, r', hs, h => by
    have he := pE_quiet (J := Known sh) (m := m) (fun f ids T h => (hI f ids T.1 T.2 h).1) (fun x hx => hm x hx.1) e ok
      ids (hq.imp_right fun h => by simpa [okE] using h)
      ⟨fun y hy => hk.1 y (by simp [usesE, hy]), fun y hy => hk.2 y (by simp [fnsE, hy])⟩
    simp only [pE, he.1.1, he.1.2.2] at h ⊢
    exact .stay ha (by simp only [Rel, RE]; exact he.2) hs h
  | .call k f as, ok, ids, sh, hq, ha, hm, hk, σ, σ', t, r', hs, h => by
    have hf := hk.2 f (by simp [fnsE])
    have hA : ∀ {t r'}, ExecL C' (pL inl st m ok as ids).pre σ' t r' → _ := fun h =>
      hoistL hC hI as ok (hq.imp_right fun h => by simp [okE] at h; exact h.2) ha hm
      ⟨fun y hy => hk.1 y (by simp [usesE, hy]), fun y hy => hk.2 y (by simp [fnsE, hy])⟩ hs h
    -- the call is left as it is
    have stay : ∀ {t r'}, ExecL C' (pL inl st m ok as ids).pre σ' t r' →
        Hoisted Old Dst D K C sh (pL inl st m ok as ids).ids (pL inl st m ok as ids).pre (.call k f as) σ t
          (.call k f (pL inl st m ok as ids).es) r' := by
      intro t r' h
      have := hA h
      cases r' with
      | norm σ₁' =>
        obtain ⟨es₁, σ₁, sh₁, h₁, h₂, h₃, h₄, h₅, h₆⟩ := this
        refine ⟨_, σ₁, sh₁, h₁, h₂, h₃, h₄ k f [], h₅, ?_⟩
        simp only [Rel, List.nil_append, RE]
        exact ⟨trivial, by rw [Fns.ext h₁]; exact hf, h₆⟩
      | halt h' => exact this k f []
      | _ => exact this
    generalize hE : pE inl st m ok (.call k f as) ids = E at h ⊢
    simp only [pE] at hE
    split at hE
    · subst hE; exact stay h
    · rename_i T ids₁ hT
      split at hE
      · rename_i hlen
        have hT' : (k && ok) = true ∧ inl st f (pL inl st m ok as ids).ids = some (T, ids₁) := by
          split at hT
          · rename_i hk'; exact ⟨hk', hT⟩
          · cases hT
        obtain ⟨hc, hv, _, hTok⟩ := hI _ _ _ _ hT'.2
        have hkk : k = true ∧ ok = true := by simpa using hT'.1
        have hvoid : T.void = false := by
          rcases hq with rfl | hq
          · simp at hkk
          · simp only [okE, hkk.1, hc, Bool.and_eq_true, Bool.not_eq_true', Bool.true_and] at hq
            rw [← hv]; exact hq.1
        simp only [hvoid, Bool.false_eq_true, if_false] at hE
        subst hE
        simp only at h ⊢
        rcases h.append with ⟨t₁, t₂, σ₁', h₁, h₂, rfl⟩ | ⟨h₁, h₂⟩ | ⟨l, t₁, σ₁', h₁, _⟩
        · obtain ⟨es₁, σ₁, sh₁, k₁, k₂, k₃, k₄, k₅, k₆⟩ := hA h₁
          have hlen' : (pL inl st m ok as ids).es.length = T.ps.length := by
            rw [hlen, pL_length]
          have := text_sim (k := k) hC hTok k₂ hlen' k₆ (by rw [Fns.ext k₁]; exact hf) k₅ h₂
          cases r' with
          | norm σ₂' =>
            obtain ⟨v, σ₂, j₁, j₂⟩ := this
            simp only [hvoid, Bool.false_eq_true, if_false] at j₂
            have hjk : AllJunk (Ent.junk T.R (.auto v) :: sh₁) := by
              intro a h
              rcases List.mem_cons.1 h with rfl | h
              · exact ⟨_, _, rfl⟩
              · exact k₁ a h
            refine ⟨.val v, σ₂, .junk T.R (.auto v) :: sh₁, hjk, ?_, ?_, (k₄ k f []).trans j₁, j₂, ?_⟩
            · refine Amb.ext (sh₁ := [.junk T.R (.auto v)]) k₂ (fun a h => ?_) ?_ hTok.sub ?_
              · simp only [List.mem_singleton] at h; exact ⟨_, _, h⟩
              · exact WF.junk k₂.wf k₂.old k₂.sub k₂.subK _ hTok.R.1
              · intro y hy
                simp only [news, List.map_cons, List.map_nil, List.mem_singleton] at hy
                subst hy; exact hTok.R.2
            · intro h
              simp [Tpl.text] at h
            · simp only [Rel, RE]
              exact List.mem_cons_self
          | halt h' => exact (k₄ k f []).trans this
          | _ => exact this
        · have := hA h₁
          cases r' with
          | norm σ₁' => exact absurd rfl (h₂ _)
          | halt h' => exact this k f []
          | _ => exact this
        · exact (hA h₁).elim
      · subst hE; exact stay h

theorem hoistL (hC : ∀ f vs g t r, C' f vs g t r → C f vs g t r)
    (hI : InlOk Old Dst cnd vd lab C C' (inl st)) : ∀ (es : List Expr) (ok : Bool) {ids : Ids} {sh : Shape},
    (ok = false ∨ okL cnd vd es = true) → Amb Old Dst D ids K sh → (∀ x, Old x → m x = mOf sh x) →
    KnownL (Vars Old K sh) (Fns Old K sh) es → ∀ {σ σ' : St} {t : List Ev} {r' : Out}, SR K sh σ σ' →
    ExecL C' (pL inl st m ok es ids).pre σ' t r' →
    HoistedL Old Dst D K C sh (pL inl st m ok es ids).ids (pL inl st m ok es ids).pre es σ t
      (pL inl st m ok es ids).es r'
  | [], _, ids, sh, _, ha, _, _, σ, σ', t, r', hs, h => by
    simp only [pL] at h ⊢
    cases h
    exact ⟨[], σ, [], fun _ h => (by cases h), ha, fun _ => rfl, fun _ _ _ => .refl _ _, hs,
      by simp [RL]⟩
  | e :: es, ok, ids, sh, hq, ha, hm, hk, σ, σ', t, r', hs, h => by
    simp only [pL] at h ⊢
    have hA : ∀ {t r'}, ExecL C' (pE inl st m ok e ids).pre σ' t r' → _ := fun h =>
      hoistE hC hI e ok (hq.imp_right fun h => by simp [okL] at h; exact h.1) ha hm
      ⟨fun y hy => hk.1 y (by simp [usesL, hy]), fun y hy => hk.2 y (by simp [fnsL, hy])⟩ hs h
    rcases h.append with ⟨t₁, t₂, σ₁', h₁, h₂, rfl⟩ | ⟨h₁, h₂⟩ | ⟨l, t₁, σ₁', h₁, _⟩
    · obtain ⟨e₁, σ₁, sh₁, k₁, k₂, k₃, k₄, k₅, k₆⟩ := hA h₁
      have hb := hoistL hC hI es ok (hq.imp_right fun h => by simp [okL] at h; exact h.2) k₂
        (fun x hx => by rw [k₁.mOf]; exact hm x hx)
        (by rw [Vars.ext k₁, Fns.ext k₁]
            exact ⟨fun y hy => hk.1 y (by simp [usesL, hy]), fun y hy => hk.2 y (by simp [fnsL, hy])⟩)
        k₅ h₂
      have hst : ∀ k f done, Steps C (.call k f (done ++ e :: es)) σ t₁
          (.ok (.call k f (done ++ [e₁] ++ es)) σ₁) := by
        intro k f done
        have := k₄.hole (.arg k f done es)
        simpa [Hole.plug, SRes.plug] using this
      cases r' with
      | norm σ₂' =>
        obtain ⟨es₁, σ₂, sh₂, j₁, j₂, j₃, j₄, j₅, j₆⟩ := hb
        refine ⟨e₁ :: es₁, σ₂, sh₂ ++ sh₁, j₁.append k₁, by simpa using j₂, fun h => ?_, ?_,
          by simpa using j₅, ?_⟩
        · rw [List.append_eq_nil_iff] at h
          rw [j₃ h.2, k₃ h.1]; rfl
        · intro k f done
          have := (hst k f done).trans (j₄ k f (done ++ [e₁]))
          simpa using this
        · rw [List.append_assoc]
          simp only [RL]
          exact ⟨k₆.ext j₁, j₆⟩
      | halt h' => exact fun k f done => (hst k f done).trans (hb k f (done ++ [e₁]))
      | _ => exact hb
    · have := hA h₁
      cases r' with
      | norm σ₁' => exact absurd rfl (h₂ _)
      | halt h' => exact fun k f done => Steps.hole (.arg k f done es) this
      | _ => exact this
    · exact (hA h₁).elim

theorem pL_length : ∀ (es : List Expr) {ok : Bool} {ids : Ids},
    (pL inl st m ok es ids).es.length = es.length
  | [], _, _ => by simp [pL]
  | e :: es, _, _ => by simp [pL, pL_length es]

end

end Tsar.Inline
