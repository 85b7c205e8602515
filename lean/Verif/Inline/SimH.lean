import Verif.Inline.SimE
/-!
# Bodies which are inserted before a statement
-/
namespace Tsar.Inline

/-! ## Lists of statements -/

theorem skipTo_append {l : Name} {a b : List Stmt} :
    skipTo l (a ++ b) = none ↔ skipTo l a = none ∧ skipTo l b = none := by
  induction a with
  | nil => simp [skipTo]
  | cons s a ih =>
    cases s <;> simp only [List.cons_append, skipTo, Option.map_eq_none_iff] <;>
      first
      | exact ih
      | (split
         · simp
         · exact ih)

theorem skipTo_some {l : Name} {a b : List Stmt} {xs : List Name} {ss : List Stmt}
    (h : skipTo l a = some (xs, ss)) :
    skipTo l (a ++ b) = some (xs, ss ++ b) ∧ ss.length ≤ a.length := by
  induction a generalizing xs ss with
  | nil => simp [skipTo] at h
  | cons s a ih =>
    cases s <;> simp only [List.cons_append, skipTo] at h ⊢
    case label m s =>
      split at h
      · rename_i hm
        cases h
        simp [hm]
      · rename_i hm
        have := ih h
        rw [if_neg hm]
        exact ⟨this.1, Nat.le_succ_of_le this.2⟩
    all_goals
      cases hk : skipTo l a with
      | none => rw [hk] at h; cases h
      | some p =>
        rw [hk] at h
        obtain ⟨ys, s₁⟩ := p
        cases h
        have := ih hk
        rw [this.1]
        exact ⟨rfl, Nat.le_succ_of_le this.2⟩

theorem skipTo_left {l : Name} {a b : List Stmt} (h : skipTo l a = none) :
    (skipTo l (a ++ b)).isSome = (skipTo l b).isSome := by
  induction a with
  | nil => rfl
  | cons s a ih =>
    cases s <;> simp only [List.cons_append, skipTo, Option.map_eq_none_iff, Option.isSome_map] at h ⊢
    case label m s =>
      split at h
      · cases h
      · rename_i hm
        rw [if_neg hm]
        exact ih h
    all_goals exact ih h

/-- Execution of two lists one after another. -/
theorem ExecL.append {C : Calls} {a b : List Stmt} {σ : St} {t : List Ev} {r : Out}
    (h : ExecL C (a ++ b) σ t r) :
    (∃ t₁ t₂ σ₁, ExecL C a σ t₁ (.norm σ₁) ∧ ExecL C b σ₁ t₂ r ∧ t = t₁ ++ t₂) ∨
    (ExecL C a σ t r ∧ ∀ σ, r ≠ .norm σ) ∨
    ∃ l t₁ σ₁, ExecL C a σ t₁ (.jump l σ₁) ∧ skipTo l b ≠ none := by
  generalize hn : a.length = n
  induction n using Nat.strongRecOn generalizing a σ t with
  | _ n ih =>
    cases a with
    | nil => exact .inl ⟨[], t, σ, .nil σ, h, rfl⟩
    | cons s a =>
      rw [List.cons_append] at h
      simp only [List.length_cons] at hn
      cases h with
      | @cons _ _ _ t₁ σ₁ t₂ _ h hs =>
        rcases ih a.length (by omega) hs rfl with ⟨u₁, u₂, σ₂, h₁, h₂, rfl⟩ | ⟨h₁, h₂⟩ | ⟨l, u₁, σ₂, h₁, hb⟩
        · exact .inl ⟨t₁ ++ u₁, u₂, σ₂, .cons h h₁, h₂, by simp⟩
        · exact .inr (.inl ⟨.cons h h₁, h₂⟩)
        · exact .inr (.inr ⟨l, t₁ ++ u₁, σ₂, .cons h h₁, hb⟩)
      | stop h hn' hj =>
        refine .inr (.inl ⟨.stop h hn' fun l σ hr => ?_, hn'⟩)
        exact (skipTo_append.1 (hj l σ hr)).1
      | @jump _ _ _ t₁ l σ₁ xs ss₁ t₂ _ h hj hs =>
        cases hk : skipTo l a with
        | none => exact .inr (.inr ⟨l, t₁, σ₁, .stop h (by intros; simp) (by
            intro l' σ' he; cases he; exact hk), fun hb => by
              rw [skipTo_append.2 ⟨hk, hb⟩] at hj; cases hj⟩)
        | some p =>
          obtain ⟨ys, s₁⟩ := p
          have h₁ := skipTo_some (b := b) hk
          rw [h₁.1] at hj
          cases hj
          rcases ih s₁.length (by omega) hs rfl with
            ⟨u₁, u₂, σ₂, h₂, h₃, rfl⟩ | ⟨h₂, h₃⟩ | ⟨l', u₁, σ₂, h₂, hb⟩
          · exact .inl ⟨t₁ ++ u₁, u₂, σ₂, .jump h hk h₂, h₃, by simp⟩
          · exact .inr (.inl ⟨.jump h hk h₂, h₃⟩)
          · exact .inr (.inr ⟨l', t₁ ++ u₁, σ₂, .jump h hk h₂, hb⟩)

theorem ExecL.single {C : Calls} {s : Stmt} {σ : St} {t : List Ev} {r : Out}
    (h : ExecL C [s] σ t r) : Exec C s σ t r := by
  cases h with
  | cons h hs => cases hs; simpa using h
  | stop h _ _ => exact h
  | jump h hj _ => simp [skipTo] at hj

theorem Exec.toL {C : Calls} {s : Stmt} {σ : St} {t : List Ev} {r : Out}
    (h : Exec C s σ t r) : ExecL C [s] σ t r := by
  cases hr : r with
  | norm σ₁ => subst hr; simpa using ExecL.cons h (.nil σ₁)
  | _ => subst hr; exact .stop h (by intros; simp) (by intros; rfl)

theorem Steps.halted {C : Calls} {e σ t e₁ σ₁} (h : Steps C e σ t (.ok e₁ σ₁)) :
    Steps C e σ t (.halt .cut) := by simpa using h.trans (.cut e₁ σ₁)

/-! ## New variables -/

def AllJunk (sh : Shape) : Prop := ∀ a ∈ sh, ∃ y c, a = Ent.junk y c

theorem AllJunk.olds {sh₁ sh : Shape} (h : AllJunk sh₁) : olds (sh₁ ++ sh) = olds sh := by
  induction sh₁ with
  | nil => rfl
  | cons a sh₁ ih =>
    obtain ⟨y, c, rfl⟩ := h _ (.head _)
    have := ih fun a ha => h a (.tail _ ha)
    simpa [Inline.olds, List.filterMap_cons, Ent.old] using this

theorem AllJunk.mOf {sh₁ sh : Shape} (h : AllJunk sh₁) : mOf (sh₁ ++ sh) = mOf sh := by
  induction sh₁ with
  | nil => rfl
  | cons a sh₁ ih =>
    obtain ⟨y, c, rfl⟩ := h _ (.head _)
    rw [← ih fun a ha => h a (.tail _ ha)]
    rfl

theorem AllJunk.append {a b : Shape} (h₁ : AllJunk a) (h₂ : AllJunk b) : AllJunk (a ++ b) :=
  fun x hx => (List.mem_append.1 hx).elim (h₁ x) (h₂ x)

theorem Rel.ext {Old K} {sh₁ sh : Shape} (h : AllJunk sh₁) {a b : Expr} (hr : Rel Old K sh a b) :
    Rel Old K (sh₁ ++ sh) a b := by
  unfold Rel at hr ⊢
  have h₁ : Vars Old K (sh₁ ++ sh) = Vars Old K sh := by funext x; simp [Vars, h.olds]
  have h₂ : Fns Old K (sh₁ ++ sh) = Fns Old K sh := by funext x; simp [Fns, h.olds]
  rw [h.mOf, h₁, h₂]
  exact hr.mono fun y v hy => List.mem_append_right _ hy

theorem RelL.ext {Old K} {sh₁ sh : Shape} (h : AllJunk sh₁) {a b : List Expr}
    (hr : RL (mOf sh) (Vars Old K sh) (Fns Old K sh) (Known sh) a b) :
    RL (mOf (sh₁ ++ sh)) (Vars Old K (sh₁ ++ sh)) (Fns Old K (sh₁ ++ sh)) (Known (sh₁ ++ sh)) a b := by
  have h₁ : Vars Old K (sh₁ ++ sh) = Vars Old K sh := by funext x; simp [Vars, h.olds]
  have h₂ : Fns Old K (sh₁ ++ sh) = Fns Old K sh := by funext x; simp [Fns, h.olds]
  rw [h.mOf, h₁, h₂]
  exact hr.mono fun y v hy => List.mem_append_right _ hy

/-! ## Requirements to a compiled callee -/

/-- The frame of a caller after a call. -/
def Tpl.after (T : Tpl) (K : Frame) (v : Val) : Frame := if T.void then K else setF K T.R v

/-- A compiled callee behaves as a call. -/
structure TplOk (Old Dst : Name → Prop) (C C' : Calls) (ids : Ids) (f : Name) (T : Tpl) (ids₁ : Ids) :
    Prop where
  sub : ∀ y ∈ ids, y ∈ ids₁
  ps : ∀ y ∈ T.ps, y ∉ ids ∧ y ∈ ids₁
  nodup : T.ps.Nodup
  R : T.R ∉ ids ∧ T.R ∈ ids₁
  Rps : T.R ∉ T.ps
  L : T.L ∉ ids
  lab : skipTo T.L T.body = none
  run : (∀ x, Old x → x ∈ ids) → ∀ K g vs t r', vs.length = T.ps.length →
    (∀ y ∈ names K, y ∈ T.R :: ids) → (∀ y ∈ names K, Old y → Dst y) →
    (T.void = false → find K T.R = some (.auto none)) →
    ExecL C' T.body ⟨g, frame T.ps vs ++ K⟩ t r' →
    (∃ v g₁ X, (r' = .norm ⟨g₁, X ++ T.after K v⟩ ∨
        (T.lab = true ∧ r' = .jump T.L ⟨g₁, X ++ T.after K v⟩)) ∧ C f vs g t (.ret v g₁)) ∨
    ∃ h, r' = .halt h ∧ C f vs g t (.halt h)

/-- Functions which are expanded are compiled properly. -/
def InlOk (Old Dst : Name → Prop) (cand vd lab : Name → Bool) (C C' : Calls)
    (inl : Name → Ids → Option (Tpl × Ids)) : Prop :=
  ∀ f ids T ids₁, inl f ids = some (T, ids₁) →
    cand f = true ∧ vd f = T.void ∧ lab f = T.lab ∧ TplOk Old Dst C C' ids f T ids₁

/-- Names in scope. -/
structure Amb (Old Dst : Name → Prop) (D : List Name) (ids : Ids) (K : Frame) (sh : Shape) : Prop where
  wf : WF Old K sh
  old : ∀ x, Old x → x ∈ ids
  sub : ∀ y ∈ news sh, y ∈ ids
  subK : ∀ y ∈ names K, y ∈ ids
  dec : ∀ x ∈ olds sh, x ∈ D
  decD : ∀ x ∈ D, Dst x
  decK : ∀ y ∈ names K, Old y → Dst y

variable {Old Dst : Name → Prop} {D : List Name} {ids : Ids} {K : Frame} {sh : Shape} {C C' : Calls}
  {cnd vd lab : Name → Bool}

theorem Amb.mono {ids₁ : Ids} (h : Amb Old Dst D ids K sh) (hi : ∀ y ∈ ids, y ∈ ids₁) :
    Amb Old Dst D ids₁ K sh :=
  ⟨h.wf, fun x hx => hi _ (h.old x hx), fun y hy => hi _ (h.sub y hy), fun y hy => hi _ (h.subK y hy),
    h.dec, h.decD, h.decK⟩

theorem Amb.ext {sh₁ : Shape} {ids₁ : Ids} (h : Amb Old Dst D ids K sh) (hj : AllJunk sh₁)
    (hw : WF Old K (sh₁ ++ sh)) (hi : ∀ y ∈ ids, y ∈ ids₁) (hn : ∀ y ∈ news sh₁, y ∈ ids₁) :
    Amb Old Dst D ids₁ K (sh₁ ++ sh) := by
  refine ⟨hw, fun x hx => hi _ (h.old x hx), fun y hy => ?_, fun y hy => hi _ (h.subK y hy), ?_,
    h.decD, h.decK⟩
  · simp only [news, List.map_append, List.mem_append] at hy
    exact hy.elim (hn y) fun hy => hi _ (h.sub y hy)
  · rw [hj.olds]; exact h.dec

theorem WF.junk {ids : Ids} (hw : WF Old K sh) (ho : ∀ x, Old x → x ∈ ids)
    (hs : ∀ y ∈ news sh, y ∈ ids) (hK : ∀ y ∈ names K, y ∈ ids) {y : Name} (c : Cell) (hy : y ∉ ids) :
    WF Old K (.junk y c :: sh) :=
  ⟨fun h => hy (ho y h), fun _ => ⟨fun h => hy (hs y h), fun h => hy (hK y h)⟩, hw⟩

theorem WF.recell {y : Name} {c d : Cell} (h : WF Old K (.junk y c :: sh)) :
    WF Old K (.junk y d :: sh) := h

theorem frame_cons (p : Name) (ps : List Name) (v : Val) (vs : List Val) :
    frame (p :: ps) (v :: vs) = frame ps vs ++ [(p, .auto v)] := by
  simp [frame]

/-- New variables for parameters. -/
def junks (ps : List Name) (vs : List Val) : Shape :=
  ((ps.zip vs).map fun p => Ent.junk p.1 (.auto p.2)).reverse

theorem junks_cons (p : Name) (ps : List Name) (v : Val) (vs : List Val) (sh : Shape) :
    junks (p :: ps) (v :: vs) ++ sh = junks ps vs ++ (.junk p (.auto v) :: sh) := by
  simp [junks]

theorem junks_all (ps : List Name) (vs : List Val) : AllJunk (junks ps vs) := by
  intro a ha
  simp only [junks, List.mem_reverse, List.mem_map] at ha
  obtain ⟨p, _, rfl⟩ := ha
  exact ⟨_, _, rfl⟩

theorem FR.junks {ps : List Name} {vs : List Val} {L L' : Frame}
    (h : FR K (Inline.junks ps vs ++ sh) L L') : ∃ T', L' = frame ps vs ++ T' ∧ FR K sh L T' := by
  induction ps generalizing vs sh with
  | nil => exact ⟨L', by simp [frame], by simpa [Inline.junks] using h⟩
  | cons p ps ih =>
    cases vs with
    | nil => exact ⟨L', by simp [frame], by simpa [Inline.junks] using h⟩
    | cons v vs =>
      rw [junks_cons] at h
      obtain ⟨T', rfl, T'', rfl, h'⟩ := ih h
      exact ⟨T'', by rw [frame_cons]; simp, h'⟩

/-- Evaluation of arguments. -/
theorem args_sim (hC : ∀ f vs g t r, C' f vs g t r → C f vs g t r) {k : Bool} {f : Name}
    {body : List Stmt} {ps : List Name} {ids : Ids} (hnd : ps.Nodup) :
    ∀ {es' es done : List Expr} {sh : Shape} {σ σ' : St} {t : List Ev} {r' : Out},
    (∀ p ∈ ps, p ∉ ids ∧ p ∉ news sh) → WF Old K sh → (∀ x, Old x → x ∈ ids) →
    (∀ y ∈ names K, y ∈ ids) → es'.length = ps.length →
    RL (mOf sh) (Vars Old K sh) (Fns Old K sh) (Known sh) es' es → SR K sh σ σ' →
    ExecL C' ((ps.zip es').map (fun p => .decl [(p.1, some p.2)]) ++ body) σ' t r' →
    (∃ vs σ₁ σ₁' t₁ t₂, vs.length = ps.length ∧
      Steps C (.call k f (done ++ es)) σ t₁ (.ok (.call k f (done ++ vs.map .val)) σ₁) ∧
      SR K (junks ps vs ++ sh) σ₁ σ₁' ∧ ExecL C' body σ₁' t₂ r' ∧ t = t₁ ++ t₂) ∨
    ∃ h, r' = .halt h ∧ Steps C (.call k f (done ++ es)) σ t (.halt h) := by
  induction ps with
  | nil =>
    intro es' es done sh σ σ' t r' _ _ _ _ hl hr hs h
    have : es' = [] := by simpa using hl
    subst this
    have : es = [] := by have := hr.length; simpa using this.symm
    subst this
    exact .inl ⟨[], σ, σ', [], t, rfl, by simpa using Steps.refl _ _, by simpa [junks] using hs,
      by simpa using h, rfl⟩
  | cons p ps ih =>
    intro es' es done sh σ σ' t r' hp hw ho hK hl hr hs h
    cases es' with
    | nil => simp at hl
    | cons e' es' =>
      cases es with
      | nil => simp [RL] at hr
      | cons e es =>
        simp only [RL] at hr
        simp only [List.zip_cons_cons, List.map_cons, List.cons_append] at h
        have hole : ∀ {t q}, Steps C e σ t q → Steps C (.call k f (done ++ e :: es)) σ t
            (q.plug (.arg k f done es)) := fun h => h.hole (.arg k f done es)
        -- evaluation of the first argument
        have key : ∀ {t r}, Exec C' (.decl [(p, some e')]) σ' t r →
            (∃ v σ₁ σ₁', r = .norm ⟨σ₁'.g, (p, .auto v) :: σ₁'.l⟩ ∧
              Steps C e σ t (.ok (.val v) σ₁) ∧ SR K sh σ₁ σ₁') ∨
            ∃ h, r = .halt h ∧ Steps C e σ t (.halt h) := by
          intro t r h
          cases h with
          | cut => exact .inr ⟨_, rfl, .cut _ _⟩
          | decl h =>
            cases h with
            | @some _ _ _ _ _ v σ₁' _ _ he hd =>
              cases hd
              obtain ⟨σ₁, h₁, h₂⟩ := eval_sim hC hw he hr.1 hs
              exact .inl ⟨v, σ₁, σ₁', rfl, by simpa using h₁, h₂⟩
            | halt he => exact .inr ⟨_, rfl, eval_simH hC hw he hr.1 hs⟩
        cases h with
        | @cons _ _ _ t₁ σ₂' t₂ _ h hrest =>
          rcases key h with ⟨v, σ₁, σ₁', he, h₁, h₂⟩ | ⟨k, he, _⟩
          · cases he
            have hpi := hp p (.head _)
            have hw₁ : WF Old K (.junk p (.auto v) :: sh) :=
              ⟨fun h => hpi.1 (ho p h), fun _ => ⟨hpi.2, fun h => hpi.1 (hK p h)⟩, hw⟩
            have hj : AllJunk [Ent.junk p (.auto v)] := fun a ha => by
              simp only [List.mem_singleton] at ha; exact ⟨_, _, ha⟩
            have hnd' := List.nodup_cons.1 hnd
            have hs₁ : SR K (.junk p (.auto v) :: sh) σ₁ ⟨σ₁'.g, (p, .auto v) :: σ₁'.l⟩ :=
              ⟨h₂.g, _, rfl, h₂.l⟩
            rcases ih hnd'.2 (done := done ++ [.val v]) (fun q hq => ⟨(hp q (.tail _ hq)).1, by
              simp only [news, List.map_cons, List.mem_cons, not_or]
              exact ⟨fun h => hnd'.1 (by simp only [Ent.new] at h; exact h ▸ hq), (hp q (.tail _ hq)).2⟩⟩)
              hw₁ ho hK (by simpa using hl) (RelL.ext hj hr.2) hs₁ hrest with
              ⟨vs, σ₃, σ₃', u₁, u₂, hl₁, h₃, h₄, h₅, rfl⟩ | ⟨h, rfl, h₃⟩
            · refine .inl ⟨v :: vs, σ₃, σ₃', t₁ ++ u₁, u₂, by simp [hl₁], ?_, ?_, h₅, by simp⟩
              · have := (hole h₁).trans (r := _) (by simpa [Hole.plug, SRes.plug] using h₃)
                simpa [Hole.plug, SRes.plug] using this
              · rw [junks_cons]; exact h₄
            · refine .inr ⟨h, rfl, ?_⟩
              have := (hole h₁).trans (r := _) (by simpa [Hole.plug, SRes.plug] using h₃)
              simpa [Hole.plug, SRes.plug] using this
          · cases he
        | stop h hn hj =>
          rcases key h with ⟨v, σ₁, σ₁', rfl, _⟩ | ⟨k, rfl, h₁⟩
          · exact absurd rfl (hn _)
          · exact .inr ⟨k, rfl, hole h₁⟩
        | jump h hj hrest =>
          rcases key h with ⟨v, σ₁, σ₁', he, _⟩ | ⟨k, he, _⟩ <;> cases he

/-- The outcome of a text which is inserted instead of a call. -/
def Texted (Old : Name → Prop) (K : Frame) (sh : Shape) (C : Calls) (T : Tpl) (e : Expr) (σ : St)
    (t : List Ev) : Out → Prop
  | .norm σ₁' => ∃ v σ₁, Steps C e σ t (.ok (.val v) σ₁) ∧
      SR K (if T.void then sh else .junk T.R (.auto v) :: sh) σ₁ σ₁'
  | .halt h => Steps C e σ t (.halt h)
  | _ => False

theorem skipTo_decls {l : Name} (qs : List (Name × Expr)) (body : List Stmt) :
    (skipTo l body = none) →
    skipTo l (qs.map (fun p => .decl [(p.1, some p.2)]) ++ body) = none := by
  intro h
  induction qs with
  | nil => simpa using h
  | cons q qs ih => simp only [List.map_cons, List.cons_append, skipTo]; rw [ih]; rfl

theorem after_length (T : Tpl) (K : Frame) (v : Val) : (T.after K v).length = K.length := by
  unfold Tpl.after; split
  · rfl
  · exact length_setF _ _ _

/-- A body with assignments to parameters. -/
theorem block_sim (hC : ∀ f vs g t r, C' f vs g t r → C f vs g t r) {k : Bool} {f : Name} {T : Tpl}
    {ids₁ : Ids} (hT : TplOk Old Dst C C' ids f T ids₁) (ha : Amb Old Dst D ids K sh)
    {es' es : List Expr} (hl : es'.length = T.ps.length)
    (hr : RL (mOf sh) (Vars Old K sh) (Fns Old K sh) (Known sh) es' es) (hf : Fns Old K sh f)
    {σ σ' : St} (hs : SR K sh σ σ') {t : List Ev} {r' : Out}
    (h : Exec C' (.block ((T.ps.zip es').map (fun p => .decl [(p.1, some p.2)]) ++ T.body))
      ⟨σ'.g, if T.void then σ'.l else (T.R, .auto none) :: σ'.l⟩ t r') :
    (∃ v σ₁ σ₁', (r' = .norm σ₁' ∨ (T.lab = true ∧ r' = .jump T.L σ₁')) ∧
      Steps C (.call k f es) σ t (.ok (.val v) σ₁) ∧
      SR K (if T.void then sh else .junk T.R (.auto v) :: sh) σ₁ σ₁') ∨
    ∃ h, r' = .halt h ∧ Steps C (.call k f es) σ t (.halt h) := by
  cases h with
  | cut => exact .inr ⟨_, rfl, .cut _ _⟩
  | @block _ _ _ r h =>
    -- a frame at the beginning of the block
    let sh₀ : Shape := if T.void then sh else .junk T.R (.auto none) :: sh
    have hj₀ : AllJunk (if T.void then [] else [Ent.junk T.R (.auto none)]) := by
      intro a h; split at h
      · cases h
      · simp only [List.mem_singleton] at h; exact ⟨_, _, h⟩
    have hsh₀ : sh₀ = (if T.void then [] else [Ent.junk T.R (.auto none)]) ++ sh := by
      simp only [sh₀]; split <;> rfl
    have hw₀ : WF Old K sh₀ := by
      simp only [sh₀]; split
      · exact ha.wf
      · exact WF.junk ha.wf ha.old ha.sub ha.subK _ hT.R.1
    have hs₀ : SR K sh₀ σ ⟨σ'.g, if T.void then σ'.l else (T.R, .auto none) :: σ'.l⟩ := by
      refine ⟨hs.g, ?_⟩
      simp only [sh₀]; split
      · exact hs.l
      · exact ⟨_, rfl, hs.l⟩
    have hr₀ := RelL.ext hj₀ hr
    rw [← hsh₀] at hr₀
    have hp₀ : ∀ p ∈ T.ps, p ∉ ids ∧ p ∉ news sh₀ := by
      intro p hp
      refine ⟨(hT.ps p hp).1, ?_⟩
      simp only [sh₀]; split
      · exact fun h => (hT.ps p hp).1 (ha.sub p h)
      · simp only [news, List.map_cons, List.mem_cons, not_or]
        exact ⟨fun h => hT.Rps (by simp only [Ent.new] at h; exact h ▸ hp), fun h => (hT.ps p hp).1 (ha.sub p h)⟩
    have key : ∀ {t r}, ExecL C' ((T.ps.zip es').map (fun p => .decl [(p.1, some p.2)]) ++ T.body)
        ⟨σ'.g, if T.void then σ'.l else (T.R, .auto none) :: σ'.l⟩ t r →
        (∃ v g₁ X K₁, ∃ σ₁ : St, (r = .norm ⟨g₁, X ++ T.after K₁ v⟩ ∨
            (T.lab = true ∧ r = .jump T.L ⟨g₁, X ++ T.after K₁ v⟩)) ∧
          Steps C (.call k f es) σ t (.ok (.val v) ⟨g₁, σ₁.l⟩) ∧ FR K sh₀ σ₁.l K₁) ∨
        ∃ h, r = .halt h ∧ Steps C (.call k f es) σ t (.halt h) := by
      intro t r h
      rcases args_sim (k := k) (f := f) (done := []) hC hT.nodup hp₀ hw₀ ha.old ha.subK hl hr₀ hs₀ h
        with ⟨vs, σ₁, σ₁', t₁, t₂, hvl, h₁, h₂, h₃, rfl⟩ | ⟨h, rfl, h₁⟩
      · obtain ⟨K₁, hK₁, h₄⟩ := h₂.l.junks
        have hst : σ₁' = ⟨σ₁.g, frame T.ps vs ++ K₁⟩ := by
          cases σ₁'; simp only [St.mk.injEq]; exact ⟨h₂.g.symm, hK₁⟩
        subst hst
        have hn := h₄.names_right
        have hsub : ∀ y ∈ names K₁, y ∈ T.R :: ids := by
          intro y hy
          rw [hn, List.mem_append] at hy
          rcases hy with hy | hy
          · rw [hsh₀] at hy
            simp only [news, List.map_append, List.mem_append] at hy
            rcases hy with hy | hy
            · split at hy
              · cases hy
              · simp only [List.map_cons, List.map_nil, List.mem_singleton] at hy
                subst hy; exact .head _
            · exact .tail _ (ha.sub y hy)
          · exact .tail _ (ha.subK y hy)
        have hdec : ∀ y ∈ names K₁, Old y → Dst y := by
          intro y hy ho
          rw [hn, List.mem_append] at hy
          rcases hy with hy | hy
          · obtain ⟨a, ha', rfl⟩ := List.mem_map.1 hy
            have hmem : ∀ {sh : Shape} {a : Ent}, WF Old K sh → a ∈ sh → Old a.new → a.new ∈ olds sh := by
              intro sh a hw hm ho
              induction sh with
              | nil => cases hm
              | cons b sh ih =>
                rcases List.mem_cons.1 hm with rfl | hm'
                · have h₃ := hw.1
                  cases a with
                  | junk y c => exact (h₃ ho).elim
                  | pair x y =>
                    have := h₃.2 ho
                    simp only [Ent.new]
                    subst this
                    simp [olds, Ent.old]
                · have := ih hw.tail hm'
                  simp only [olds, List.filterMap_cons] at this ⊢
                  split
                  · exact this
                  · exact .tail _ this
            have := hmem hw₀ ha' ho
            rw [hsh₀, hj₀.olds] at this
            exact ha.decD _ (ha.dec _ this)
          · exact ha.decK y hy ho
        have hfind : T.void = false → find K₁ T.R = some (.auto none) := by
          intro hv
          have : Ent.junk T.R (.auto none) ∈ sh₀ := by simp [sh₀, hv]
          exact (h₄.find_junk hw₀ this).1
        have hfn : find σ₁.l f = none := by
          refine find_none.2 ?_
          rw [h₄.names_left, hsh₀, hj₀.olds]
          exact hf.2.1
        have hcall : ∀ {cr}, C f vs σ₁.g t₂ cr →
            Steps C (.call k f (vs.map .val)) σ₁ t₂ (cr.step σ₁.l) := by
          intro cr hc
          refine .one (.head ⟨vs, rfl, ?_⟩)
          simp only [hfn]
          exact ⟨cr, hc, rfl⟩
        simp only [List.nil_append] at h₁
        rcases hT.run ha.old K₁ σ₁.g vs t₂ r hvl hsub hdec hfind h₃ with
          ⟨v, g₁, X, h₅, h₆⟩ | ⟨h, rfl, h₆⟩
        · exact .inl ⟨v, g₁, X, K₁, σ₁, h₅, h₁.trans (hcall h₆), h₄⟩
        · exact .inr ⟨_, rfl, h₁.trans (hcall h₆)⟩
      · exact .inr ⟨_, rfl, h₁⟩
    have fin : ∀ {v g₁ X K₁ σ₁}, FR K sh₀ σ₁ K₁ →
        SR K (if T.void then sh else .junk T.R (.auto v) :: sh) ⟨g₁, σ₁⟩
          ⟨g₁, bot (if T.void then σ'.l else (T.R, .auto none) :: σ'.l).length (X ++ T.after K₁ v)⟩ := by
      intro v g₁ X K₁ σ₁ h
      rw [bot_append_of ((after_length T K₁ v).trans (h.length.2.trans hs₀.l.length.2.symm))]
      refine ⟨rfl, ?_⟩
      simp only [sh₀] at h
      unfold Tpl.after
      split
      · rename_i hv; rw [if_pos hv] at h; exact h
      · rename_i hv
        rw [if_neg hv] at h
        obtain ⟨T', rfl, h⟩ := h
        simp only [setF, if_true]
        exact ⟨T', rfl, h⟩
    cases h with
    | fin h hj =>
      rcases key h with ⟨v, g₁, X, K₁, σ₁, h₁, h₂, h₃⟩ | ⟨h, rfl, h₁⟩
      · refine .inl ⟨v, ⟨g₁, σ₁.l⟩, _, ?_, h₂, fin (X := X) h₃⟩
        rcases h₁ with rfl | ⟨h₁, rfl⟩
        · exact .inl rfl
        · exact .inr ⟨h₁, rfl⟩
      · exact .inr ⟨_, rfl, h₁⟩
    | @back _ _ _ _ t₁ l σ₂ xs ss₁ t₂ _ h hj hb =>
      rcases key h with ⟨v, g₁, X, K₁, σ₁, h₁, _⟩ | ⟨h, he, _⟩
      · rcases h₁ with he | ⟨_, he⟩
        · cases he
        · cases he
          rw [skipTo_decls _ _ hT.lab] at hj
          cases hj
      · cases he

/-- Text which is inserted instead of a call behaves as the call. -/
theorem text_sim (hC : ∀ f vs g t r, C' f vs g t r → C f vs g t r) {k : Bool} {f : Name} {T : Tpl}
    {ids₁ : Ids} (hT : TplOk Old Dst C C' ids f T ids₁) (ha : Amb Old Dst D ids K sh)
    {es' es : List Expr} (hl : es'.length = T.ps.length)
    (hr : RL (mOf sh) (Vars Old K sh) (Fns Old K sh) (Known sh) es' es) (hf : Fns Old K sh f)
    {σ σ' : St} (hs : SR K sh σ σ') {t : List Ev} {r' : Out} (h : ExecL C' (T.text es') σ' t r') :
    Texted Old K sh C T (.call k f es) σ t r' := by
  -- the block and the label
  have tail : ∀ {t r'}, ExecL C' (.block ((T.ps.zip es').map (fun p => .decl [(p.1, some p.2)]) ++ T.body) ::
      (if T.lab then [.label T.L .skip] else []))
      ⟨σ'.g, if T.void then σ'.l else (T.R, .auto none) :: σ'.l⟩ t r' →
      Texted Old K sh C T (.call k f es) σ t r' := by
    intro t r' h
    have lbl : ∀ {t v σ₁ σ₁' u r'}, Steps C (.call k f es) σ t (.ok (.val v) σ₁) →
        SR K (if T.void then sh else .junk T.R (.auto v) :: sh) σ₁ σ₁' →
        ExecL C' [.label T.L .skip] σ₁' u r' → Texted Old K sh C T (.call k f es) σ (t ++ u) r' := by
      intro t v σ₁ σ₁' u r' h₁ h₂ h₃
      cases h₃.single with
      | cut => simpa [Texted] using h₁.halted
      | label h =>
        cases h with
        | cut => simpa [Texted] using h₁.halted
        | skip => exact ⟨v, σ₁, by simpa using h₁, h₂⟩
    cases h with
    | @cons _ _ _ t₁ σ₂ t₂ _ h hrest =>
      rcases block_sim hC hT ha hl hr hf hs h with ⟨v, σ₁, σ₁', h₁, h₂, h₃⟩ | ⟨h, he, _⟩
      · rcases h₁ with he | ⟨_, he⟩
        · cases he
          split at hrest
          · exact lbl h₂ h₃ hrest
          · cases hrest
            simp only [Texted]
            exact ⟨v, σ₁, by simpa using h₂, h₃⟩
        · cases he
      · cases he
    | stop h hn hj =>
      rcases block_sim hC hT ha hl hr hf hs h with ⟨v, σ₁, σ₁', h₁, h₂, h₃⟩ | ⟨h, rfl, h₁⟩
      · rcases h₁ with rfl | ⟨hlab, rfl⟩
        · exact absurd rfl (hn _)
        · have := hj _ _ rfl
          simp [hlab, skipTo] at this
      · exact h₁
    | @jump _ _ _ t₁ l σ₂ xs ss₁ t₂ _ h hj hrest =>
      rcases block_sim hC hT ha hl hr hf hs h with ⟨v, σ₁, σ₁', h₁, h₂, h₃⟩ | ⟨h, he, _⟩
      · rcases h₁ with he | ⟨hlab, he⟩
        · cases he
        · cases he
          simp only [hlab, if_true, skipTo] at hj
          cases hj
          have hu : pushUndef σ₂ [] = σ₂ := by cases σ₂; simp [pushUndef]
          rw [hu] at hrest
          exact lbl h₂ h₃ hrest
      · cases he
  unfold Tpl.text at h
  cases hv : T.void with
  | true =>
    simp only [hv, if_true, List.nil_append] at h
    refine tail ?_
    simp only [hv, if_true]
    exact h
  | false =>
    simp only [hv, Bool.false_eq_true, if_false, List.cons_append, List.nil_append] at h
    cases h with
    | cons h hrest =>
      cases h with
      | decl h =>
        cases h with
        | none h =>
          cases h
          simp only [List.nil_append]
          refine tail ?_
          simp only [hv, Bool.false_eq_true, if_false]
          exact hrest
    | stop h hn hj =>
      cases h with
      | cut => exact .cut _ _
      | decl h => cases h with | none h => cases h; exact absurd rfl (hn _)
    | jump h hj hrest => cases h with | decl h => cases h with | none h => cases h

end Tsar.Inline
