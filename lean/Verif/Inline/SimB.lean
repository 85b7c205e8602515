import Verif.Inline.Hoist
/-!
# Auxiliary facts about expansion of calls in statements
-/
namespace Tsar.Inline

/-! ## `break` outside of a loop -/

theorem noBrks_mem {ss : List Stmt} (h : noBrks ss = true) : ∀ s ∈ ss, s.noBrk = true := by
  induction ss with
  | nil => intro s hs; cases hs
  | cons a ss ih =>
    simp only [noBrks, Bool.and_eq_true] at h
    intro s hs
    rcases List.mem_cons.1 hs with rfl | hs
    · exact h.1
    · exact ih h.2 s hs

theorem skipTo_mem {l : Name} {ss : List Stmt} {xs : List Name} {s₁ : List Stmt}
    (h : skipTo l ss = some (xs, s₁)) : ∀ s ∈ s₁, s ∈ ss := by
  induction ss generalizing xs s₁ with
  | nil => simp [skipTo] at h
  | cons a ss ih =>
    intro s hs
    cases a <;> simp only [skipTo] at h
    case label m a =>
      split at h
      · cases h; exact hs
      · exact .tail _ (ih h s hs)
    all_goals
      cases hk : skipTo l ss with
      | none => rw [hk] at h; cases h
      | some p =>
        rw [hk] at h
        obtain ⟨ys, s₂⟩ := p
        cases h
        exact .tail _ (ih hk s hs)

theorem Out.bot_brk {r : Out} {n : Nat} (h : ∀ σ, r ≠ .brk σ) : ∀ σ, r.bot n ≠ .brk σ := by
  intro σ; cases r <;> simp [Out.bot]
  exact absurd rfl (h _)

theorem ExecD.noBrk {C : Calls} {ds : List Init} {σ : St} {t : List Ev} {r : Out}
    (h : ExecD C ds σ t r) : (∃ σ₁, r = .norm σ₁) ∨ ∃ h, r = .halt h := by
  induction h with
  | nil σ => exact .inl ⟨_, rfl⟩
  | none _ ih => exact ih
  | some _ _ ih => exact ih
  | halt _ => exact .inr ⟨_, rfl⟩

mutual

theorem Exec.noBrk {C : Calls} : ∀ {s σ t r}, Exec C s σ t r → s.noBrk = true → ∀ σ', r ≠ .brk σ'
  | _, _, _, _, .cut _ _, _, _ => by simp
  | _, _, _, _, .skip _, _, _ => by simp
  | _, _, _, _, .bad _, _, _ => by simp
  | _, _, _, _, .expr _, _, _ => by simp
  | _, _, _, _, .exprH _, _, _ => by simp
  | _, _, _, _, .decl h, _, _ => by rcases h.noBrk with ⟨_, rfl⟩ | ⟨_, rfl⟩ <;> simp
  | _, _, _, _, .static _ _ _, _, _ => by simp
  | _, _, _, _, .ift h, hn, σ' => Exec.noBrk h (by simpa [Stmt.noBrk] using hn) σ'
  | _, _, _, _, .ifteT _ _ h, hn, σ' => Exec.noBrk h (by simp [Stmt.noBrk] at hn; exact hn.1) σ'
  | _, _, _, _, .ifteF _ _ h, hn, σ' => Exec.noBrk h (by simp [Stmt.noBrk] at hn; exact hn.2) σ'
  | _, _, _, _, .ifteU _ _, _, _ => by simp
  | _, _, _, _, .ifteH _, _, _ => by simp
  | _, _, _, _, .loopF _ _, _, _ => by simp
  | _, _, _, _, .loopU _ _, _, _ => by simp
  | _, _, _, _, .loopH _, _, _ => by simp
  | _, _, _, _, .loopN _ _ _ h, _, σ' => Exec.noBrk h (by simp [Stmt.noBrk]) σ'
  | _, _, _, _, .loopB _ _ _, _, _ => by simp
  | _, _, _, _, .loopA _ _ _ _ hk, _, σ' => hk σ'
  | _, _, _, _, .doN _ h, _, σ' => Exec.noBrk h (by simp [Stmt.noBrk]) σ'
  | _, _, _, _, .doB _, _, _ => by simp
  | _, _, _, _, .doA _ _ hk, _, σ' => hk σ'
  | _, _, _, _, .for h, hn, σ' => Exec.noBrk h (by simpa [Stmt.noBrk, noBrks] using hn) σ'
  | _, _, _, _, .block h, hn, σ' =>
    Out.bot_brk (ExecB.noBrk h (noBrks_mem (by simpa [Stmt.noBrk] using hn))
      (noBrks_mem (by simpa [Stmt.noBrk] using hn))) σ'
  | _, _, _, _, .retN _, _, _ => by simp
  | _, _, _, _, .ret _, _, _ => by simp
  | _, _, _, _, .retH _, _, _ => by simp
  | _, _, _, _, .brk _, hn, _ => by simp [Stmt.noBrk] at hn
  | _, _, _, _, .goto _ _, _, _ => by simp
  | _, _, _, _, .label h, hn, σ' => Exec.noBrk h (by simpa [Stmt.noBrk] using hn) σ'

theorem ExecL.noBrk {C : Calls} : ∀ {ss σ t r}, ExecL C ss σ t r → (∀ s ∈ ss, s.noBrk = true) →
    ∀ σ', r ≠ .brk σ'
  | _, _, _, _, .nil _, _, _ => by simp
  | _, _, _, _, .cons _ hs, hn, σ' => ExecL.noBrk hs (fun s h => hn s (.tail _ h)) σ'
  | _, _, _, _, .stop h _ _, hn, σ' => Exec.noBrk h (hn _ (.head _)) σ'
  | _, _, _, _, .jump _ hj hs, hn, σ' =>
    ExecL.noBrk hs (fun s h => hn s (.tail _ (skipTo_mem hj s h))) σ'

theorem ExecB.noBrk {C : Calls} : ∀ {ss n sf σ t r}, ExecB C ss n sf σ t r →
    (∀ s ∈ ss, s.noBrk = true) → (∀ s ∈ sf, s.noBrk = true) → ∀ σ', r ≠ .brk σ'
  | _, _, _, _, _, _, .fin h _, _, hf, σ' => ExecL.noBrk h hf σ'
  | _, _, _, _, _, _, .back _ hj hb, hs, _, σ' =>
    ExecB.noBrk hb hs (fun s h => hs s (skipTo_mem hj s h)) σ'

end

/-! ## Evaluation of an assignment -/

/-- Outcome of an assignment in terms of the right operand. -/
def Assigned (C : Calls) (x : Name) (e : Expr) (σ : St) (t : List Ev) : SRes → Prop
  | .halt h => Steps C e σ t (.halt h)
  | .ok (.val v) σ₁ => ∃ σ₂, Steps C e σ t (.ok (.val v) σ₂) ∧ σ₁ = set σ₂ x v
  | .ok _ _ => True

theorem Steps.assign_inv {C : Calls} {e₀ : Expr} {σ : St} {t : List Ev} {q : SRes}
    (h : Steps C e₀ σ t q) : ∀ x e, e₀ = .assign x e → Assigned C x e σ t q := by
  induction h with
  | refl e σ => intro x e he; subst he; trivial
  | cut e σ => intro x e he; exact .cut _ _
  | halt hs =>
    intro x e he
    subst he
    cases hs with
    | head h => cases e <;> simp [Head] at h
    | @hole _ _ _ _ q _ F he h hr =>
      cases F <;> simp only [Hole.plug] at he <;> cases he
      cases q <;> simp only [SRes.plug] at hr <;> cases hr
      exact .halt h
  | @step e₀ σ t₁ e₁ σ₁ t₂ r h hs ih =>
    intro x e he
    subst he
    cases h with
    | head h =>
      cases e <;> simp [Head] at h
      obtain ⟨rfl, rfl, rfl⟩ := h
      rename_i v
      -- the value is computed
      cases hs with
      | refl => exact ⟨σ, by simpa using Steps.refl _ _, rfl⟩
      | cut => exact .cut _ _
      | halt hs => exact (val_stuck hs).elim
      | step h _ => exact (val_stuck h).elim
    | @hole _ _ _ _ q _ F he h hr =>
      cases F <;> simp only [Hole.plug] at he <;> cases he
      cases q <;> simp only [SRes.plug, Hole.plug] at hr <;> cases hr
      rename_i a σ₂
      have := ih _ _ rfl
      unfold Assigned at this ⊢
      split
      · exact .step h this
      · obtain ⟨σ₃, h₁, h₂⟩ := this
        exact ⟨σ₃, .step h h₁, h₂⟩
      · trivial
where
  val_stuck {C : Calls} {v : Val} {σ : St} {t : List Ev} {r : SRes} (h : Step C (.val v) σ t r) : False := by
    cases h with
    | head h => simp [Head] at h
    | hole F he _ _ => cases F <;> simp [Hole.plug] at he

theorem Eval.assign_val {C : Calls} {x : Name} {e : Expr} {σ : St} {t : List Ev} {v : Val} {σ₁ : St}
    (h : Eval C (.assign x e) σ t (.val v σ₁)) : ∃ σ₂, Eval C e σ t (.val v σ₂) ∧ σ₁ = set σ₂ x v := by
  cases h with
  | val h =>
    obtain ⟨σ₂, h₁, h₂⟩ := h.assign_inv _ _ rfl
    exact ⟨σ₂, .val h₁, h₂⟩

theorem Eval.assign_halt {C : Calls} {x : Name} {e : Expr} {σ : St} {t : List Ev} {h : Halt}
    (hh : Eval C (.assign x e) σ t (.halt h)) : Eval C e σ t (.halt h) := by
  cases hh with
  | halt hh => exact .halt (hh.assign_inv _ _ rfl)

/-! ## Names -/

mutual

theorem free_uses {b : List Name} : ∀ (e : Expr),
    (∀ x ∈ usesE e, x ∈ b ∨ x ∈ freeE b e) ∧ ∀ x ∈ fnsE e, x ∈ b ∨ x ∈ freeE b e
  | .val _ => by simp [usesE, fnsE]
  | .var y => by
    simp only [usesE, fnsE, freeE, List.mem_singleton]
    refine ⟨fun x hx => ?_, fun x hx => by cases hx⟩
    subst hx; by_cases h : x ∈ b <;> simp [h]
  | .assign y e => by
    have := free_uses (b := b) e
    simp only [usesE, fnsE, freeE, List.mem_append, List.mem_cons]
    refine ⟨fun x hx => ?_, fun x hx => ?_⟩
    · rcases hx with rfl | hx
      · by_cases h : x ∈ b <;> simp [h]
      · exact (this.1 x hx).imp_right .inr
    · exact (this.2 x hx).imp_right .inr
  | .bin _ l r => by
    have h₁ := free_uses (b := b) l
    have h₂ := free_uses (b := b) r
    simp only [usesE, fnsE, freeE, List.mem_append]
    exact ⟨fun x hx => hx.elim (fun h => (h₁.1 x h).imp_right .inl) fun h => (h₂.1 x h).imp_right .inr,
      fun x hx => hx.elim (fun h => (h₁.2 x h).imp_right .inl) fun h => (h₂.2 x h).imp_right .inr⟩
  | .land l r => by
    have h₁ := free_uses (b := b) l
    have h₂ := free_uses (b := b) r
    simp only [usesE, fnsE, freeE, List.mem_append]
    exact ⟨fun x hx => hx.elim (fun h => (h₁.1 x h).imp_right .inl) fun h => (h₂.1 x h).imp_right .inr,
      fun x hx => hx.elim (fun h => (h₁.2 x h).imp_right .inl) fun h => (h₂.2 x h).imp_right .inr⟩
  | .lor l r => by
    have h₁ := free_uses (b := b) l
    have h₂ := free_uses (b := b) r
    simp only [usesE, fnsE, freeE, List.mem_append]
    exact ⟨fun x hx => hx.elim (fun h => (h₁.1 x h).imp_right .inl) fun h => (h₂.1 x h).imp_right .inr,
      fun x hx => hx.elim (fun h => (h₁.2 x h).imp_right .inl) fun h => (h₂.2 x h).imp_right .inr⟩
  | .comma l r => by
    have h₁ := free_uses (b := b) l
    have h₂ := free_uses (b := b) r
    simp only [usesE, fnsE, freeE, List.mem_append]
    exact ⟨fun x hx => hx.elim (fun h => (h₁.1 x h).imp_right .inl) fun h => (h₂.1 x h).imp_right .inr,
      fun x hx => hx.elim (fun h => (h₁.2 x h).imp_right .inl) fun h => (h₂.2 x h).imp_right .inr⟩
  | .cond c l r => by
    have h₀ := free_uses (b := b) c
    have h₁ := free_uses (b := b) l
    have h₂ := free_uses (b := b) r
    simp only [usesE, fnsE, freeE, List.mem_append]
    refine ⟨fun x hx => ?_, fun x hx => ?_⟩
    · rcases hx with h | h | h
      · exact (h₀.1 x h).imp_right .inl
      · exact (h₁.1 x h).imp_right fun h => .inr (.inl h)
      · exact (h₂.1 x h).imp_right fun h => .inr (.inr h)
    · rcases hx with h | h | h
      · exact (h₀.2 x h).imp_right .inl
      · exact (h₁.2 x h).imp_right fun h => .inr (.inl h)
      · exact (h₂.2 x h).imp_right fun h => .inr (.inr h)
  | .elvis l r => by
    have h₁ := free_uses (b := b) l
    have h₂ := free_uses (b := b) r
    simp only [usesE, fnsE, freeE, List.mem_append]
    exact ⟨fun x hx => hx.elim (fun h => (h₁.1 x h).imp_right .inl) fun h => (h₂.1 x h).imp_right .inr,
      fun x hx => hx.elim (fun h => (h₁.2 x h).imp_right .inl) fun h => (h₂.2 x h).imp_right .inr⟩
  | .size e => by simpa only [usesE, fnsE, freeE] using free_uses (b := b) e
  | .call _ f as => by
    have := free_usesL (b := b) as
    simp only [usesE, fnsE, freeE, List.mem_append, List.mem_cons]
    refine ⟨fun x hx => (this.1 x hx).imp_right .inr, fun x hx => ?_⟩
    rcases hx with rfl | hx
    · by_cases h : x ∈ b <;> simp [h]
    · exact (this.2 x hx).imp_right .inr

theorem free_usesL {b : List Name} : ∀ (es : List Expr),
    (∀ x ∈ usesL es, x ∈ b ∨ x ∈ freeL b es) ∧ ∀ x ∈ fnsL es, x ∈ b ∨ x ∈ freeL b es
  | [] => by simp [usesL, fnsL]
  | e :: es => by
    have h₁ := free_uses (b := b) e
    have h₂ := free_usesL (b := b) es
    simp only [usesL, fnsL, freeL, List.mem_append]
    exact ⟨fun x hx => hx.elim (fun h => (h₁.1 x h).imp_right .inl) fun h => (h₂.1 x h).imp_right .inr,
      fun x hx => hx.elim (fun h => (h₁.2 x h).imp_right .inl) fun h => (h₂.2 x h).imp_right .inr⟩

end

variable {Old Dst : Name → Prop} {D bd : List Name} {ids : Ids} {K : Frame} {sh : Shape} {C C' : Calls}
  {cnd vd lab : Name → Bool} {rt : Rt} {m : Name → Name}

/-- Names of an expression of a function with declarations `D`, variables `bd` are in scope. -/
structure NmE (Old : Name → Prop) (D : List Name) (K : Frame) (bd : List Name) (e : Expr) : Prop where
  uses : ∀ x ∈ usesE e, Old x
  fns : ∀ f ∈ fnsE e, Old f ∧ f ∉ D
  free : ∀ x ∈ freeE bd e, x ∉ names K

theorem NmE.known {e : Expr} (h : NmE Old D K bd e) (hb : ∀ x ∈ bd, x ∈ olds sh)
    (hD : ∀ x ∈ olds sh, x ∈ D) : Known' (Vars Old K sh) (Fns Old K sh) e := by
  refine ⟨fun x hx => ⟨h.uses x hx, ((free_uses e).1 x hx).imp (hb x) (h.free x)⟩, fun f hf => ?_⟩
  obtain ⟨ho, hd⟩ := h.fns f hf
  refine ⟨ho, fun h => hd (hD f h), ?_⟩
  rcases (free_uses (b := bd) e).2 f hf with h' | h'
  · exact absurd (hD f (hb f h')) hd
  · exact h.free f h'

/-- Names of a statement. -/
structure NmS (Old : Name → Prop) (D : List Name) (K : Frame) (bd : List Name) (s : Stmt) : Prop where
  uses : ∀ e ∈ exprsS s, ∀ x ∈ usesE e, Old x
  fns : ∀ e ∈ exprsS s, ∀ f ∈ fnsE e, Old f ∧ f ∉ D
  free : ∀ x ∈ freeS bd s, x ∉ names K
  decls : ∀ x ∈ s.decls, x ∈ D ∧ Old x

/-- Names of a list of statements. -/
structure NmL (Old : Name → Prop) (D : List Name) (K : Frame) (bd : List Name) (ss : List Stmt) : Prop where
  uses : ∀ e ∈ exprsSs ss, ∀ x ∈ usesE e, Old x
  fns : ∀ e ∈ exprsSs ss, ∀ f ∈ fnsE e, Old f ∧ f ∉ D
  free : ∀ x ∈ freeSs bd ss, x ∉ names K
  decls : ∀ x ∈ declsL ss, x ∈ D ∧ Old x

/-! ## Context of a statement -/

/-- Names in scope, replacement of parameters and the place to jump to. -/
structure Ctx (Old Dst : Name → Prop) (D : List Name) (rt : Rt) (K : Frame) (m : Name → Name) (ids : Ids)
    (sh : Shape) : Prop where
  amb : Amb Old Dst D ids K sh
  m : ∀ x, Old x → m x = mOf sh x
  L : ∀ R L v, rt = some (R, L, v) → L ∈ ids

theorem Ctx.mono {ids₁ : Ids} (h : Ctx Old Dst D rt K m ids sh) (hi : ∀ y ∈ ids, y ∈ ids₁) :
    Ctx Old Dst D rt K m ids₁ sh :=
  ⟨h.amb.mono hi, h.m, fun R L v e => hi _ (h.L R L v e)⟩

theorem Ctx.ext {sh₁ : Shape} {ids₁ : Ids} (h : Ctx Old Dst D rt K m ids sh) (hj : AllJunk sh₁)
    (ha : Amb Old Dst D ids₁ K (sh₁ ++ sh)) (hi : ∀ y ∈ ids, y ∈ ids₁) :
    Ctx Old Dst D rt K m ids₁ (sh₁ ++ sh) :=
  ⟨ha, fun x hx => by rw [hj.mOf]; exact h.m x hx, fun R L v e => hi _ (h.L R L v e)⟩

/-- A declaration of the original program. -/
theorem Ctx.push (h : Ctx Old Dst D rt K m ids sh) {x : Name} (hx : x ∈ D ∧ Old x) :
    Ctx Old Dst D rt K (hide m [x]) ids (.pair x x :: sh) := by
  refine ⟨⟨⟨⟨hx.2, fun _ => rfl⟩, fun hn => absurd hx.2 hn, h.amb.wf⟩, h.amb.old, ?_, h.amb.subK, ?_,
    h.amb.decD, h.amb.decK⟩, ?_, h.L⟩
  · intro y hy
    simp only [news, List.map_cons, List.mem_cons] at hy
    rcases hy with rfl | hy
    · exact h.amb.old _ hx.2
    · exact h.amb.sub y hy
  · intro y hy
    simp only [olds, List.filterMap_cons, Ent.old, List.mem_cons] at hy
    rcases hy with rfl | hy
    · exact hx.1
    · exact h.amb.dec y hy
  · intro y hy
    simp only [hide, mOf, List.mem_singleton]
    split
    · rename_i he; exact he
    · exact h.m y hy

theorem Ctx.congr {m₁ : Name → Name} (h : Ctx Old Dst D rt K m ids sh) (hm : ∀ x, m x = m₁ x) :
    Ctx Old Dst D rt K m₁ ids sh := ⟨h.amb, fun x hx => by rw [← hm]; exact h.m x hx, h.L⟩

theorem hide_nil : ∀ x, hide m [] x = m x := by simp [hide]

theorem hide_cons {x : Name} {xs : List Name} : ∀ y, hide (hide m [x]) xs y = hide m (x :: xs) y := by
  intro y
  simp only [hide, List.mem_cons, List.not_mem_nil, or_false]
  by_cases h₁ : y = x <;> by_cases h₂ : y ∈ xs <;> simp [h₁, h₂]

/-! ## Outcomes -/

/-- The frame of callers after a return. -/
def after (rt : Rt) (K : Frame) (v : Val) : Frame :=
  match rt with
  | some (R, _, false) => setF K R v
  | _ => K

theorem length_after (rt : Rt) (K : Frame) (v : Val) : (after rt K v).length = K.length := by
  unfold after; split
  · exact length_setF _ _ _
  · rfl

/-- Correspondence of outcomes of the expanded program and of the original one. -/
inductive OutR (rt : Rt) (last : Bool) (K : Frame) (N B : St → St → Prop) : Out → Out → Prop
  | norm {σ σ'} (h : N σ σ') : OutR rt last K N B (.norm σ') (.norm σ)
  | brk {σ σ'} (h : B σ σ') : OutR rt last K N B (.brk σ') (.brk σ)
  | ret {σ σ' v} (hr : rt = none) (hg : σ.g = σ'.g) : OutR rt last K N B (.ret v σ') (.ret v σ)
  | jump {σ v R L w X} (hr : rt = some (R, L, w)) :
      OutR rt last K N B (.jump L ⟨σ.g, X ++ after rt K v⟩) (.ret v σ)
  | last {σ v X} (hr : rt ≠ none) (hl : last = true) :
      OutR rt last K N B (.norm ⟨σ.g, X ++ after rt K v⟩) (.ret v σ)
  | halt (h) : OutR rt last K N B (.halt h) (.halt h)

theorem OutR.imp {last last₁ : Bool} {N N₁ B B₁ : St → St → Prop} {r' r : Out}
    (h : OutR rt last K N B r' r) (hl : last = true → last₁ = true) (hN : ∀ σ σ', N σ σ' → N₁ σ σ')
    (hB : ∀ σ σ', B σ σ' → B₁ σ σ') : OutR rt last₁ K N₁ B₁ r' r := by
  cases h with
  | norm h => exact .norm (hN _ _ h)
  | brk h => exact .brk (hB _ _ h)
  | ret hr hg => exact .ret hr hg
  | jump hr => exact .jump hr
  | last hr h => exact .last hr (hl h)
  | halt h => exact .halt h

theorem OutR.not_jump {last : Bool} {N B : St → St → Prop} {r' r : Out}
    (h : OutR rt last K N B r' r) : ∀ l σ, r ≠ .jump l σ := by cases h <;> simp

theorem bot_ge {X T : Frame} {n : Nat} (h : T.length ≤ n) : ∃ X₁, bot n (X ++ T) = X₁ ++ T := by
  refine ⟨X.drop (X.length + T.length - n), ?_⟩
  unfold bot
  rw [List.length_append, List.drop_append_of_le_length (by omega)]

/-- Both programs leave a block. -/
theorem OutR.exit {N B N₁ B₁ : St → St → Prop} {r' r : Out} {n n' : Nat}
    (h : OutR rt false K N B r' r) (hn : K.length ≤ n')
    (hN : ∀ σ σ', N σ σ' → N₁ ⟨σ.g, bot n σ.l⟩ ⟨σ'.g, bot n' σ'.l⟩)
    (hB : ∀ σ σ', B σ σ' → B₁ ⟨σ.g, bot n σ.l⟩ ⟨σ'.g, bot n' σ'.l⟩) :
    OutR rt false K N₁ B₁ (r'.bot n') (r.bot n) := by
  cases h with
  | norm h => exact .norm (hN _ _ h)
  | brk h => exact .brk (hB _ _ h)
  | ret hr hg => exact .ret hr hg
  | @jump σ v R L w X hr =>
    obtain ⟨X₁, h⟩ := bot_ge (X := X) (T := after rt K v) (n := n') (by rw [length_after]; exact hn)
    simp only [Out.bot]
    rw [h]
    exact OutR.jump (σ := ⟨σ.g, bot n σ.l⟩) hr
  | last hr h => cases h
  | halt h => exact .halt h

/-- Only the expanded program leaves a block. -/
theorem OutR.exit' {N B N₁ B₁ : St → St → Prop} {r' r : Out} {n' : Nat}
    (h : OutR rt false K N B r' r) (hn : K.length ≤ n')
    (hN : ∀ σ σ', N σ σ' → N₁ σ ⟨σ'.g, bot n' σ'.l⟩)
    (hB : ∀ σ σ', B σ σ' → B₁ σ ⟨σ'.g, bot n' σ'.l⟩) :
    OutR rt false K N₁ B₁ (r'.bot n') r := by
  cases h with
  | norm h => exact .norm (hN _ _ h)
  | brk h => exact .brk (hB _ _ h)
  | ret hr hg => exact .ret hr hg
  | @jump σ v R L w X hr =>
    obtain ⟨X₁, h⟩ := bot_ge (X := X) (T := after rt K v) (n := n') (by rw [length_after]; exact hn)
    simp only [Out.bot]
    rw [h]
    exact .jump (σ := σ) hr
  | last hr h => cases h
  | halt h => exact .halt h

theorem SR.drop {sh₁ : Shape} {σ σ' : St} (h : SR K (sh₁ ++ sh) σ σ') (hj : AllJunk sh₁) {n' : Nat}
    (hn : n' = sh.length + K.length) : SR K sh σ ⟨σ'.g, bot n' σ'.l⟩ := by
  refine ⟨h.g, ?_⟩
  have hl := h.l
  obtain ⟨X, X', T, T', h₁, h₂, hT, _⟩ := hl.split
  have hX : X = [] := by
    have e₁ := hl.length.1
    rw [hj.olds, h₁] at e₁
    have e₂ := hT.length.1
    simp only [List.length_append] at e₁
    exact List.eq_nil_of_length_eq_zero (by omega)
  subst hX
  simp only [List.nil_append] at h₁
  rw [h₁, h₂, bot_append_of (hT.length.2.trans hn.symm)]
  exact hT

/-- Two lists one after another. -/
theorem ExecL.app {a b : List Stmt} {σ : St} {t₁ : List Ev} {r₁ : Out} (h₁ : ExecL C a σ t₁ r₁) :
    ∀ {σ₁ t₂ r}, r₁ = .norm σ₁ → ExecL C b σ₁ t₂ r → ExecL C (a ++ b) σ (t₁ ++ t₂) r := by
  generalize hn : a.length = n
  induction n using Nat.strongRecOn generalizing a σ t₁ with
  | _ n ih =>
    intro σ₁ t₂ r hr h₂
    subst hr
    cases h₁ with
    | nil => simpa using h₂
    | @cons s ss _ u₁ σ₂ u₂ _ h hs =>
      simp only [List.length_cons] at hn
      have := ih ss.length (by omega) hs rfl rfl h₂
      rw [List.append_assoc]
      exact .cons h this
    | stop _ hn' _ => exact absurd rfl (hn' _)
    | @jump s ss _ u₁ l σ₂ xs s₁ u₂ _ h hj hs =>
      simp only [List.length_cons] at hn
      have hk := skipTo_some (b := b) hj
      have := ih s₁.length (by omega) hs rfl rfl h₂
      rw [List.append_assoc]
      exact .jump h hk.1 this

/-- A block without labels to jump back to. -/
theorem ExecB.once {ss : List Stmt} {n : Nat} {σ : St} {t : List Ev} {r : Out}
    (h : ExecB C ss n ss σ t r)
    (hl : ∀ {t l σ₁}, ExecL C ss σ t (.jump l σ₁) → skipTo l ss = none) : ExecL C ss σ t r := by
  cases h with
  | fin h _ => exact h
  | back h hj _ => rw [hl h] at hj; cases hj

theorem Exec.ofL {ss : List Stmt} {σ : St} {t : List Ev} {r : Out} (h : ExecL C ss σ t r)
    (hj : ∀ l σ, r ≠ .jump l σ) : Exec C (.block ss) σ t (r.bot σ.l.length) :=
  .block (.fin h fun l σ he => absurd he (hj l σ))

end Tsar.Inline
