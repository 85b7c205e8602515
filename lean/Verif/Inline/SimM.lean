import Verif.Inline.SimS
/-!
# Expansion of calls in a body of a function
-/
namespace Tsar.Inline

variable {Old Dst : Name → Prop} {D : List Name} {K : Frame} {C C' : Calls}
  {cnd vd lab : Name → Bool} {rt : Rt} {fr : Name → Ids → Name} {inl : Inl} {st : List Name}

/-- The returned value is stored in a variable of callers. -/
def RtOk (Old : Name → Prop) (K : Frame) (rt : Rt) : Prop :=
  ∀ R L, rt = some (R, L, false) → (∃ w, find K R = some (.auto w)) ∧ ¬ Old R

theorem set_res {sh : Shape} (hw : WF Old K sh) (hR : RtOk Old K rt) {R L : Name}
    (hrt : rt = some (R, L, false)) {σ σ' : St} (hs : SR K sh σ σ') (v : Val) :
    ∃ X, set σ' R v = ⟨σ.g, X ++ after rt K v⟩ := by
  obtain ⟨⟨w, hf⟩, ho⟩ := hR R L hrt
  have hl := hs.l
  rw [← List.append_nil sh] at hl
  obtain ⟨X, X', T, T', h₁, h₂, hT, h₃⟩ := hl.split
  obtain ⟨rfl, hT⟩ := hT
  rw [hT] at h₂
  have hK : R ∈ names K := by
    by_cases h : R ∈ names K
    · exact h
    · rw [find_none.2 h] at hf; cases hf
  have hn : R ∉ names X' := by
    rw [h₃]
    intro h
    clear h₃ hl hs h₂
    induction sh with
    | nil => cases h
    | cons a sh ih =>
      simp only [news, List.map_cons, List.mem_cons] at h
      rcases h with rfl | h
      · exact (hw.2.1 ho).2 hK
      · exact ih hw.tail h
  refine ⟨X', ?_⟩
  unfold set
  rw [h₂, find_append hn, hf, setF_append hn, hrt, ← hs.g]
  rfl

theorem tail_frame {sh : Shape} {σ σ' : St} (hs : SR K sh σ σ') : ∃ X, σ' = ⟨σ.g, X ++ K⟩ := by
  have hl := hs.l
  rw [← List.append_nil sh] at hl
  obtain ⟨X, X', T, T', h₁, h₂, hT, h₃⟩ := hl.split
  obtain ⟨rfl, hT⟩ := hT
  rw [hT] at h₂
  exact ⟨X', by cases σ'; simp only [St.mk.injEq]; exact ⟨hs.g.symm, h₂⟩⟩

theorem Exec.ret_cut {e : Expr} {σ σ₂ : St} {t : List Ev} {v : Val}
    (h : Exec C (.ret (some e)) σ t (.ret v σ₂)) : Exec C (.ret (some e)) σ t (.halt .cut) := by
  cases h with
  | ret he =>
    cases he with
    | val h => exact .retH (.halt h.halted)

theorem pL_len {m : Name → Name} : ∀ (es : List Expr) {ok : Bool} {ids : Ids},
    (pL inl st m ok es ids).es.length = es.length
  | [], _, _ => by simp [pL]
  | e :: es, _, _ => by simp [pL, pL_len es]

/-- A hoisted condition. -/
theorem NmS.expr {bd : List Name} {s : Stmt} (h : NmS Old D K bd s) {e : Expr} (he : e ∈ exprsS s)
    (hf : ∀ x ∈ freeE bd e, x ∈ freeS bd s) : NmE Old D K bd e :=
  ⟨h.uses e he, h.fns e he, fun y hy => h.free y (hf y hy)⟩

theorem NmS.sub {bd : List Name} {s s₁ : Stmt} (h : NmS Old D K bd s) (he : ∀ e ∈ exprsS s₁, e ∈ exprsS s)
    (hf : ∀ x ∈ freeS bd s₁, x ∈ freeS bd s) (hd : ∀ x ∈ s₁.decls, x ∈ s.decls) : NmS Old D K bd s₁ :=
  ⟨fun e h' => h.uses e (he e h'), fun e h' => h.fns e (he e h'), fun y hy => h.free y (hf y hy),
    fun y hy => h.decls y (hd y hy)⟩

theorem norm_stay {m : Name → Name} {s : Stmt} {ids' : Ids} {pre : List Stmt} {sh sh₁ : Shape} {σ σ' : St}
    (hd : s.declared = []) (hx : Ctx Old Dst D rt K m ids' (sh₁ ++ sh)) (hj : AllJunk sh₁)
    (hp : pre = [] → sh₁ = []) (hs : SR K (sh₁ ++ sh) σ σ') :
    NormR Old Dst D rt K m s ids' pre sh σ σ' :=
  ⟨sh₁, by rw [hd]; exact hx.congr fun x => (hide_nil x).symm, hs, by simp [hd], fun _ => ⟨hj, hp⟩⟩

variable (Old Dst D K C C' rt) in
/-- What is proved for a statement. -/
def SimOk (m : Name → Name) (last : Bool) (s : Stmt) (A : PS) (sh : Shape) : Prop :=
  ∀ {σ σ' t r'}, SR K sh σ σ' → ExecL C' (A.pre ++ A.core) σ' t r' →
    ∃ r, Exec C s σ t r ∧ OutR rt last K (NormR Old Dst D rt K m s A.ids A.pre sh) (BrkR K A.pre sh) r' r

theorem single_first {l : Name} {A : PS} (hc : A.core.length ≤ 1) (h : skipTo l A.core = none) :
    skipTo l [(single A).1] = none := by
  unfold single
  split
  · split
    · rfl
    · rename_i s sp hs
      rw [hs] at h hc
      have : sp = [] := by
        simp only [List.length_cons] at hc
        exact List.eq_nil_of_length_eq_zero (by omega)
      subst this
      exact h
  · rfl

/-- An expression or a declaration. -/
theorem fromSimple (hC : ∀ f vs g t r, C' f vs g t r → C f vs g t r)
    (hI : InlOk Old Dst cnd vd lab C C' (inl st)) (hId : InlId (inl st)) {s : Stmt} {last : Bool}
    {m : Name → Name} {ids : Ids} {sh : Shape} {bd : List Name} (hi : okInit cnd vd s = true)
    (hx : Ctx Old Dst D rt K m ids sh) (hn : NmS Old D K bd s) (hb : ∀ x ∈ bd, x ∈ olds sh) :
    SimOk Old Dst D K C C' rt m last s (pS fr inl st rt m last s ids) sh := by
  intro σ σ' t r' hs h
  obtain ⟨i', hcore, _, hnl, hsim⟩ := simple_sim (fr := fr) (last := last) hC hI hId hi hx hn hb hs
  rw [hcore] at h
  rcases h.append with ⟨t₁, t₂, σ₁', h₁, h₂, rfl⟩ | ⟨h₁, h₂⟩ | ⟨l, t₁, σ₁', h₁, _⟩
  · rcases hsim h₁ with ⟨sh₁, σ₁, σ₂', he, k₁, hx₁, k₃, k₄, k₅, k₆⟩ | ⟨h, he, _⟩
    · cases he
      have := k₆ _ _ h₂.single
      cases r' with
      | norm σ₂' =>
        obtain ⟨dsh, σ₂, j₁, j₂, j₃, j₄, j₅⟩ := this
        refine ⟨_, j₁, .norm ⟨dsh ++ sh₁, by simpa using j₂, by simpa using j₃, ?_, fun hd => ?_⟩⟩
        · intro x hx
          simp only [olds, List.filterMap_append, List.mem_append]
          exact .inl (j₄ x hx)
        · rw [j₅ hd, List.nil_append]
          exact ⟨k₁, k₃⟩
      | halt h' => exact ⟨_, this, .halt _⟩
      | _ => exact this.elim
    · cases he
  · rcases hsim h₁ with ⟨sh₁, σ₁, σ₂', rfl, _⟩ | ⟨h, rfl, k₁⟩
    · exact absurd rfl (h₂ _)
    · exact ⟨_, k₁, .halt _⟩
  · rcases hsim h₁ with ⟨sh₁, σ₁, σ₂', he, _⟩ | ⟨h, he, _⟩ <;> cases he

/-! ## `return` statements -/

theorem noRets_mem {ss : List Stmt} (h : hasRets ss = false) : ∀ s ∈ ss, s.hasRet = false := by
  induction ss with
  | nil => intro s hs; cases hs
  | cons a ss ih =>
    simp only [hasRets, Bool.or_eq_false_iff] at h
    intro s hs
    rcases List.mem_cons.1 hs with rfl | hs
    · exact h.1
    · exact ih h.2 s hs

theorem Out.bot_ret {r : Out} {n : Nat} (h : ∀ v σ, r ≠ .ret v σ) : ∀ v σ, r.bot n ≠ .ret v σ := by
  intro v σ; cases r <;> simp [Out.bot]
  exact absurd rfl (h _ _)

mutual

theorem Exec.noRet {C : Calls} : ∀ {s σ t r}, Exec C s σ t r → s.hasRet = false → ∀ v σ', r ≠ .ret v σ'
  | _, _, _, _, .cut _ _, _, _, _ => by simp
  | _, _, _, _, .skip _, _, _, _ => by simp
  | _, _, _, _, .bad _, _, _, _ => by simp
  | _, _, _, _, .expr _, _, _, _ => by simp
  | _, _, _, _, .exprH _, _, _, _ => by simp
  | _, _, _, _, .decl h, _, _, _ => by rcases h.noBrk with ⟨_, rfl⟩ | ⟨_, rfl⟩ <;> simp
  | _, _, _, _, .static _ _ _, _, _, _ => by simp
  | _, _, _, _, .ift h, hn, v, σ' => Exec.noRet h (by simpa [Stmt.hasRet] using hn) v σ'
  | _, _, _, _, .ifteT _ _ h, hn, v, σ' => Exec.noRet h (by simp [Stmt.hasRet] at hn; exact hn.1) v σ'
  | _, _, _, _, .ifteF _ _ h, hn, v, σ' => Exec.noRet h (by simp [Stmt.hasRet] at hn; exact hn.2) v σ'
  | _, _, _, _, .ifteU _ _, _, _, _ => by simp
  | _, _, _, _, .ifteH _, _, _, _ => by simp
  | _, _, _, _, .loopF _ _, _, _, _ => by simp
  | _, _, _, _, .loopU _ _, _, _, _ => by simp
  | _, _, _, _, .loopH _, _, _, _ => by simp
  | _, _, _, _, .loopN _ _ _ h, hn, v, σ' => Exec.noRet h (by simpa [Stmt.hasRet] using hn) v σ'
  | _, _, _, _, .loopB _ _ _, _, _, _ => by simp
  | _, _, _, _, .loopA _ _ h _ _, hn, v, σ' => Exec.noRet h (by simpa [Stmt.hasRet] using hn) v σ'
  | _, _, _, _, .doN _ h, hn, v, σ' => Exec.noRet h (by simpa [Stmt.hasRet] using hn) v σ'
  | _, _, _, _, .doB _, _, _, _ => by simp
  | _, _, _, _, .doA h _ _, hn, v, σ' => Exec.noRet h (by simpa [Stmt.hasRet] using hn) v σ'
  | _, _, _, _, .for h, hn, v, σ' => Exec.noRet h (by simpa [Stmt.hasRet, hasRets] using hn) v σ'
  | _, _, _, _, .block h, hn, v, σ' =>
    Out.bot_ret (ExecB.noRet h (noRets_mem (by simpa [Stmt.hasRet] using hn))
      (noRets_mem (by simpa [Stmt.hasRet] using hn))) v σ'
  | _, _, _, _, .retN _, hn, _, _ => by simp [Stmt.hasRet] at hn
  | _, _, _, _, .ret _, hn, _, _ => by simp [Stmt.hasRet] at hn
  | _, _, _, _, .retH _, _, _, _ => by simp
  | _, _, _, _, .brk _, hn, _, _ => by simp
  | _, _, _, _, .goto _ _, _, _, _ => by simp
  | _, _, _, _, .label h, hn, v, σ' => Exec.noRet h (by simpa [Stmt.hasRet] using hn) v σ'

theorem ExecL.noRet {C : Calls} : ∀ {ss σ t r}, ExecL C ss σ t r → (∀ s ∈ ss, s.hasRet = false) →
    ∀ v σ', r ≠ .ret v σ'
  | _, _, _, _, .nil _, _, _, _ => by simp
  | _, _, _, _, .cons _ hs, hn, v, σ' => ExecL.noRet hs (fun s h => hn s (.tail _ h)) v σ'
  | _, _, _, _, .stop h _ _, hn, v, σ' => Exec.noRet h (hn _ (.head _)) v σ'
  | _, _, _, _, .jump _ hj hs, hn, v, σ' =>
    ExecL.noRet hs (fun s h => hn s (.tail _ (skipTo_mem hj s h))) v σ'

theorem ExecB.noRet {C : Calls} : ∀ {ss n sf σ t r}, ExecB C ss n sf σ t r →
    (∀ s ∈ ss, s.hasRet = false) → (∀ s ∈ sf, s.hasRet = false) → ∀ v σ', r ≠ .ret v σ'
  | _, _, _, _, _, _, .fin h _, _, hf, v, σ' => ExecL.noRet h hf v σ'
  | _, _, _, _, _, _, .back _ hj hb, hs, _, v, σ' =>
    ExecB.noRet hb hs (fun s h => hs s (skipTo_mem hj s h)) v σ'

end

theorem needLab_ret {s : Stmt} {ss : List Stmt} (h : s.hasRet = true)
    (hn : ∀ o, s = .ret o → ss ≠ []) : needLab (s :: ss) = true := by
  unfold needLab
  split
  · rename_i he; cases he
  · rename_i o he; cases he; exact absurd rfl (hn o rfl)
  · rename_i he; cases he; rw [h]; rfl

theorem needLab_tail {s : Stmt} {ss : List Stmt} (h : needLab ss = true) : needLab (s :: ss) = true := by
  cases ss with
  | nil => cases h
  | cons a ss => simp [needLab, h]

/-- The last `return` does not jump. -/
theorem ret_last (hC : ∀ f vs g t r, C' f vs g t r → C f vs g t r)
    (hI : InlOk Old Dst cnd vd lab C C' (inl st)) {o : Option Expr} {m : Name → Name} {ids : Ids} {sh : Shape}
    {bd : List Name} (hk : okS cnd vd lab true (.ret o) = true) (hrt : rt ≠ none)
    (hx : Ctx Old Dst D rt K m ids sh) (hn : NmS Old D K bd (.ret o)) (hb : ∀ x ∈ bd, x ∈ olds sh)
    {σ σ' : St} {t : List Ev} {r' : Out} (hs : SR K sh σ σ')
    (h : ExecL C' ((pS fr inl st rt m true (.ret o) ids).pre ++ (pS fr inl st rt m true (.ret o) ids).core)
      σ' t r') : ∀ l σ₁, r' ≠ .jump l σ₁ := by
  intro l σ₁ he
  obtain ⟨⟨R, L, w⟩, hrt⟩ := Option.ne_none_iff_exists'.1 hrt
  subst he
  cases o with
  | none =>
    simp only [pS, lower, hrt, if_true] at h
    cases w with
    | true => cases h
    | false => cases h.single
  | some e =>
    have hI' := fun f ids T ids₁ h => let h := hI f ids T ids₁ h; And.intro h.1 h.2.1
    simp only [okS] at hk
    have hrep := pE_rep (m := m) hI' e true ids (.inr hk)
    have hne : NmE Old D K bd e := hn.expr (by simp [exprsS]) (by intro x hx; simp [freeS, hx])
    simp only [pS, hrep, List.isEmpty_nil, if_true, lower, hrt] at h
    have hH : ∀ {t r'}, ExecL C' (pE inl st m true e ids).pre σ' t r' → _ := fun h =>
      hoistE hC hI e true (.inr hk) hx.amb hx.m (hne.known hb hx.amb.dec) hs h
    rcases Hoisted.then hH h with ⟨t₁, t₂, σ₁', h₁, h₂, rfl⟩ | ⟨h, he, h₁⟩
    · cases w with
      | true => cases h₂
      | false => cases h₂.single
    · cases he

mutual

theorem simS (hC : ∀ f vs g t r, C' f vs g t r → C f vs g t r)
    (hI : InlOk Old Dst cnd vd lab C C' (inl st)) (hId : InlId (inl st)) (hR : RtOk Old K rt) :
    ∀ (s : Stmt) (inL last : Bool) {m : Name → Name} {ids : Ids} {sh : Shape} {bd : List Name},
    okS cnd vd lab inL s = true → (∀ R L w, rt = some (R, L, w) → bodyOk w s = true) →
    Ctx Old Dst D rt K m ids sh → NmS Old D K bd s → (∀ x ∈ bd, x ∈ olds sh) →
    SimOk Old Dst D K C C' rt m last s (pS fr inl st rt m last s ids) sh
  | .skip, inL, last, m, ids, sh, bd, hk, hB, hx, hn, hb, σ, σ', t, r', hs, h => by
    simp only [pS, List.nil_append] at h ⊢
    cases h.single with
    | cut => exact ⟨_, .cut _ _, .halt _⟩
    | skip => exact ⟨_, .skip _, .norm (norm_stay (sh₁ := []) rfl hx nil_junk (fun _ => rfl) hs)⟩
  | .bad, inL, last, m, ids, sh, bd, hk, hB, hx, hn, hb, σ, σ', t, r', hs, h => by
    simp only [pS, List.nil_append] at h ⊢
    cases h.single with
    | cut => exact ⟨_, .cut _ _, .halt _⟩
    | bad => exact ⟨_, .bad _, .halt _⟩
  | .expr e, inL, last, m, ids, sh, bd, hk, hB, hx, hn, hb, σ, σ', t, r', hs, h => by
    by_cases hi : okE cnd vd e = true
    · exact fromSimple hC hI hId (s := .expr e) (by simpa [okInit] using hi) hx hn hb hs h
    · -- a call of a `void` function
      simp only [okS] at hk
      have hc : ∃ k f as, e = .call k f as := by
        by_cases hc : ∃ k f as, e = .call k f as
        · exact hc
        · exact absurd (okX_okE hk fun k f as he => hc ⟨k, f, as, he⟩) hi
      obtain ⟨k, f, as, rfl⟩ := hc
      simp only [okX, Bool.and_eq_true] at hk
      have hI' := fun f ids T ids₁ h => let h := hI f ids T ids₁ h; And.intro h.1 h.2.1
      have hrep := pL_rep (m := m) hI' as true ids (.inr hk.1)
      have hne : NmE Old D K bd (.call k f as) := hn.expr (by simp [exprsS]) (by simp [freeS])
      have hkn := hne.known hb hx.amb.dec
      have hid := (pL_id (m := m) hId true as ids).1
      have hf := hkn.2 f (by simp [fnsE])
      have hA : ∀ {t r'}, ExecL C' (pL inl st m true as ids).pre σ' t r' → _ := fun h =>
        hoistL hC hI as true (.inr hk.1) hx.amb hx.m
        ⟨fun y hy => hkn.1 y (by simp [usesE, hy]), fun y hy => hkn.2 y (by simp [fnsE, hy])⟩ hs h
      -- the call is not expanded
      have stay : ∀ {t r'}, ExecL C' ((pL inl st m true as ids).pre ++
          [.expr (.call k f (pL inl st m true as ids).es)]) σ' t r' →
          ∃ r, Exec C (.expr (.call k f as)) σ t r ∧ OutR rt last K
            (NormR Old Dst D rt K m (.expr (.call k f as)) (pL inl st m true as ids).ids
              (pL inl st m true as ids).pre sh) (BrkR K (pL inl st m true as ids).pre sh) r' r := by
        intro t r' h
        have hH : ∀ {t r'}, ExecL C' (pL inl st m true as ids).pre σ' t r' →
            Hoisted Old Dst D K C sh (pL inl st m true as ids).ids (pL inl st m true as ids).pre
              (.call k f as) σ t (.call k f (pL inl st m true as ids).es) r' := by
          intro t r' h
          have := hA h
          cases r' with
          | norm σ₁' =>
            obtain ⟨es₁, σ₁, sh₁, h₁, h₂, h₃, h₄, h₅, h₆⟩ := this
            refine ⟨_, σ₁, sh₁, h₁, h₂, h₃, h₄ k f [], h₅, ?_⟩
            simp only [Rel, List.nil_append, RE]
            exact ⟨trivial, by rw [Fns.ext h₁]; exact hf, h₆⟩
          | halt h' => exact this k f []
          | _ => exact this
        rcases Hoisted.then hH h with ⟨t₁, t₂, σ₁', h₁, h₂, rfl⟩ | ⟨h, rfl, h₁⟩
        · obtain ⟨sh₁, σ₁, k₁, k₂, k₃, k₄, k₅, k₆, k₇⟩ := h₁.eval hC
          cases h₂.single with
          | cut => exact ⟨_, by simpa using Exec.exprH (.halt k₅), .halt _⟩
          | expr he =>
            obtain ⟨σ₂, j₁, j₂⟩ := k₆ _ _ _ he
            exact ⟨_, .expr j₁, .norm (norm_stay rfl (hx.ext k₁ k₂ hid) k₁ k₃ j₂)⟩
          | exprH he => exact ⟨_, .exprH (k₇ _ _ he), .halt _⟩
        · exact ⟨_, .exprH h₁, .halt _⟩
      have cut : ∀ {Q : PE}, pE inl st m true (.call k f as) ids = Q →
          pS fr inl st rt m last (.expr (.call k f as)) ids =
          if Q.rep.isEmpty then ⟨Q.pre, [.expr Q.e], false, Q.ids⟩ else ⟨Q.pre, Q.rep, true, Q.ids⟩ := by
        rintro Q rfl; rw [pS]
      have plain : pE inl st m true (.call k f as) ids = ⟨(pL inl st m true as ids).pre,
          (pL inl st m true as ids).rep, .call k f (pL inl st m true as ids).es,
          (pL inl st m true as ids).ids⟩ → ∃ r, Exec C (.expr (.call k f as)) σ t r ∧
          OutR rt last K (NormR Old Dst D rt K m (.expr (.call k f as))
            (pS fr inl st rt m last (.expr (.call k f as)) ids).ids
            (pS fr inl st rt m last (.expr (.call k f as)) ids).pre sh)
            (BrkR K (pS fr inl st rt m last (.expr (.call k f as)) ids).pre sh) r' r := by
        intro hp
        have := cut hp
        simp only [hrep, List.isEmpty_nil, if_true] at this
        rw [this] at h ⊢
        exact stay h
      cases hT : (if k && true then inl st f (pL inl st m true as ids).ids else none) with
      | none => exact plain (by simp only [pE, hT])
      | some q =>
        obtain ⟨T, ids₁⟩ := q
        by_cases hlen : T.ps.length = as.length
        · have hT' : (k && true) = true ∧ inl st f (pL inl st m true as ids).ids = some (T, ids₁) := by
            split at hT
            · rename_i hk'; exact ⟨hk', hT⟩
            · cases hT
          obtain ⟨hc, hv, _, hTok⟩ := hI _ _ _ _ hT'.2
          have hkk : k = true := by simpa using hT'.1
          have hvoid : T.void = true := by
            simp only [okE, hkk, hc, Bool.true_and, hk.1, Bool.and_true, Bool.not_eq_true',
              Bool.not_eq_false] at hi
            rw [hv] at hi
            exact hi
          have hp : pE inl st m true (.call k f as) ids = ⟨(pL inl st m true as ids).pre,
              T.text (pL inl st m true as ids).es, .val none, ids₁⟩ := by
            simp only [pE, hT, hlen, if_true, hvoid, hrep, List.nil_append]
          have hp := cut hp
          have hne : (T.text (pL inl st m true as ids).es).isEmpty = false := by
            simp only [Tpl.text, hvoid]
            split <;> rfl
          simp only [hne, Bool.false_eq_true, if_false] at hp
          rw [hp] at h ⊢
          simp only at h ⊢
          rcases h.append with ⟨t₁, t₂, σ₁', h₁, h₂, rfl⟩ | ⟨h₁, h₂⟩ | ⟨l, t₁, σ₁', h₁, _⟩
          · obtain ⟨es₁, σ₁, sh₁, k₁, k₂, k₃, k₄, k₅, k₆⟩ := hA h₁
            have hf₁ : Fns Old K (sh₁ ++ sh) f := by rw [Fns.ext k₁]; exact hf
            have := text_sim (k := k) hC hTok k₂
              (by rw [hlen, pL_len]) k₆ hf₁ k₅ h₂
            cases r' with
            | norm σ₂' =>
              obtain ⟨v, σ₂, j₁, j₂⟩ := this
              simp only [hvoid, if_true] at j₂
              refine ⟨_, .expr (.val ((k₄ k f []).trans j₁)), .norm (norm_stay rfl ?_ k₁ k₃ j₂)⟩
              exact (hx.ext k₁ k₂ hid).mono hTok.sub
            | halt h' => exact ⟨_, .exprH (.halt ((k₄ k f []).trans this)), .halt _⟩
            | _ => exact this.elim
          · have := hA h₁
            cases r' with
            | norm σ₁' => exact absurd rfl (h₂ _)
            | halt h' => exact ⟨_, .exprH (.halt (this k f [])), .halt _⟩
            | _ => exact this.elim
          · exact (hA h₁).elim
        · exact plain (by simp only [pE, hT, hlen, if_false])
  | .decl ds, inL, last, m, ids, sh, bd, hk, hB, hx, hn, hb, σ, σ', t, r', hs, h => by
    simp only [okS, Bool.and_eq_true] at hk
    exact fromSimple hC hI hId (s := .decl ds) (by simpa [okInit] using hk.2) hx hn hb hs h
  | .static x o, inL, last, m, ids, sh, bd, hk, hB, hx, hn, hb, σ, σ', t, r', hs, h => by
    cases hrt : rt with
    | some q =>
      obtain ⟨R, L, w⟩ := q
      have := hB R L w hrt
      simp [bodyOk] at this
    | none =>
      subst hrt
      simp only [pS, Option.isSome_none, Bool.false_eq_true, if_false, List.nil_append] at h ⊢
      cases h.single with
      | cut => exact ⟨_, .cut _ _, .halt _⟩
      | static =>
        refine ⟨_, .static _ _ _, .norm ⟨[.pair x x], ?_, ⟨hs.g, _, _, _, rfl, rfl, hs.l⟩, ?_, ?_⟩⟩
        · exact hx.push (hn.decls x (by simp [Stmt.decls]))
        · simp [Stmt.declared, olds, Ent.old]
        · simp [Stmt.declared]
  | .ift c b, inL, last, m, ids, sh, bd, hk, hB, hx, hn, hb, σ, σ', t, r', hs, h => by
    have hI' := fun f ids T ids₁ h => let h := hI f ids T ids₁ h; And.intro h.1 h.2.1
    simp only [okS, Bool.and_eq_true] at hk
    have hrep := pE_rep (m := m) hI' c true ids (.inr hk.1)
    have hid := (pE_id (m := m) hId true c ids).1
    have hidT := pS_id (fr := fr) (rt := rt) hId b false false m (pE inl st m true c ids).ids hk.2
    have hcore := pS_core (fr := fr) (rt := rt) hI b false m (pE inl st m true c ids).ids hk.2
    have hne : NmE Old D K bd c := hn.expr (by simp [exprsS]) (by intro x hx; simp [freeS, hx])
    have hnb : NmS Old D K bd b := hn.sub (fun e h => by simp [exprsS, h])
      (fun e h => by simp [freeS, h]) (fun e h => by simpa [Stmt.decls] using h)
    have hsn := single_nil hcore
    simp only [pS, hrep, List.isEmpty_nil, if_true, hsn] at h ⊢
    have hH : ∀ {t r'}, ExecL C' (pE inl st m true c ids).pre σ' t r' → _ := fun h =>
      hoistE hC hI c true (.inr hk.1) hx.amb hx.m (hne.known hb hx.amb.dec) hs h
    rcases Hoisted.then hH h with ⟨t₁, t₂, σ₁', h₁, h₂, rfl⟩ | ⟨h, rfl, h₁⟩
    · obtain ⟨sh₁, σ₁, k₁, k₂, k₃, k₄, k₅, k₆, k₇⟩ := h₁.eval hC
      have hx₁ := hx.ext k₁ k₂ hid
      have hb₁ : ∀ x ∈ bd, x ∈ olds (sh₁ ++ sh) := by rw [k₁.olds]; exact hb
      have fin : ∀ {r' r}, OutR rt false K (SR K (sh₁ ++ sh)) (SR K (sh₁ ++ sh)) r' r → OutR rt last K
          (NormR Old Dst D rt K m (.ift c b) _ (pE inl st m true c ids).pre sh)
          (BrkR K (pE inl st m true c ids).pre sh) r' r := fun h => h.imp (by simp)
            (fun σ σ' h => norm_stay rfl (hx₁.mono hidT.1) k₁ k₃ h) (fun σ σ' h => ⟨sh₁, k₁, h, k₃⟩)
      cases h₂.single with
      | cut => exact ⟨_, by simpa using Exec.ift (.ifteH (.halt k₅)), .halt _⟩
      | ift h =>
        cases h with
        | cut => exact ⟨_, by simpa using Exec.ift (.ifteH (.halt k₅)), .halt _⟩
        | @ifteT _ _ _ _ u₁ v _ u₂ _ hc hv h =>
          obtain ⟨σ₂, j₁, j₂⟩ := k₆ _ _ _ hc
          obtain ⟨r, i₁, i₂⟩ := single_sim hcore
            (fun R L w e => skipTo_app (hidT.2 L (hx₁.L _ _ _ e)).1 (hidT.2 L (hx₁.L _ _ _ e)).2)
            (okS_declared hk.2) j₂ (fun h => simS hC hI hId hR b false false hk.2
              (fun R L w e => by simpa [bodyOk] using hB R L w e) hx₁ hnb hb₁ j₂ h) h
          refine ⟨r, ?_, fin i₂⟩
          have := Exec.ift (.ifteT (b := .skip) j₁ hv i₁)
          simpa using this
        | @ifteF _ _ _ _ u₁ v _ u₂ _ hc hv h =>
          obtain ⟨σ₂, j₁, j₂⟩ := k₆ _ _ _ hc
          have sk : ∀ {u r}, Exec C .skip σ₂ u r → Exec C (.ift c b) σ (t₁ ++ (u₁ ++ u)) r := fun h => by
            have := Exec.ift (.ifteF (a := b) j₁ hv h)
            simpa using this
          cases h with
          | cut => exact ⟨_, sk (.cut _ _), .halt _⟩
          | skip => exact ⟨_, sk (.skip _), fin (.norm j₂)⟩
        | ifteU hc hv =>
          obtain ⟨σ₂, j₁, j₂⟩ := k₆ _ _ _ hc
          exact ⟨_, .ift (.ifteU j₁ hv), .halt _⟩
        | ifteH hc => exact ⟨_, .ift (.ifteH (k₇ _ _ hc)), .halt _⟩
    · exact ⟨_, .ift (.ifteH h₁), .halt _⟩
  | .ifte c a b, inL, last, m, ids, sh, bd, hk, hB, hx, hn, hb, σ, σ', t, r', hs, h => by
    have hI' := fun f ids T ids₁ h => let h := hI f ids T ids₁ h; And.intro h.1 h.2.1
    simp only [okS, Bool.and_eq_true] at hk
    have hrep := pE_rep (m := m) hI' c true ids (.inr hk.1)
    have hid := (pE_id (m := m) hId true c ids).1
    have hidT := pS_id (fr := fr) (rt := rt) hId a false false m (pE inl st m true c ids).ids hk.2.1
    have hidF := pS_id (fr := fr) (rt := rt) hId b false false m
      (pS fr inl st rt m false a (pE inl st m true c ids).ids).ids hk.2.2
    have hcoreT := pS_core (fr := fr) (rt := rt) hI a false m (pE inl st m true c ids).ids hk.2.1
    have hcoreF := pS_core (fr := fr) (rt := rt) hI b false m
      (pS fr inl st rt m false a (pE inl st m true c ids).ids).ids hk.2.2
    have hne : NmE Old D K bd c := hn.expr (by simp [exprsS]) (by intro x hx; simp [freeS, hx])
    have hna : NmS Old D K bd a := hn.sub (fun e h => by simp [exprsS, h])
      (fun e h => by simp [freeS, h]) (fun e h => by simp [Stmt.decls, h])
    have hnb : NmS Old D K bd b := hn.sub (fun e h => by simp [exprsS, h])
      (fun e h => by simp [freeS, h]) (fun e h => by simp [Stmt.decls, h])
    have hsT := single_nil hcoreT
    have hsF := single_nil hcoreF
    simp only [pS, hrep, List.isEmpty_nil, if_true, hsT, hsF] at h ⊢
    have hH : ∀ {t r'}, ExecL C' (pE inl st m true c ids).pre σ' t r' → _ := fun h =>
      hoistE hC hI c true (.inr hk.1) hx.amb hx.m (hne.known hb hx.amb.dec) hs h
    rcases Hoisted.then hH h with ⟨t₁, t₂, σ₁', h₁, h₂, rfl⟩ | ⟨h, rfl, h₁⟩
    · obtain ⟨sh₁, σ₁, k₁, k₂, k₃, k₄, k₅, k₆, k₇⟩ := h₁.eval hC
      have hx₁ := hx.ext k₁ k₂ hid
      have hx₂ := hx₁.mono hidT.1
      have hb₁ : ∀ x ∈ bd, x ∈ olds (sh₁ ++ sh) := by rw [k₁.olds]; exact hb
      have fin : ∀ {r' r}, OutR rt false K (SR K (sh₁ ++ sh)) (SR K (sh₁ ++ sh)) r' r → OutR rt last K
          (NormR Old Dst D rt K m (.ifte c a b) _ (pE inl st m true c ids).pre sh)
          (BrkR K (pE inl st m true c ids).pre sh) r' r := fun h => h.imp (by simp)
            (fun σ σ' h => norm_stay rfl (hx₂.mono hidF.1) k₁ k₃ h) (fun σ σ' h => ⟨sh₁, k₁, h, k₃⟩)
      cases h₂.single with
      | cut => exact ⟨_, by simpa using Exec.ifteH (.halt k₅), .halt _⟩
      | @ifteT _ _ _ _ u₁ v _ u₂ _ hc hv h =>
        obtain ⟨σ₂, j₁, j₂⟩ := k₆ _ _ _ hc
        obtain ⟨r, i₁, i₂⟩ := single_sim hcoreT
          (fun R L w e => skipTo_app (hidT.2 L (hx₁.L _ _ _ e)).1 (hidT.2 L (hx₁.L _ _ _ e)).2)
          (okS_declared hk.2.1) j₂ (fun h => simS hC hI hId hR a false false hk.2.1
            (fun R L w e => by have := hB R L w e; simp [bodyOk] at this; exact this.1)
            hx₁ hna hb₁ j₂ h) h
        refine ⟨r, ?_, fin i₂⟩
        have := Exec.ifteT (b := b) j₁ hv i₁
        simpa using this
      | @ifteF _ _ _ _ u₁ v _ u₂ _ hc hv h =>
        obtain ⟨σ₂, j₁, j₂⟩ := k₆ _ _ _ hc
        obtain ⟨r, i₁, i₂⟩ := single_sim hcoreF
          (fun R L w e => skipTo_app (hidF.2 L (hx₂.L _ _ _ e)).1 (hidF.2 L (hx₂.L _ _ _ e)).2)
          (okS_declared hk.2.2) j₂ (fun h => simS hC hI hId hR b false false hk.2.2
            (fun R L w e => by have := hB R L w e; simp [bodyOk] at this; exact this.2)
            hx₂ hnb hb₁ j₂ h) h
        refine ⟨r, ?_, fin i₂⟩
        have := Exec.ifteF (a := a) j₁ hv i₁
        simpa using this
      | ifteU hc hv =>
        obtain ⟨σ₂, j₁, j₂⟩ := k₆ _ _ _ hc
        exact ⟨_, .ifteU j₁ hv, .halt _⟩
      | ifteH hc => exact ⟨_, .ifteH (k₇ _ _ hc), .halt _⟩
    · exact ⟨_, .ifteH h₁, .halt _⟩
  | .loop c b, inL, last, m, ids, sh, bd, hk, hB, hx, hn, hb, σ, σ', t, r', hs, h => by
    simp only [okS] at hk
    have hne : NmE Old D K bd c := hn.expr (by simp [exprsS]) (by intro x hx; simp [freeS, hx])
    have hnb : NmS Old D K bd b := hn.sub (fun e h => by simp [exprsS, h])
      (fun e h => by simp [freeS, h]) (fun e h => by simpa [Stmt.decls] using h)
    have hE := pE_quiet (J := Known sh) (m := m) (fun f ids T h => (hI f ids T.1 T.2 h).1)
      (fun x hv => hx.m x hv.1) c false ids (.inl rfl) (hne.known hb hx.amb.dec)
    have hidB := pS_id (fr := fr) (rt := rt) hId b false false m ids hk
    have hcore := pS_core (fr := fr) (rt := rt) hI b false m ids hk
    simp only [pS, hE.1.2.2, single_nil hcore, List.nil_append] at h ⊢
    obtain ⟨r, h₁, h₂⟩ := loop_sim (rt := rt) hC hx.amb.wf hE.2 (b := b) (fun {σ σ' t r'} hs h =>
      single_sim hcore
        (fun R L w e => skipTo_app (hidB.2 L (hx.L _ _ _ e)).1 (hidB.2 L (hx.L _ _ _ e)).2)
        (okS_declared hk) hs (fun h => simS hC hI hId hR b false false hk
          (fun R L w e => by simpa [bodyOk] using hB R L w e) hx hnb hb hs h) h) h.single rfl hs
    exact ⟨r, h₁, h₂.imp (by simp) (fun σ σ' h =>
      norm_stay (sh₁ := []) rfl (hx.mono hidB.1) nil_junk (fun _ => rfl) h)
      (fun σ σ' h => ⟨[], nil_junk, h, fun _ => rfl⟩)⟩
  | .doloop b c, inL, last, m, ids, sh, bd, hk, hB, hx, hn, hb, σ, σ', t, r', hs, h => by
    simp only [okS] at hk
    have hne : NmE Old D K bd c := hn.expr (by simp [exprsS]) (by intro x hx; simp [freeS, hx])
    have hnb : NmS Old D K bd b := hn.sub (fun e h => by simp [exprsS, h])
      (fun e h => by simp [freeS, h]) (fun e h => by simpa [Stmt.decls] using h)
    have hE := pE_quiet (J := Known sh) (m := m) (fun f ids T h => (hI f ids T.1 T.2 h).1)
      (fun x hv => hx.m x hv.1) c false (pS fr inl st rt m false b ids).ids (.inl rfl)
      (hne.known hb hx.amb.dec)
    have hidB := pS_id (fr := fr) (rt := rt) hId b false false m ids hk
    have hcore := pS_core (fr := fr) (rt := rt) hI b false m ids hk
    simp only [pS, hE.1.2.2, single_nil hcore, List.isEmpty_nil, if_true, List.nil_append] at h ⊢
    have hbody : ∀ {σ σ' t r'}, SR K sh σ σ' → Exec C' (single (pS fr inl st rt m false b ids)).1 σ' t r' →
        ∃ r, Exec C b σ t r ∧ OutR rt false K (SR K sh) (SR K sh) r' r := fun {σ σ' t r'} hs h =>
      single_sim hcore
        (fun R L w e => skipTo_app (hidB.2 L (hx.L _ _ _ e)).1 (hidB.2 L (hx.L _ _ _ e)).2)
        (okS_declared hk) hs (fun h => simS hC hI hId hR b false false hk
          (fun R L w e => by simpa [bodyOk] using hB R L w e) hx hnb hb hs h) h
    have fin : ∀ {r' r}, OutR rt false K (SR K sh) (SR K sh) r' r → OutR rt last K
        (NormR Old Dst D rt K m (.doloop b c) (pS fr inl st rt m false b ids).ids [] sh) (BrkR K [] sh) r' r :=
      fun h => h.imp (by simp) (fun σ σ' h =>
        norm_stay (sh₁ := []) rfl (hx.mono hidB.1) nil_junk (fun _ => rfl) h)
        (fun σ σ' h => ⟨[], nil_junk, h, fun _ => rfl⟩)
    cases h.single with
    | cut => exact ⟨_, .cut _ _, .halt _⟩
    | doN h₁ h₂ =>
      obtain ⟨r, k₁, k₂⟩ := hbody hs h₁
      cases k₂ with
      | norm k₂ =>
        obtain ⟨r, k₃, k₄⟩ := loop_sim (rt := rt) hC hx.amb.wf hE.2 hbody h₂ rfl k₂
        exact ⟨r, .doN k₁ k₃, fin k₄⟩
      | @last _ _ _ _ hl => exact absurd hl (by simp)
    | doB h₁ =>
      obtain ⟨r, k₁, k₂⟩ := hbody hs h₁
      cases k₂ with
      | brk k₂ => exact ⟨_, .doB k₁, fin (.norm k₂)⟩
    | doA h₁ hn' hk' =>
      obtain ⟨r, k₁, k₂⟩ := hbody hs h₁
      refine ⟨r, .doA k₁ ?_ ?_, fin k₂⟩
      · intro σ he; subst he; cases k₂; exact hn' _ rfl
      · intro σ he; subst he; cases k₂; exact hk' _ rfl
  | .for i c inc b, inL, last, m, ids, sh, bd, hk, hB, hx, hn, hb, σ, σ', t, r', hs, h => by
    simp only [okS, Bool.and_eq_true] at hk
    have hni : NmS Old D K bd i := hn.sub (fun e h => by simp [exprsS, h])
      (fun e h => by simp [freeS, h]) (fun e h => by simp [Stmt.decls, h])
    have hnc : NmE Old D K (i.declared ++ bd) c := ⟨hn.uses c (by simp [exprsS]),
      hn.fns c (by simp [exprsS]), fun y hy => hn.free y (by simp [freeS, hy])⟩
    have hnn : NmE Old D K (i.declared ++ bd) inc := ⟨hn.uses inc (by simp [exprsS]),
      hn.fns inc (by simp [exprsS]), fun y hy => hn.free y (by simp [freeS, hy])⟩
    have hnb : NmS Old D K (i.declared ++ bd) b := ⟨fun e h => hn.uses e (by simp [exprsS, h]),
      fun e h => hn.fns e (by simp [exprsS, h]), fun y hy => hn.free y (by simp [freeS, hy]),
      fun y hy => hn.decls y (by simp [Stmt.decls, hy])⟩
    obtain ⟨i', hcore, hrep, hnl, hsim⟩ :=
      simple_sim (fr := fr) (last := false) hC hI hId hk.1 hx hni hb hs
    have hidI := (pS_id (fr := fr) (rt := rt) hId i true false m ids (init_ok (lab := lab) hk.1)).1
    -- the loop does not insert anything before itself
    have hE := pE_quiet (μ := hide m i.declared) (V := fun _ => True) (W := fun _ => True)
      (J := fun _ _ => True) (m := hide m i.declared)
      (fun f ids T h => (hI f ids T.1 T.2 h).1) (fun x _ => rfl) c false
      (pS fr inl st rt m false i ids).ids (.inl rfl) ⟨fun _ _ => trivial, fun _ _ => trivial⟩
    have hG := pE_quiet (μ := hide m i.declared) (V := fun _ => True) (W := fun _ => True)
      (J := fun _ _ => True) (m := hide m i.declared)
      (fun f ids T h => (hI f ids T.1 T.2 h).1) (fun x _ => rfl) inc false
      (pS fr inl st rt m false i ids).ids (.inl rfl) ⟨fun _ _ => trivial, fun _ _ => trivial⟩
    have hidB := pS_id (fr := fr) (rt := rt) hId b false false (hide m i.declared)
      (pS fr inl st rt m false i ids).ids hk.2
    have hcoreB := pS_core (fr := fr) (rt := rt) hI b false (hide m i.declared)
      (pS fr inl st rt m false i ids).ids hk.2
    simp only [pS, hrep, hcore, hE.1.2.2, hG.1.2.2, single_nil hcoreB, Bool.false_eq_true, if_false] at h ⊢
    have cutFor : ∀ {t h}, Exec C i σ t (.halt h) → Exec C (.for i c inc b) σ t (.halt h) := fun h' => by
      have := Exec.ofL (C := C) (ss := [i, .loop c (.block [b, .expr inc])])
        (.stop h' (by simp) (by simp)) (by simp)
      exact .for this
    rcases h.append with ⟨t₁, t₂, σ₁', h₁, h₂, rfl⟩ | ⟨h₁, h₂⟩ | ⟨l, t₁, σ₁', h₁, _⟩
    · rcases hsim h₁ with ⟨sh₁, σ₁, σ₂', he, k₁, hx₁, k₃, k₄, k₅, k₆⟩ | ⟨h, he, _⟩
      · cases he
        cases h₂.single with
        | cut => exact ⟨_, by simpa using cutFor k₅, .halt _⟩
        | «for» h =>
          cases h with
          | cut => exact ⟨_, by simpa using cutFor k₅, .halt _⟩
          | block hb' =>
            have key : ∀ {t₂ r'}, ExecL C' [i', .loop (pE inl st (hide m i.declared) false c
                (pS fr inl st rt m false i ids).ids).e (.block [(single (pS fr inl st rt
                (hide m i.declared) false b (pS fr inl st rt m false i ids).ids)).1,
                .expr (pE inl st (hide m i.declared) false inc
                (pS fr inl st rt m false i ids).ids).e])] σ₁' t₂ r' →
                ∃ r, ExecL C [i, .loop c (.block [b, .expr inc])] σ (t₁ ++ t₂) r ∧
                  OutR rt false K (fun σ σ' => ∃ dsh, SR K (dsh ++ (sh₁ ++ sh)) σ σ')
                    (fun σ σ' => ∃ dsh, SR K (dsh ++ (sh₁ ++ sh)) σ σ') r' r := by
              intro t₂ r' h
              cases h with
              | @cons _ _ _ u₁ σ₃' u₂ _ h hr =>
                obtain ⟨dsh, σ₃, j₁, j₂, j₃, j₄, _⟩ := k₆ _ _ h
                have hbd : ∀ x ∈ i.declared ++ bd, x ∈ olds (dsh ++ (sh₁ ++ sh)) := by
                  intro x hx'
                  simp only [olds, List.filterMap_append, List.mem_append] at hx' ⊢
                  rcases hx' with hx' | hx'
                  · exact .inl (j₄ x hx')
                  · exact .inr (.inr (hb x hx'))
                have hE := pE_quiet (J := Known (dsh ++ (sh₁ ++ sh))) (m := hide m i.declared)
                  (fun f ids T h => (hI f ids T.1 T.2 h).1) (fun x hv => j₂.m x hv.1) c false
                  (pS fr inl st rt m false i ids).ids (.inl rfl) (hnc.known hbd j₂.amb.dec)
                have hG := pE_quiet (J := Known (dsh ++ (sh₁ ++ sh))) (m := hide m i.declared)
                  (fun f ids T h => (hI f ids T.1 T.2 h).1) (fun x hv => j₂.m x hv.1) inc false
                  (pS fr inl st rt m false i ids).ids (.inl rfl) (hnn.known hbd j₂.amb.dec)
                obtain ⟨r, i₁, i₂⟩ := loop_sim (rt := rt) hC j₂.amb.wf hE.2
                  (b := .block [b, .expr inc]) (fun {σ σ' t r'} hs h =>
                    seq_sim (b := b) hC j₂.amb.wf hG.2 (fun {σ σ' t r'} hs h => single_sim hcoreB
                      (fun R L w e => skipTo_app (hidB.2 L (j₂.L _ _ _ e)).1 (hidB.2 L (j₂.L _ _ _ e)).2)
                      (okS_declared hk.2) hs (fun h => simS hC hI hId hR b false false hk.2
                        (fun R L w e => by have := hB R L w e; simp [bodyOk] at this; exact this.2)
                        j₂ hnb hbd hs h) h)
                      (fun R L w e => single_first hcoreB (hidB.2 L (j₂.L _ _ _ e)).2) hs h) hr.single rfl j₃
                refine ⟨r, ?_, i₂.imp id (fun σ σ' h => ⟨dsh, h⟩) (fun σ σ' h => ⟨dsh, h⟩)⟩
                rw [← List.append_assoc]
                exact .cons j₁ i₁.toL
              | stop h hn' hj =>
                have := k₆ _ _ h
                cases r' with
                | norm σ₃' => exact absurd rfl (hn' _)
                | halt h' => exact ⟨_, .stop this (by simp) (by simp), .halt _⟩
                | _ => exact this.elim
              | jump h hj hr => simp [skipTo] at hj
            have h := hb'.once fun {t l σ₁} hj => skipTo_cons hnl rfl
            obtain ⟨r, i₁, i₂⟩ := key h
            refine ⟨_, .for (Exec.ofL i₁ i₂.not_jump),
              (i₂.exit (n := σ.l.length) (N₁ := SR K (sh₁ ++ sh)) (B₁ := SR K (sh₁ ++ sh)) (by
                have := k₄.l.length.2; omega) ?_ ?_).imp (by simp)
              (fun σ σ' h => norm_stay rfl (hx₁.mono hidB.1) k₁ k₃ h) (fun σ σ' h => ⟨sh₁, k₁, h, k₃⟩)⟩
            · rintro σ₃ σ₃' ⟨dsh, h⟩
              refine ⟨h.g, ?_⟩
              have := FR.bot h.l k₄.l
              rw [k₄.l.length.1, k₁.olds, ← hs.l.length.1] at this
              exact this
            · rintro σ₃ σ₃' ⟨dsh, h⟩
              refine ⟨h.g, ?_⟩
              have := FR.bot h.l k₄.l
              rw [k₄.l.length.1, k₁.olds, ← hs.l.length.1] at this
              exact this
      · cases he
    · rcases hsim h₁ with ⟨sh₁, σ₁, σ₂', rfl, _⟩ | ⟨h, rfl, k₁⟩
      · exact absurd rfl (h₂ _)
      · exact ⟨_, cutFor k₁, .halt _⟩
    · rcases hsim h₁ with ⟨sh₁, σ₁, σ₂', he, _⟩ | ⟨h, he, _⟩ <;> cases he
  | .block ss, inL, last, m, ids, sh, bd, hk, hB, hx, hn, hb, σ, σ', t, r', hs, h => by
    simp only [okS] at hk
    simp only [pS, List.nil_append] at h ⊢
    have hid := pSs_id (fr := fr) (rt := rt) hId ss false m ids hk
    have hnl : NmL Old D K bd ss := ⟨fun e h => hn.uses e (by simpa [exprsS] using h),
      fun e h => hn.fns e (by simpa [exprsS] using h), fun y hy => hn.free y (by simpa [freeS] using hy),
      fun y hy => hn.decls y (by simpa [Stmt.decls] using hy)⟩
    cases h.single with
    | cut => exact ⟨_, .cut _ _, .halt _⟩
    | block hb' =>
      have key : ∀ {t r'}, ExecL C' (pSs fr inl st rt m false ss ids).1 σ' t r' → _ := fun h =>
        (simSs hC hI hId hR ss false hk (fun R L w e => by simpa [bodyOk] using hB R L w e) hx hnl hb hs h).1
      have h := hb'.once fun {t l σ₁} hj => by
        obtain ⟨r, _, h₂⟩ := key hj
        cases h₂ with
        | jump hr => exact hid.2 _ (hx.L _ _ _ hr)
      obtain ⟨r, h₁, h₂⟩ := key h
      refine ⟨_, Exec.ofL h₁ h₂.not_jump, (h₂.exit (n := σ.l.length) (N₁ := SR K sh) (B₁ := SR K sh) (by
        have := hs.l.length.2; omega) ?_ ?_).imp (by simp)
        (fun σ σ' h => norm_stay (sh₁ := []) rfl (hx.mono hid.1) nil_junk (fun _ => rfl) h)
        (fun σ σ' h => ⟨[], nil_junk, h, fun _ => rfl⟩)⟩
      · rintro σ₁ σ₁' ⟨sh₂, h⟩
        exact ⟨h.g, h.l.bot hs.l⟩
      · rintro σ₁ σ₁' ⟨sh₂, h⟩
        exact ⟨h.g, h.l.bot hs.l⟩
  | .ret none, inL, last, m, ids, sh, bd, hk, hB, hx, hn, hb, σ, σ', t, r', hs, h => by
    simp only [pS, List.nil_append] at h ⊢
    cases hrt : rt with
    | none =>
      simp only [lower, hrt] at h
      cases h.single with
      | cut => exact ⟨_, .cut _ _, .halt _⟩
      | retN => exact ⟨_, .retN _, .ret rfl hs.g⟩
    | some q =>
      obtain ⟨R, L, w⟩ := q
      have hw : w = true := by simpa [bodyOk] using hB R L w hrt
      subst hw
      obtain ⟨X, hX⟩ := tail_frame hs
      have haf : K = after rt K none := by simp [after, hrt]
      simp only [lower, hrt] at h
      split at h
      · cases h
        rename_i hl
        refine ⟨_, .retN _, ?_⟩
        rw [hX, ← hrt]
        have := OutR.last (rt := rt) (last := last) (K := K)
          (N := NormR Old Dst D rt K m (.ret none) ids [] sh) (B := BrkR K [] sh) (σ := σ)
          (v := none) (X := X) (by simp [hrt]) hl
        rw [← haf] at this
        exact this
      · cases h.single with
        | cut => exact ⟨_, .cut _ _, .halt _⟩
        | goto =>
          refine ⟨_, .retN _, ?_⟩
          rw [hX, ← hrt]
          have := OutR.jump (rt := rt) (last := last) (K := K)
            (N := NormR Old Dst D rt K m (.ret none) ids [] sh) (B := BrkR K [] sh) (σ := σ)
            (v := none) (X := X) hrt
          rw [← haf] at this
          exact this
  | .ret (some e), inL, last, m, ids, sh, bd, hk, hB, hx, hn, hb, σ, σ', t, r', hs, h => by
    have hI' := fun f ids T ids₁ h => let h := hI f ids T ids₁ h; And.intro h.1 h.2.1
    simp only [okS] at hk
    have hrep := pE_rep (m := m) hI' e true ids (.inr hk)
    have hne : NmE Old D K bd e := hn.expr (by simp [exprsS]) (by intro x hx; simp [freeS, hx])
    simp only [pS, hrep, List.isEmpty_nil, if_true] at h ⊢
    have hH : ∀ {t r'}, ExecL C' (pE inl st m true e ids).pre σ' t r' → _ := fun h =>
      hoistE hC hI e true (.inr hk) hx.amb hx.m (hne.known hb hx.amb.dec) hs h
    rcases Hoisted.then hH h with ⟨t₁, t₂, σ₁', h₁, h₂, rfl⟩ | ⟨h, rfl, h₁⟩
    · obtain ⟨sh₁, σ₁, k₁, k₂, k₃, k₄, k₅, k₆, k₇⟩ := h₁.eval hC
      cases hrt : rt with
      | none =>
        simp only [lower, hrt] at h₂
        cases h₂.single with
        | cut => exact ⟨_, by simpa using Exec.retH (.halt k₅), .halt _⟩
        | ret he =>
          obtain ⟨σ₂, j₁, j₂⟩ := k₆ _ _ _ he
          exact ⟨_, .ret j₁, .ret rfl j₂.g⟩
        | retH he => exact ⟨_, .retH (k₇ _ _ he), .halt _⟩
      | some q =>
        obtain ⟨R, L, w⟩ := q
        have hw : w = false := by simpa [bodyOk] using hB R L w hrt
        subst hw
        simp only [lower, hrt] at h₂
        rw [← hrt]
        -- an assignment to the returned value
        have asg : ∀ {t₂ r}, Exec C' (.expr (.assign R (pE inl st m true e ids).e)) σ₁' t₂ r →
            (∃ v σ₂ X, r = .norm ⟨σ₂.g, X ++ after rt K v⟩ ∧ Exec C (.ret (some e)) σ (t₁ ++ t₂) (.ret v σ₂)) ∨
            ∃ h, r = .halt h ∧ Exec C (.ret (some e)) σ (t₁ ++ t₂) (.halt h) := by
          intro t₂ r h
          cases h with
          | cut => exact .inr ⟨_, rfl, by simpa using Exec.retH (.halt k₅)⟩
          | expr he =>
            obtain ⟨σ₂', he', rfl⟩ := he.assign_val
            obtain ⟨σ₂, j₁, j₂⟩ := k₆ _ _ _ he'
            obtain ⟨X, hX⟩ := set_res k₂.wf hR hrt j₂ _
            exact .inl ⟨_, σ₂, X, by rw [hX], .ret j₁⟩
          | exprH he => exact .inr ⟨_, rfl, .retH (k₇ _ _ he.assign_halt)⟩
        split at h₂
        · rename_i hl
          rcases asg h₂.single with ⟨v, σ₂, X, rfl, j⟩ | ⟨h, rfl, j⟩
          · exact ⟨_, j, .last (by simp [hrt]) hl⟩
          · exact ⟨_, j, .halt _⟩
        · cases h₂.single with
          | cut => exact ⟨_, by simpa using Exec.retH (.halt k₅), .halt _⟩
          | block hb' =>
            have h := hb'.once fun {t l σ₁} _ => rfl
            cases h with
            | @cons _ _ _ u₁ _ u₂ _ hh hr =>
              rcases asg hh with ⟨v, σ₂, X, he, j⟩ | ⟨h, he, j⟩
              · cases he
                cases hr.single with
                | cut =>
                  exact ⟨_, by simpa using j.ret_cut, .halt _⟩
                | goto =>
                  obtain ⟨X₁, hX⟩ := bot_ge (X := X) (T := after rt K v) (n := σ₁'.l.length)
                    (by rw [length_after]; have := k₄.l.length.2; omega)
                  refine ⟨_, by simpa using j, ?_⟩
                  simp only [Out.bot]
                  rw [hX]
                  exact .jump hrt
              · cases he
            | stop h hn' _ =>
              rcases asg h with ⟨v, σ₂, X, rfl, j⟩ | ⟨h, rfl, j⟩
              · exact absurd rfl (hn' _)
              · exact ⟨_, j, .halt _⟩
            | jump h hj hr => simp [skipTo] at hj
    · exact ⟨_, .retH h₁, .halt _⟩
  | .brk, inL, last, m, ids, sh, bd, hk, hB, hx, hn, hb, σ, σ', t, r', hs, h => by
    simp only [pS, List.nil_append] at h ⊢
    cases h.single with
    | cut => exact ⟨_, .cut _ _, .halt _⟩
    | brk => exact ⟨_, .brk _, .brk ⟨[], nil_junk, hs, fun _ => rfl⟩⟩
  | .goto _, _, _, _, _, _, _, hk, _, _, _, _, _, _, _, _, _, _ => by simp [okS] at hk
  | .label _ _, _, _, _, _, _, _, hk, _, _, _, _, _, _, _, _, _, _ => by simp [okS] at hk

theorem simSs (hC : ∀ f vs g t r, C' f vs g t r → C f vs g t r)
    (hI : InlOk Old Dst cnd vd lab C C' (inl st)) (hId : InlId (inl st)) (hR : RtOk Old K rt) :
    ∀ (ss : List Stmt) (top : Bool) {m : Name → Name} {ids : Ids} {sh : Shape} {bd : List Name},
    okSs cnd vd lab ss = true → (∀ R L w, rt = some (R, L, w) → bodyOks w ss = true) →
    Ctx Old Dst D rt K m ids sh → NmL Old D K bd ss → (∀ x ∈ bd, x ∈ olds sh) →
    ∀ {σ σ' : St} {t : List Ev} {r' : Out}, SR K sh σ σ' →
    ExecL C' (pSs fr inl st rt m top ss ids).1 σ' t r' →
    (∃ r, ExecL C ss σ t r ∧ OutR rt top K (fun σ σ' => ∃ sh₂, SR K (sh₂ ++ sh) σ σ')
      (fun σ σ' => ∃ sh₂, SR K (sh₂ ++ sh) σ σ') r' r) ∧
    (top = true → (∃ l σ₁, r' = .jump l σ₁) → needLab ss = true)
  | [], top, m, ids, sh, bd, _, _, hx, _, _, σ, σ', t, r', hs, h => by
    simp only [pSs] at h
    cases h
    exact ⟨⟨_, .nil _, .norm ⟨[], hs⟩⟩, fun _ ⟨_, _, he⟩ => by cases he⟩
  | s :: ss, top, m, ids, sh, bd, hk, hB, hx, hn, hb, σ, σ', t, r', hs, h => by
    simp only [okSs, Bool.and_eq_true] at hk
    simp only [pSs] at h
    rw [← List.append_assoc] at h
    have hns : NmS Old D K bd s := ⟨fun e h => hn.uses e (by simp [exprsSs, h]),
      fun e h => hn.fns e (by simp [exprsSs, h]), fun y hy => hn.free y (by simp [freeSs, hy]),
      fun y hy => hn.decls y (by simp [declsL, hy])⟩
    have hnl : NmL Old D K (s.declared ++ bd) ss := ⟨fun e h => hn.uses e (by simp [exprsSs, h]),
      fun e h => hn.fns e (by simp [exprsSs, h]), fun y hy => hn.free y (by simp [freeSs, hy]),
      fun y hy => hn.decls y (by simp [declsL, hy])⟩
    have key : ∀ {t r'}, ExecL C' ((pS fr inl st rt m (top && ss.isEmpty) s ids).pre ++
        (pS fr inl st rt m (top && ss.isEmpty) s ids).core) σ' t r' → _ := fun h =>
      simS hC hI hId hR s true (top && ss.isEmpty) hk.1
        (fun R L w e => by have := hB R L w e; simp [bodyOks] at this; exact this.1) hx hns hb hs h
    have hidA := (pS_id (fr := fr) (rt := rt) hId s true (top && ss.isEmpty) m ids hk.1).1
    have hidB := (pSs_id (fr := fr) (rt := rt) hId ss top (hide m s.declared)
      (pS fr inl st rt m (top && ss.isEmpty) s ids).ids hk.2).2
    rcases h.append with ⟨t₁, t₂, σ₁', h₁, h₂, rfl⟩ | ⟨h₁, h₂⟩ | ⟨l, t₁, σ₁', h₁, hl⟩
    · obtain ⟨r, k₁, k₂⟩ := key h₁
      cases k₂ with
      | norm k₂ =>
        obtain ⟨sh₂, j₁, j₂, j₃, _⟩ := k₂
        obtain ⟨⟨r, i₁, i₂⟩, i₃⟩ := simSs hC hI hId hR ss top (bd := s.declared ++ bd) hk.2
          (fun R L w e => by have := hB R L w e; simp [bodyOks] at this; exact this.2) j₁ hnl (by
            intro x hx'
            simp only [olds, List.filterMap_append, List.mem_append] at hx' ⊢
            exact hx'.imp (j₃ x) (hb x)) j₂ h₂
        exact ⟨⟨r, .cons k₁ i₁, i₂.imp id
          (fun σ σ' ⟨sh₃, h⟩ => ⟨sh₃ ++ sh₂, by simpa using h⟩)
          (fun σ σ' ⟨sh₃, h⟩ => ⟨sh₃ ++ sh₂, by simpa using h⟩)⟩, fun ht hj => needLab_tail (i₃ ht hj)⟩
      | last hr hl =>
        simp only [Bool.and_eq_true, List.isEmpty_iff] at hl
        obtain ⟨hl, rfl⟩ := hl
        simp only [pSs] at h₂
        cases h₂
        rw [List.append_nil]
        exact ⟨⟨_, .stop k₁ (by simp) (by simp), .last hr hl⟩, fun _ ⟨_, _, he⟩ => by cases he⟩
    · obtain ⟨r, k₁, k₂⟩ := key h₁
      refine ⟨⟨r, .stop k₁ ?_ fun l σ he => absurd he (k₂.not_jump l σ), ?_⟩, fun ht ⟨l, σ₁, he⟩ => ?_⟩
      · intro σ he; subst he; cases k₂; exact h₂ _ rfl
      · exact k₂.imp (by intro h; simp at h; exact h.1)
          (fun σ σ' ⟨sh₂, h⟩ => ⟨sh₂, h.2.1⟩) (fun σ σ' ⟨sh₂, h⟩ => ⟨sh₂, h.2.1⟩)
      · subst he
        cases k₂ with
        | jump hr =>
          refine needLab_ret ?_ fun o ho hss => ?_
          · cases hh : s.hasRet with
            | true => rfl
            | false => exact absurd rfl (k₁.noRet hh _ _)
          · subst ho hss ht
            exact ret_last hC hI hk.1 (by simp [hr]) hx hns hb hs h₁ _ _ rfl
    · obtain ⟨r, k₁, k₂⟩ := key h₁
      cases k₂ with
      | jump hr => exact absurd (hidB _ (hidA _ (hx.L _ _ _ hr))) hl

end

end Tsar.Inline
