/-
Properties of handlers of pragmas (C70).
-/
import Verif.Directives.Pragma
import Verif.Directives.VisitorProps

namespace Tsar.Directives

/-! ### A position after a diagnostic -/

/-- An invariant of the visitor: there is the end of the line after each position. -/
def VisitInv (toks : List Token) (pos₀ : Nat) : Conf → Prop
  | .run s => HasEod (toks.drop s.pos) ∧ pos₀ ≤ s.pos ∧
      ∀ b ∈ s.bts, HasEod (toks.drop b) ∧ pos₀ ≤ b
  | .fail s => (s.levels = [] → HasEod (toks.drop s.pos)) ∧ pos₀ ≤ s.pos ∧
      ∀ b ∈ s.bts, HasEod (toks.drop b) ∧ pos₀ ≤ b
  | .accept s => HasEod (toks.drop s.pos) ∧ pos₀ ≤ s.pos
  | .reject s => HasEod (toks.drop s.pos) ∧ pos₀ ≤ s.pos
  | .ub => True

theorem popOneOf_bts {P : List EK} {i i' : Nat} {ls ls' : List Level} {bts bts' : List Nat}
    (h : popOneOf P i ls bts = some (i', ls', bts')) : ∀ b ∈ bts', b ∈ bts := by
  induction ls generalizing i bts with
  | nil => simp only [popOneOf, Option.some.injEq, Prod.mk.injEq] at h; simp [h]
  | cons L ls ih =>
    simp only [popOneOf] at h
    split at h
    · cases ha : findAnchor P L.ptr with
      | none => simp [ha] at h
      | some a =>
        cases bts with
        | nil => simp [ha] at h
        | cons x bts =>
          simp only [ha] at h
          intro b hb
          exact List.mem_cons_of_mem _ (ih h b hb)
    · simp only [Option.some.injEq, Prod.mk.injEq] at h; simp [h]

theorem visitInv_step {P : List EK} {toks : List Token} {pos₀ : Nat} {c : Conf}
    (h : VisitInv toks pos₀ c) : VisitInv toks pos₀ (step P toks c) := by
  cases c with
  | accept s => exact h
  | reject s => exact h
  | ub => exact h
  | run s =>
    obtain ⟨i, pos, tok, levels, bts, repl⟩ := s
    obtain ⟨he, hp, hb⟩ := h
    simp only at he hp hb
    simp only [step, stepRun]
    split
    · split
      · split
        · exact ⟨he, hp⟩
        · trivial
      · trivial
    · refine ⟨he, hp, ?_⟩
      intro b hm
      rcases List.mem_cons.1 hm with rfl | hm
      · exact ⟨he, hp⟩
      · exact hb b hm
    · unfold stepAnchor
      simp only
      split
      · split
        · refine ⟨he, hp, fun b hm => ?_⟩
          rcases List.mem_cons.1 hm with rfl | hm
          · exact ⟨he, hp⟩
          · exact hb b (List.mem_cons_of_mem _ hm)
        · refine ⟨he, hp, fun b hm => ?_⟩
          rcases List.mem_cons.1 hm with rfl | hm
          · exact ⟨he, hp⟩
          · exact hb b (List.mem_cons_of_mem _ hm)
        · split
          · rename_i hpop
            exact ⟨he, hp, fun b hm => hb b (List.mem_cons_of_mem _ (popOneOf_bts hpop b hm))⟩
          · trivial
        · trivial
      · trivial
    · obtain ⟨tk, ts', hts⟩ := hasEod_ne_nil he
      obtain ⟨hget, hdrop⟩ := drop_pos hts
      have hlex : lex toks ⟨i, pos, tok, levels, bts, repl⟩ =
          ⟨i, pos + 1, tk, levels, bts, repl⟩ := by simp [lex, hget]
      rw [hlex]
      simp only
      have hnext : tk.kind ≠ .eod → HasEod (toks.drop (pos + 1)) := fun hk => by
        rw [hdrop]; rw [hts] at he; exact hasEod_cons he hk
      rename_i k _
      split
      · rename_i hk
        have hne : tk.kind ≠ .eod := by rw [hk]; exact getTokenKind_ne_eod k
        split
        · split
          · exact ⟨hnext hne, by simp only; omega, hb⟩
          · trivial
        · exact ⟨hnext hne, by simp only; omega, hb⟩
      · split
        · split
          · split
            · exact ⟨by simpa using he, by simpa using hp⟩
            · trivial
          · trivial
        · rename_i _ hn
          refine ⟨fun hl => hnext fun hk => hn ⟨hl, hk⟩, by simp only; omega, hb⟩
  | fail s =>
    obtain ⟨i, pos, tok, levels, bts, repl⟩ := s
    obtain ⟨he, hp, hb⟩ := h
    simp only at he hp hb
    simp only [step, stepFail]
    split
    · exact ⟨he rfl, hp⟩
    · rename_i L ls b bts'
      have h1 := hb b (List.mem_cons_self ..)
      have h2 : ∀ x ∈ bts', HasEod (toks.drop x) ∧ pos₀ ≤ x := fun x hx =>
        hb x (List.mem_cons_of_mem _ hx)
      split
      · split
        · exact ⟨fun _ => h1.1, h1.2, h2⟩
        · exact ⟨h1.1, h1.2, hb⟩
        · trivial
      · split
        · exact ⟨fun _ => h1.1, h1.2, h2⟩
        · trivial
      · split
        · exact ⟨h1.1, h1.2, h2⟩
        · trivial
      · split
        · exact ⟨h1.1, h1.2, h2⟩
        · trivial
      · split
        · split
          · exact ⟨h1.1, h1.2, h2⟩
          · exact ⟨fun _ => h1.1, h1.2, h2⟩
        · trivial
      · trivial
    · trivial

theorem visitInv_steps {P : List EK} {toks : List Token} {pos₀ : Nat} (n : Nat) :
    ∀ {c : Conf}, VisitInv toks pos₀ c → VisitInv toks pos₀ (steps P toks n c) := by
  induction n with
  | zero => exact fun h => h
  | succ n ih => exact fun h => ih (visitInv_step h)

/-- After a clause the end of the line is not consumed yet. -/
theorem visit_pos {P : List EK} {toks : List Token} {pos : Nat} {tok : Token} {repl : List Token}
    (he : HasEod (toks.drop pos)) (n : Nat) :
    VisitInv toks pos (visitBody P toks pos tok repl n) :=
  visitInv_steps n ⟨he, Nat.le_refl _, by simp [he]⟩

/-! ### Handlers -/

theorem clause_at {R : Records} {i : Nat} {c : ClauseRec} (h : R.clauses[i]? = some c) :
    getClauseName R (i + 1) = some c.name ∧
      getClauseParent R (i + 1) = some (dirEnum R c.parent) := by
  obtain ⟨hl, rfl⟩ := List.getElem?_eq_some_iff.1 h
  simp [getClauseName, getClauseParent, clauseNames, clauseParents, hl]

theorem clause_of_name {R : Records} {id : Nat} {n : String} (h : getClauseName R id = some n) :
    ∃ i c, id = i + 1 ∧ R.clauses[i]? = some c ∧ c.name = n := by
  obtain ⟨h0, h⟩ := (getClauseName_iff R id n).1 h
  obtain ⟨i, rfl⟩ : ∃ k, id = k + 1 := ⟨id - 1, by omega⟩
  simp only [clauseNames, List.getElem?_cons_succ, List.getElem?_map,
    Option.map_eq_some_iff] at h
  obtain ⟨c, hc, hn⟩ := h
  exact ⟨i, c, rfl, hc, hn⟩

theorem directive_at {R : Records} {i : Nat} {d : DirRec} (h : R.directives[i]? = some d) :
    getDirName R (i + 1) = some d.name ∧ getDirParent R (i + 1) = some (nsEnum R d.parent) ∧
      hasBody R (i + 1) = some d.hasBody := by
  obtain ⟨hl, rfl⟩ := List.getElem?_eq_some_iff.1 h
  simp [getDirName, getDirParent, hasBody, dirNames, dirParents, dirBodies, hl]

theorem directive_of_name {R : Records} {id : Nat} {n : String} (h : getDirName R id = some n) :
    ∃ i d, id = i + 1 ∧ R.directives[i]? = some d ∧ d.name = n := by
  obtain ⟨h0, h⟩ := (getDirName_iff R id n).1 h
  obtain ⟨i, rfl⟩ : ∃ k, id = k + 1 := ⟨id - 1, by omega⟩
  simp only [dirNames, List.getElem?_cons_succ, List.getElem?_map,
    Option.map_eq_some_iff] at h
  obtain ⟨c, hc, hn⟩ := h
  exact ⟨i, c, rfl, hc, hn⟩

theorem findHandler_eq {hs : List (String × Nat)} {name : String} {id : Nat}
    (hm : (name, id) ∈ hs) (hu : ∀ j, (name, j) ∈ hs → j = id) :
    findHandler hs name = some id := by
  unfold findHandler
  cases hf : hs.find? (·.1 == name) with
  | none => exact absurd (List.find?_eq_none.1 hf _ hm) (by simp)
  | some h =>
    have h1 := List.find?_some hf
    have h2 := List.mem_of_find?_eq_some hf
    simp only [beq_iff_eq] at h1
    obtain ⟨a, b⟩ := h
    simp only at h1
    subst h1
    simp [hu b h2]

theorem mem_clauseHandlers {R : Records} {d : Nat} {n : String} {id : Nat} :
    (n, id) ∈ clauseHandlers R d ↔ getClauseName R id = some n ∧ getClauseParent R id = some d := by
  simp only [clauseHandlers, List.mem_filterMap, Prod.exists, Option.ite_none_right_eq_some,
    Option.some.injEq, Prod.mk.injEq, List.mk_mem_zipIdx_iff_le_and_getElem?_sub]
  constructor
  · rintro ⟨c, j, ⟨h1, hj⟩, hd, rfl, rfl⟩
    obtain ⟨i, rfl⟩ : ∃ k, j = k + 1 := ⟨j - 1, by omega⟩
    have := clause_at (R := R) (i := i) (c := c) (by simpa using hj)
    rw [hd] at this
    exact this
  · rintro ⟨h1, h2⟩
    obtain ⟨i, c, rfl, hc, rfl⟩ := clause_of_name h1
    have := (clause_at hc).2
    rw [h2] at this
    exact ⟨c, i + 1, ⟨by omega, by simpa using hc⟩, (Option.some.inj this).symm, rfl, rfl⟩

theorem mem_dirHandlers {R : Records} {ns : Nat} {n : String} {id : Nat} :
    (n, id) ∈ dirHandlers R ns ↔
      getDirName R id = some n ∧ getDirParent R id = some ns ∧ ns ≠ nsEnum R "Dvm" := by
  simp only [dirHandlers, List.mem_filterMap, Prod.exists, Option.ite_none_right_eq_some,
    Option.some.injEq, Prod.mk.injEq, List.mk_mem_zipIdx_iff_le_and_getElem?_sub]
  constructor
  · rintro ⟨c, j, ⟨h1, hj⟩, ⟨hd, hv⟩, rfl, rfl⟩
    obtain ⟨i, rfl⟩ : ∃ k, j = k + 1 := ⟨j - 1, by omega⟩
    have := directive_at (R := R) (i := i) (d := c) (by simpa using hj)
    rw [hd] at this hv
    exact ⟨this.1, this.2.1, hv⟩
  · rintro ⟨h1, h2, h3⟩
    obtain ⟨i, c, rfl, hc, rfl⟩ := directive_of_name h1
    have := (directive_at hc).2.1
    rw [h2] at this
    obtain rfl := Option.some.inj this
    exact ⟨c, i + 1, ⟨by omega, by simpa using hc⟩, ⟨rfl, h3⟩, rfl, rfl⟩

theorem findHandler_clause {R : Records} (hR : WellNamed R) {d id : Nat} {n : String}
    (h1 : getClauseName R id = some n) (h2 : getClauseParent R id = some d) :
    findHandler (clauseHandlers R d) n = some id :=
  findHandler_eq (mem_clauseHandlers.2 ⟨h1, h2⟩) fun j hj =>
    hR.clause j id n d (mem_clauseHandlers.1 hj).1 h1 (mem_clauseHandlers.1 hj).2 h2

theorem findHandler_dir {R : Records} (hR : WellNamed R) {ns id : Nat} {n : String}
    (h1 : getDirName R id = some n) (h2 : getDirParent R id = some ns)
    (h3 : ns ≠ nsEnum R "Dvm") : findHandler (dirHandlers R ns) n = some id :=
  findHandler_eq (mem_dirHandlers.2 ⟨h1, h2, h3⟩) fun j hj =>
    hR.dir j id n ns (mem_dirHandlers.1 hj).1 h1 (mem_dirHandlers.1 hj).2.1 h2

theorem findHandler_dvm {R : Records} {n : String} :
    findHandler (dirHandlers R (nsEnum R "Dvm")) n = none := by
  have : dirHandlers R (nsEnum R "Dvm") = [] := by
    rw [List.eq_nil_iff_forall_not_mem]
    rintro ⟨n, id⟩ h
    exact (mem_dirHandlers.1 h).2.2 rfl
  simp [findHandler, this]

/-! ### A sequence of clauses -/

/-- Prototypes of all clauses are supported and deterministic. -/
def GoodPrototypes (R : Records) : Prop := ∀ c ∈ R.clauses,
  supported .seq false c.exprs = true ∧ deterministic .seq c.exprs nameOrEod = true

theorem nameOrEod_of_name {tk : Token} {n : String} (h : tokName tk = some n) :
    nameOrEod tk.kind = true := by
  unfold tokName at h
  split at h <;> simp_all [nameOrEod]

theorem tokName_ne_eod {tk : Token} {n : String} (h : tokName tk = some n) : tk.kind ≠ .eod := by
  intro hk; simp [tokName, hk] at h

theorem clauses_head {R : Records} {d : Nat} {w out : List Token} (h : Clauses R d w out)
    {tk : Token} (hk : tk.kind = .eod) (rest : List Token) :
    HeadIn nameOrEod (w ++ tk :: rest) := by
  cases h with
  | nil => exact ⟨tk, rest, rfl, by simp [nameOrEod, hk]⟩
  | cons _ _ hn _ _ => exact ⟨_, _, rfl, nameOrEod_of_name hn⟩

theorem handleClauses_spec {R : Records} (hR : WellNamed R) (hG : GoodPrototypes R) (d : Nat)
    (toks : List Token) (pos : Nat) (tok : Token) (repl : List Token) (errs : Nat)
    (he : tok.kind ≠ .eod → HasEod (toks.drop pos))
    (hb : ∀ tk ∈ tok :: toks.drop pos, tokName tk ≠ some "not_clause") :
    ∃ N tok' repl' errs',
      (∀ g f, N ≤ g → N ≤ f → handleClauses R d toks false g f pos tok repl errs =
        .done tok' repl' errs') ∧ errs ≤ errs' ∧
      (errs' = errs → tok'.kind = .eod ∧ ∃ w out rest, Clauses R d w out ∧
        tok :: toks.drop pos = w ++ tok' :: rest ∧ repl' = repl ++ (out ++ [mk .rBrace])) ∧
      (∀ w out tk rest, Clauses R d w out → tk.kind = .eod →
        tok :: toks.drop pos = w ++ tk :: rest →
        errs' = errs ∧ repl' = repl ++ (out ++ [mk .rBrace])) := by
  induction hk : toks.length - pos using Nat.strongRecOn generalizing pos tok repl errs with
  | ind k ih =>
  subst hk
  by_cases heod : tok.kind = .eod
  · refine ⟨1, tok, repl ++ [mk .rBrace], errs, ?_, Nat.le_refl _, fun _ =>
      ⟨heod, [], [], toks.drop pos, .nil, rfl, rfl⟩, ?_⟩
    · rintro g (_ | f) _ hf
      · omega
      · simp [handleClauses, heod]
    · intro w out tk rest hc hk hl
      cases hc with
      | nil => exact ⟨rfl, rfl⟩
      | cons _ _ hn _ _ =>
        simp only [List.cons_append, List.cons.injEq] at hl
        rw [← hl.1] at hn
        exact absurd heod (tokName_ne_eod hn)
  have he := he heod
  -- An error which stops processing of the line.
  have stop : (∀ g f, 1 ≤ f → handleClauses R d toks false g f pos tok repl errs =
        .done tok repl (errs + 1)) →
      (∀ (i : Nat) (c : ClauseRec), R.clauses[i]? = some c → dirEnum R c.parent = d → tokName tok ≠ some c.name) →
      ∃ N tok' repl' errs',
        (∀ g f, N ≤ g → N ≤ f → handleClauses R d toks false g f pos tok repl errs =
          .done tok' repl' errs') ∧ errs ≤ errs' ∧
        (errs' = errs → tok'.kind = .eod ∧ ∃ w out rest, Clauses R d w out ∧
          tok :: toks.drop pos = w ++ tok' :: rest ∧ repl' = repl ++ (out ++ [mk .rBrace])) ∧
        (∀ w out tk rest, Clauses R d w out → tk.kind = .eod →
          tok :: toks.drop pos = w ++ tk :: rest →
          errs' = errs ∧ repl' = repl ++ (out ++ [mk .rBrace])) := by
    intro h1 h2
    refine ⟨1, tok, repl, errs + 1, fun g f _ hf => h1 g f hf, by omega, by omega, ?_⟩
    intro w out tk rest hc hk hl
    cases hc with
    | nil =>
      simp only [List.nil_append, List.cons.injEq] at hl
      rw [← hl.1] at hk
      exact absurd hk heod
    | cons hi hd hn _ _ =>
      simp only [List.cons_append, List.cons.injEq] at hl
      rw [← hl.1] at hn
      exact absurd hn (h2 _ _ hi hd)
  cases hname : tokName tok with
  | none =>
    refine stop ?_ ?_
    · rintro g (_ | f) hf
      · omega
      · simp [handleClauses, heod, hname]
    · intro i c _ _ hn
      rw [hname] at hn; cases hn
  | some name =>
    have hbad : name ≠ "not_clause" := by
      rintro rfl
      exact hb tok (List.mem_cons_self ..) hname
    have hspec := getTsarClause_partial R hR d name hbad
    cases hlook : getTsarClause R d name with
    | assertion => exact absurd hlook (hspec 0).2.2
    | notFound =>
      refine stop ?_ ?_
      · rintro g (_ | f) hf
        · omega
        · simp [handleClauses, heod, hname, hlook]
      · intro i c hi hd hn
        have := ((hspec 0).2.1.1 hlook) (i + 1)
        have hat := clause_at hi
        rw [hd] at hat
        rw [hname] at hn
        cases hn
        exact this hat
    | found id =>
      obtain ⟨hcn, hcp⟩ := ((hspec id).1).1 hlook
      have hfind := findHandler_clause hR hcn hcp
      obtain ⟨i, c, rfl, hci, rfl⟩ := clause_of_name hcn
      have hd : dirEnum R c.parent = d := by
        have := (clause_at hci).2
        rw [hcp] at this
        exact (Option.some.inj this).symm
      obtain ⟨hs, hdet⟩ := hG c (List.mem_of_getElem? hci)
      have hproto := prototype_eq R i c hci
      have hfirst : ∀ w out tk rest, Clauses R d w out → tk.kind = .eod →
          tok :: toks.drop pos = w ++ tk :: rest → ∃ w₁ out₁ w₂ out₂,
            w = tok :: (w₁ ++ w₂) ∧ out = group c.name out₁ ++ out₂ ∧ Lang .seq c.exprs w₁ out₁ ∧
            Clauses R d w₂ out₂ ∧ toks.drop pos = w₁ ++ (w₂ ++ tk :: rest) := by
        intro w out tk rest hc hk hl
        cases hc with
        | nil =>
          simp only [List.nil_append, List.cons.injEq] at hl
          rw [← hl.1] at hk
          exact absurd hk heod
        | @cons i' c' tk' w₁ out₁ w₂ out₂ hi' hd' hn' hl' hc' =>
          simp only [List.cons_append, List.cons.injEq] at hl
          obtain ⟨rfl, hl⟩ := hl
          rw [hname] at hn'
          have hn' := Option.some.inj hn'
          have hat := clause_at hi'
          rw [hd', ← hn'] at hat
          have hii := hR.clause _ _ _ _ hat.1 hcn hat.2 hcp
          obtain rfl : i' = i := by omega
          rw [hci] at hi'
          cases hi'
          exact ⟨w₁, out₁, w₂, out₂, rfl, rfl, hl', hc', by rw [hl, List.append_assoc]⟩
      rcases visit_total hs toks pos tok (repl ++ [mk .lBrace, mkString c.name, mk .semi]) he with
        ⟨pos', out₁, hacc⟩ | hrej
      · obtain ⟨w₁, hw1, hdrop, hpos⟩ := visit_sound hs he hacc
        have hacc' := hacc
        obtain ⟨s, ⟨N₁, hN₁⟩, hsp, hsr, -, -⟩ := hacc
        have hinv := visit_pos (P := flatten c.exprs) (tok := tok)
          (repl := repl ++ [mk .lBrace, mkString c.name, mk .semi]) he N₁
        rw [hN₁ N₁ (Nat.le_refl _)] at hinv
        obtain ⟨he', hge⟩ := hinv
        rw [hsp] at he' hge
        obtain ⟨tk, ts', hts⟩ := hasEod_ne_nil he'
        obtain ⟨hget, hdrop'⟩ := drop_pos hts
        have hlex : (lex toks s).pos = pos' + 1 ∧ (lex toks s).tok = tk := by
          simp [lex, hsp, hget]
        have hlt : pos' < toks.length := by
          have := congrArg List.length hts
          simp at this; omega
        have hcons : tk :: toks.drop (pos' + 1) = toks.drop pos' := by rw [hdrop', hts]
        obtain ⟨N₂, tok', repl', errs', hN₂, hle, hfw, hbw⟩ :=
          ih (toks.length - (pos' + 1)) (by omega) (pos' + 1) tk (s.repl ++ [mk .rBrace]) errs
            (fun hne => by rw [hdrop']; rw [hts] at he'; exact hasEod_cons he' hne)
            (by
              rw [hcons]
              intro x hx
              refine hb x (List.mem_cons_of_mem _ ?_)
              rw [hdrop]
              exact List.mem_append_right _ hx) rfl
        rw [hcons] at hfw hbw
        refine ⟨max N₁ N₂ + 1, tok', repl', errs', ?_, hle, ?_, ?_⟩
        · rintro g (_ | f) hg hf
          · omega
          · simp only [handleClauses, heod, if_false, hname, hlook, hfind, hcn, hproto,
              hN₁ g (by omega), Bool.false_eq_true, hlex.1, hlex.2]
            exact hN₂ g f (by omega) (by omega)
        · intro herr
          obtain ⟨hk', w₂, out₂, rest, hc2, hl2, hr2⟩ := hfw herr
          refine ⟨hk', tok :: (w₁ ++ w₂), group c.name out₁ ++ out₂, rest,
            .cons hci hd hname hw1 hc2, ?_, ?_⟩
          · rw [hdrop, hl2]; simp
          · rw [hr2, hsr]; simp [group]
        · intro w out tk' rest hc hk' hl
          obtain ⟨w₁', out₁', w₂, out₂, rfl, rfl, hl1, hc2, hdd⟩ := hfirst w out tk' rest hc hk' hl
          have hcomp := visit_complete hs hdet tok
            (repl ++ [mk .lBrace, mkString c.name, mk .semi]) he hl1 hdd
            (clauses_head hc2 hk' rest)
          obtain ⟨hp1, ho1⟩ := accepts_unique hacc' hcomp
          subst ho1
          have hwl : w₁.length = w₁'.length := by omega
          rw [hdrop] at hdd
          obtain ⟨rfl, hdd'⟩ := List.append_inj hdd hwl
          obtain ⟨h1, h2⟩ := hbw w₂ out₂ tk' rest hc2 hk' hdd'
          refine ⟨h1, ?_⟩
          rw [h2, hsr]; simp [group]
      · have hrej' := hrej
        obtain ⟨s, ⟨N₁, hN₁⟩, -, -⟩ := hrej
        have hinv := visit_pos (P := flatten c.exprs) (tok := tok)
          (repl := repl ++ [mk .lBrace, mkString c.name, mk .semi]) he N₁
        rw [hN₁ N₁ (Nat.le_refl _)] at hinv
        obtain ⟨he', hge⟩ := hinv
        obtain ⟨tk, ts', hts⟩ := hasEod_ne_nil he'
        obtain ⟨hget, hdrop'⟩ := drop_pos hts
        have hlex : (lex toks s).pos = s.pos + 1 ∧ (lex toks s).tok = tk := by
          simp [lex, hget]
        have hlt : s.pos < toks.length := by
          have := congrArg List.length hts
          simp at this; omega
        have hcons : tk :: toks.drop (s.pos + 1) = toks.drop s.pos := by rw [hdrop', hts]
        obtain ⟨N₂, tok', repl', errs', hN₂, hle, -, -⟩ :=
          ih (toks.length - (s.pos + 1)) (by omega) (s.pos + 1) tk (s.repl ++ [mk .rBrace])
            (errs + 1) (fun hne => by rw [hdrop']; rw [hts] at he'; exact hasEod_cons he' hne)
            (by
              rw [hcons]
              intro x hx
              refine hb x (List.mem_cons_of_mem _ ?_)
              obtain ⟨j, hj⟩ := Nat.exists_eq_add_of_le hge
              rw [hj, ← List.drop_drop] at hx
              exact List.mem_of_mem_drop hx) rfl
        refine ⟨max N₁ N₂ + 1, tok', repl', errs', ?_, by omega, by omega, ?_⟩
        · rintro g (_ | f) hg hf
          · omega
          · simp only [handleClauses, heod, if_false, hname, hlook, hfind, hcn, hproto,
              hN₁ g (by omega), Bool.false_eq_true, hlex.1, hlex.2]
            exact hN₂ g f (by omega) (by omega)
        · intro w out tk' rest hc hk' hl
          obtain ⟨w₁', out₁', w₂, out₂, rfl, rfl, hl1, hc2, hdd⟩ := hfirst w out tk' rest hc hk' hl
          exact absurd hl1 (visit_rejects hs hdet he hrej' hdd (clauses_head hc2 hk' rest))

/-! ### Pragmas -/

theorem clauses_no_eod {R : Records} {d : Nat} {w out : List Token} (h : Clauses R d w out) :
    ∀ tk ∈ w, tk.kind ≠ .eod := by
  induction h with
  | nil => simp
  | cons _ _ hn hl _ ih =>
    intro tk hm
    rcases List.mem_cons.1 hm with rfl | hm
    · exact tokName_ne_eod hn
    · rcases List.mem_append.1 hm with hm | hm
      · exact lang_no_eod hl tk hm
      · exact ih tk hm

theorem split_eod {a b rest : List Token} {x y : Token} (ha : ∀ tk ∈ a, tk.kind ≠ .eod)
    (hb : ∀ tk ∈ b, tk.kind ≠ .eod) (hx : x.kind = .eod) (hy : y.kind = .eod)
    (h : a ++ [x] = b ++ y :: rest) : a = b := by
  induction a generalizing b with
  | nil =>
    cases b with
    | nil => rfl
    | cons z b =>
      simp only [List.nil_append, List.cons_append, List.cons.injEq] at h
      exact absurd (h.1 ▸ hx) (hb z (List.mem_cons_self ..))
  | cons z a ih =>
    cases b with
    | nil =>
      simp only [List.nil_append, List.cons_append, List.cons.injEq] at h
      exact absurd (h.1 ▸ hy) (ha z (List.mem_cons_self ..))
    | cons z' b =>
      simp only [List.cons_append, List.cons.injEq] at h
      obtain ⟨rfl, h⟩ := h
      rw [ih (fun tk hm => ha tk (List.mem_cons_of_mem _ hm))
        (fun tk hm => hb tk (List.mem_cons_of_mem _ hm)) h]

/-- A specification of a pragma: the name of a directive from the namespace and a sequence of its
clauses; `out` represents the pragma. -/
def PragmaText (R : Records) (ns : Nat) (first : Token) (line repl : List Token) : Prop :=
  ∃ (i : Nat) (d : DirRec) (nsname : String) (out : List Token),
    R.directives[i]? = some d ∧ nsEnum R d.parent = ns ∧
    getNsName R ns = some nsname ∧ tokName first = some d.name ∧ Clauses R (i + 1) line out ∧
    repl = group nsname (group d.name out)

/-- Processing of a pragma for arbitrary records. -/
theorem handlePragma_spec {R : Records} (hR : WellNamed R) (hG : GoodPrototypes R) {ns : Nat}
    {nsname : String} (hns : getNsName R ns = some nsname) (hdvm : ns ≠ nsEnum R "Dvm")
    (hbody : ∀ d ∈ R.directives, nsEnum R d.parent = ns → d.hasBody = false)
    (first : Token) (line : List Token) (heod : ∀ tk ∈ line, tk.kind ≠ .eod)
    (hb : ∀ tk ∈ line, tokName tk ≠ some "not_clause")
    (hf : tokName first ≠ some "not_directive") :
    ∃ N r, (∀ n, N ≤ n → handlePragma R ns first line n = r) ∧
      (r = .kept ∨ ∃ repl errs, r = .replaced repl errs) ∧
      (∀ repl, r = .replaced repl 0 ↔ PragmaText R ns first line repl) := by
  have kept : (∀ n, handlePragma R ns first line n = .kept) →
      (∀ (i : Nat) (d : DirRec), R.directives[i]? = some d → nsEnum R d.parent = ns →
        tokName first ≠ some d.name) →
      ∃ N r, (∀ n, N ≤ n → handlePragma R ns first line n = r) ∧
      (r = .kept ∨ ∃ repl errs, r = .replaced repl errs) ∧
      (∀ repl, r = .replaced repl 0 ↔ PragmaText R ns first line repl) := by
    intro h1 h2
    refine ⟨0, .kept, fun n _ => h1 n, .inl rfl, fun repl => ⟨nofun, ?_⟩⟩
    rintro ⟨i, d, _, out, hi, hd, _, hn, -⟩
    exact absurd hn (h2 i d hi hd)
  cases hname : tokName first with
  | none =>
    refine kept (fun n => by simp [handlePragma, hns, hname]) fun i d _ _ hn => ?_
    rw [hname] at hn; cases hn
  | some name =>
    have hbad : name ≠ "not_directive" := by rintro rfl; exact hf hname
    have hspec := getTsarDirective_partial R hR ns name hbad
    cases hlook : getTsarDirective R ns name with
    | assertion => exact absurd hlook (hspec 0).2.2
    | notFound =>
      refine kept (fun n => by simp [handlePragma, hns, hname, hlook]) fun i d hi hd hn => ?_
      have hat := directive_at hi
      rw [hd] at hat
      rw [hname] at hn
      cases hn
      exact ((hspec 0).2.1.1 hlook) (i + 1) ⟨hat.1, hat.2.1⟩
    | found id =>
      obtain ⟨hdn, hdp⟩ := ((hspec id).1).1 hlook
      have hfind := findHandler_dir hR hdn hdp hdvm
      obtain ⟨i, d, rfl, hdi, rfl⟩ := directive_of_name hdn
      have hat := directive_at hdi
      have hd : nsEnum R d.parent = ns := by
        have := hat.2.1
        rw [hdp] at this
        exact (Option.some.inj this).symm
      have hnb := hat.2.2
      rw [hbody d (List.mem_of_getElem? hdi) hd] at hnb
      obtain ⟨tk, rest, hline⟩ : ∃ tk rest, line ++ [mk .eod] = tk :: rest := by
        cases line with
        | nil => exact ⟨_, _, rfl⟩
        | cons a l => exact ⟨_, _, rfl⟩
      have hdrop : tk :: (line ++ [mk .eod]).drop 1 = line ++ [mk .eod] := by rw [hline]; rfl
      obtain ⟨N, tok', repl', errs', hN, -, hfw, hbw⟩ := handleClauses_spec hR hG (i + 1)
        (line ++ [mk .eod]) 1 tk
        ([mk .lBrace, mkString nsname, mk .semi] ++ [mk .lBrace, mkString d.name, mk .semi]) 0
        (by
          intro hne
          refine ⟨mk .eod, ?_, rfl⟩
          have hm : mk .eod ∈ tk :: (line ++ [mk .eod]).drop 1 := by rw [hdrop]; simp
          rcases List.mem_cons.1 hm with h | h
          · exact absurd (by rw [← h]; rfl) hne
          · exact h)
        (by
          rw [hdrop]
          intro x hx
          rcases List.mem_append.1 hx with h | h
          · exact hb x h
          · simp only [List.mem_singleton] at h
            subst h
            simp [tokName, mk])
      rw [hdrop] at hfw hbw
      have hrun : ∀ n, N ≤ n → handlePragma R ns first line n =
          if tok'.kind = .eod then .replaced (repl' ++ [mk .rBrace]) errs' else .kept := by
        intro n hn
        have := hN n n hn hn
        simp only [handlePragma, hns, hname, hlook, hfind, handleDirective, hdn, hnb,
          Bool.false_eq_true, if_false]
        rw [hline] at this ⊢
        simp only
        rw [this]
      refine ⟨N, _, hrun, ?_, ?_⟩
      · split
        · exact .inr ⟨_, _, rfl⟩
        · exact .inl rfl
      · intro repl
        constructor
        · intro h
          split at h
          · cases h
            obtain ⟨hk, w, out, rest', hc, hl, hr⟩ := hfw rfl
            obtain rfl := split_eod heod (clauses_no_eod hc) rfl hk hl
            exact ⟨i, d, nsname, out, hdi, hd, hns, hname, hc, by rw [hr]; simp [group]⟩
          · cases h
        · rintro ⟨i', d', nsname', out, hdi', hd', hns', hn', hc, rfl⟩
          rw [hns] at hns'
          cases hns'
          have hat' := directive_at hdi'
          rw [hd'] at hat'
          rw [hname] at hn'
          have hn' := Option.some.inj hn'
          rw [← hn'] at hat'
          have hii := hR.dir _ _ _ _ hat'.1 hdn hat'.2.1 hdp
          obtain rfl : i' = i := by omega
          rw [hdi] at hdi'
          cases hdi'
          obtain ⟨herr, hrep⟩ := hbw line out (mk .eod) [] hc rfl rfl
          subst herr
          have hk := (hfw rfl).1
          rw [if_pos hk, hrep]
          simp [group]

/-- **C70 (partial)**. For all lines which follow `#pragma spf`: processing terminates, no
assertion is violated, and the pragma is replaced without diagnostics if and only if the line is a
name of a directive and a sequence of its clauses; then the replacement represents the line. It is
not proved for lines with the names `not_directive` and `not_clause`, an assertion is violated for
them, see `pragma_fails`. -/
theorem pragma_partial (first : Token) (line : List Token) (heod : ∀ tk ∈ line, tk.kind ≠ .eod)
    (hb : ∀ tk ∈ line, tokName tk ≠ some "not_clause")
    (hf : tokName first ≠ some "not_directive") :
    ∃ N r, (∀ n, N ≤ n → handlePragma tsar (nsEnum tsar "Spf") first line n = r) ∧
      (r = .kept ∨ ∃ repl errs, r = .replaced repl errs) ∧
      (∀ repl, r = .replaced repl 0 ↔ PragmaText tsar (nsEnum tsar "Spf") first line repl) :=
  handlePragma_spec tsar_wellNamed tsar_prototypes (nsname := "spf") (by decide +kernel)
    (by decide +kernel) (by decide +kernel) first line heod hb hf

/-- A replacement of a pragma is a compound statement. -/
theorem pragma_stmts {R : Records} {ns : Nat} {first : Token} {line repl : List Token}
    (h : PragmaText R ns first line repl) : Stmts repl := by
  have hgroup : ∀ n out rest, Stmts out → Stmts rest → Stmts (group n out ++ rest) := by
    intro n out rest ho hr
    have : Stmts (mkString n :: mk .semi :: out) :=
      Stmts.simple (ts := [mkString n]) (by simp [mkString]) ho
    have := Stmts.compound this hr
    simpa [group] using this
  obtain ⟨i, d, nsname, out, -, -, -, -, hc, rfl⟩ := h
  have hout : Stmts out := by
    clear hgroup
    induction hc with
    | nil => exact .nil
    | @cons _ c _ _ out _ out' _ _ _ hl _ ih =>
      have : Stmts (mkString c.name :: mk .semi :: out) :=
        Stmts.simple (ts := [mkString c.name]) (by simp [mkString]) (lang_stmts hl)
      have := Stmts.compound this ih
      simpa [group] using this
  have h1 := hgroup d.name out [] hout .nil
  have h2 := hgroup nsname (group d.name out ++ []) [] h1 .nil
  simpa using h2

/-- Pragmas of DVMH are never replaced. -/
theorem dvm_kept {R : Records} (hR : WellNamed R) {nsname : String}
    (hns : getNsName R (nsEnum R "Dvm") = some nsname) (first : Token) (line : List Token)
    (hf : tokName first ≠ some "not_directive") (n : Nat) :
    handlePragma R (nsEnum R "Dvm") first line n = .kept := by
  simp only [handlePragma, hns]
  cases hname : tokName first with
  | none => rfl
  | some name =>
    simp only
    have hbad : name ≠ "not_directive" := by rintro rfl; exact hf hname
    cases hlook : getTsarDirective R (nsEnum R "Dvm") name with
    | assertion =>
      exact absurd hlook (getTsarDirective_partial R hR _ name hbad 0).2.2
    | notFound => rfl
    | found id => simp [findHandler_dvm]

/-- **C70 fails** for names of reserved entries of tables: `#pragma spf not_directive` and
`#pragma spf analysis not_clause` violate assertions. -/
theorem pragma_fails :
    (∀ line n, handlePragma tsar (nsEnum tsar "Spf") ⟨.identifier, "not_directive"⟩ line n =
      .assertion) ∧
    (∀ n, handlePragma tsar (nsEnum tsar "Spf") ⟨.identifier, "analysis"⟩
      [⟨.identifier, "not_clause"⟩] (n + 1) = .assertion) := by
  refine ⟨fun line n => ?_, fun n => ?_⟩
  · have h1 : getNsName tsar (nsEnum tsar "Spf") = some "spf" := by decide +kernel
    simp only [handlePragma, h1, tokName, lookup_reserved_fails.2.1]
  · have h1 : getNsName tsar (nsEnum tsar "Spf") = some "spf" := by decide +kernel
    have h2 : getTsarDirective tsar (nsEnum tsar "Spf") "analysis" = .found 1 := by decide +kernel
    have h3 : findHandler (dirHandlers tsar (nsEnum tsar "Spf")) "analysis" = some 1 := by
      decide +kernel
    have h4 : getDirName tsar 1 = some "analysis" := by decide +kernel
    have h5 : hasBody tsar 1 = some false := by decide +kernel
    simp [handlePragma, h1, tokName, h2, h3, handleDirective, h4, h5, handleClauses,
      lookup_reserved_fails.2.2]

/-! ### Examples -/

/-- `#pragma spf analysis private(A)`. -/
example : PragmaText tsar (nsEnum tsar "Spf") ⟨.identifier, "analysis"⟩
    [⟨.identifier, "private"⟩, mk .lParen, ⟨.identifier, "A"⟩, mk .rParen]
    (group "spf" (group "analysis" (group "private"
      (visitSingle .Identifier ⟨.identifier, "A"⟩)))) := by
  refine ⟨0, { defName := "Analysis", name := "analysis", parent := "Spf" }, "spf",
    group "private" (visitSingle .Identifier ⟨.identifier, "A"⟩) ++ [], by decide +kernel,
    by decide +kernel, by decide +kernel, rfl, ?_, by simp⟩
  refine Clauses.cons (i := 34) (c := ⟨"Private", "private", "Analysis", idList⟩)
    (w := [mk .lParen, ⟨.identifier, "A"⟩, mk .rParen]) (rest := [])
    (by decide +kernel) (by decide +kernel) rfl ?_ .nil
  exact Lang.tok (k := .LParen) rfl (.tok (k := .Identifier) rfl (Lang.zeroOrMore (b := _)
      (w₁ := []) (w₂ := [mk .rParen]) (o₁ := []) (o₂ := []) .repNil (.tok (k := .RParen) rfl .nil)))

example : handlePragma tsar (nsEnum tsar "Spf") ⟨.identifier, "analysis"⟩
    [⟨.identifier, "private"⟩, mk .lParen, ⟨.identifier, "A"⟩, mk .rParen] 40 =
    .replaced (group "spf" (group "analysis" (group "private"
      (visitSingle .Identifier ⟨.identifier, "A"⟩)))) 0 := by decide +kernel

end Tsar.Directives
