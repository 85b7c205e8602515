import Verif.Unreach.Exprs

/-! # Transformation of statements -/

namespace Tsar.Unreach

/-- Executions are equal unless the first one reaches unreachable code. -/
def Eqv (r r' : Res) : Prop := r = .hit ∨ r' = r

/-- Result of transformation of a statement. -/
def GoodS (s : Stmt) (ts : List Tok) : Prop :=
  ∃ s', s'.toks = ts ∧ ProperS s' ∧ (hasDecl s' = true → hasDecl s = true) ∧
    (flat s = false → (∀ d, s ≠ .dead d) →
      (Single s → Single s') ∧ (opens s' = true → opens s = true) ∧
      (braced s → ts.getLast? = some .rb)) ∧
    ∀ E n σ, Eqv (run E n s σ) (run E n s' σ)

theorem Eqv.refl (r : Res) : Eqv r r := .inr rfl

theorem Eqv.ofE {o o' : Option (Int × St)} {k : Ctx} {f f' : Int → St → Res}
    (h : ∀ v τ, o = some (v, τ) → ∃ w, o' = some (w, τ) ∧ Agree k v w)
    (hf : ∀ v w τ, Agree k v w → Eqv (f v τ) (f' w τ)) :
    Eqv (.ofE o f) (.ofE o' f') := by
  rcases o with _ | ⟨v, τ⟩
  · exact .inl rfl
  · obtain ⟨w, rfl, hw⟩ := h v τ rfl
    exact hf v w τ hw

theorem Eqv.andThen {r r' : Res} {f f' : St → Res} (h : Eqv r r')
    (hf : ∀ σ, Eqv (f σ) (f' σ)) : Eqv (r.andThen f) (r'.andThen f') := by
  rcases h with rfl | rfl
  · exact .inl rfl
  · cases r' with
    | ok o σ =>
      cases o with
      | norm => exact hf σ
      | _ => exact .refl _
    | _ => exact .refl _

theorem Eqv.scope {r r' : Res} {x : Nat} {v : Int} (h : Eqv r r') :
    Eqv (r.scope x v) (r'.scope x v) := by
  rcases h with rfl | rfl
  · exact .inl rfl
  · exact .refl _

theorem Eqv.iter {c c' k k' : St → Option (Int × St)} {b b' : St → Res}
    (hc : ∀ σ v τ, c σ = some (v, τ) → ∃ w, c' σ = some (w, τ) ∧ Agree .cond v w)
    (hb : ∀ σ, Eqv (b σ) (b' σ))
    (hk : ∀ σ v τ, k σ = some (v, τ) → ∃ w, k' σ = some (w, τ) ∧ Agree .void v w) :
    ∀ n σ, Eqv (Unreach.iter c b k n σ) (Unreach.iter c' b' k' n σ) := by
  intro n
  induction n with
  | zero =>
    intro σ
    unfold Unreach.iter
    refine Eqv.ofE (hc σ) fun v w τ h => ?_
    simp only [Agree] at h
    by_cases hv : v = 0
    · simp only [hv, h.1 hv, if_true]; exact .refl _
    · have hw : w ≠ 0 := fun e => hv (h.2 e)
      simp only [hv, hw, if_false]
      rcases hb τ with e | e <;> rw [e]
      · exact .inl rfl
      · exact .refl _
  | succ n ih =>
    intro σ
    unfold Unreach.iter
    refine Eqv.ofE (hc σ) fun v w τ h => ?_
    simp only [Agree] at h
    by_cases hv : v = 0
    · simp only [hv, h.1 hv, if_true]; exact .refl _
    · have hw : w ≠ 0 := fun e => hv (h.2 e)
      simp only [hv, hw, if_false]
      rcases hb τ with e | e <;> rw [e]
      · exact .inl rfl
      · cases b τ with
        | ok o ρ =>
          cases o with
          | norm => exact Eqv.ofE (hk ρ) fun _ _ τ _ => ih τ
          | cont => exact Eqv.ofE (hk ρ) fun _ _ τ _ => ih τ
          | brk => exact .refl _
          | ret v => exact .refl _
        | hit => exact .refl _
        | more => exact .refl _

/-- An optional expression is transformed correctly. -/
theorem oedit_good {k : Ctx} {s : Bool} {o : Option Expr} (h : OSafe k s o) (hp : OProper o) :
    ∃ o', otoks o' = oedit s o ∧ OProper o' ∧ ∀ E d σ v τ, oev E d o σ = some (v, τ) →
      ∃ w, oev E d o' σ = some (w, τ) ∧ Agree k v w := by
  cases o with
  | none =>
    exact ⟨none, rfl, hp, fun E d σ v τ h => ⟨v, h, .refl _ _⟩⟩
  | some e =>
    obtain ⟨e', h1, h2, h3⟩ := editE_good e k s (h e rfl)
    refine ⟨some e', h1, ?_, fun E d σ v τ h => h3 E σ v τ h⟩
    intro x hx
    cases hx
    exact (h2 (hp e rfl)).1

/-- The condition of a removed statement. -/
theorem condPart_good {c : Expr} (h : side c = true → Safe .void false c) (hp : Proper c) :
    ∃ p, p.toks = condPart c ∧ ProperS p ∧ hasDecl p = false ∧
      ∀ E n σ v τ, ev E c σ = some (v, τ) → run E n p σ = .ok .norm τ := by
  by_cases hc : side c = true
  · obtain ⟨c', h1, h2, h3⟩ := editE_good c .void false (h hc)
    refine ⟨.expr c', by simp [condPart, hc, Stmt.toks, h1], (h2 hp).1, rfl, ?_⟩
    intro E n σ v τ hv
    obtain ⟨w, hw, -⟩ := h3 E σ v τ hv
    simp [run, hw, Res.ofE]
  · refine ⟨.empty, by simp [condPart, hc, Stmt.toks], trivial, rfl, ?_⟩
    intro E n σ v τ hv
    rw [ev_side E (by simpa using hc) hv]
    rfl

theorem beforeLast_last {ts : List Tok} {t : Tok} (h : ts.getLast? = some t) :
    beforeLast t ts = ts ++ [t] := by
  obtain ⟨us, rfl⟩ : ∃ us, ts = us ++ [t] := by
    rw [List.getLast?_eq_some_iff] at h
    exact h
  simp [beforeLast]

/-- The remaining branch of `if`. -/
theorem branch_good {t : Stmt} (h : GoodS t (edit t)) (hp : ProperS t) (hs : Single t)
    (hb : BranchOk t) (hblock : ∀ b, t = .block b → GoodS b (edit b)) :
    ∃ s', s'.toks = branch (edit t) t ∧ ProperS s' ∧ hasDecl s' = false ∧
      ∀ E n σ, Eqv (run E n t σ) (run E n s' σ) := by
  obtain ⟨s', h1, h2, h3, h4, h5⟩ := h
  cases t with
  | block b =>
    obtain ⟨b', k1, k2, k3, k4, k5⟩ := hblock b rfl
    by_cases hd : hasDecl b = true
    · refine ⟨.block b', ?_, k2, rfl, k5⟩
      simp [branch, hd, Stmt.toks, edit, k1]
    · refine ⟨b', ?_, k2, ?_, k5⟩
      · simp [branch, hd, edit, k1]
      · by_contra hc
        exact hd (k3 (by simpa using hc))
  | forD x e c k b =>
    refine ⟨.block s', ?_, h2, rfl, h5⟩
    have hnd : ∀ d, b ≠ .dead d := by
      rintro d rfl
      exact hb
    have hl := (h4 (by simp [flat]) (by simp)).2.2 hb
    have : closeBrace (edit (.forD x e c k b)) = edit (.forD x e c k b) ++ [.rb] := by
      simp only [closeBrace, hl]
      rw [if_neg (by simp)]
      exact beforeLast_last hl
    simp [branch, this, Stmt.toks, h1]
  | dead d => exact ⟨.empty, rfl, trivial, rfl, fun _ _ _ => .inl rfl⟩
  | empty => exact hs.elim
  | seq a b => exact hs.elim
  | decl x e r => exact hs.elim
  | _ =>
    refine ⟨s', h1, h2, ?_, h5⟩
    by_contra hc
    exact absurd (h3 (by simpa using hc)) (by simp [hasDecl])

/-- `if` with one remaining branch. -/
theorem ifE_dead {E : Env} {n : Nat} {c : Expr} {t e r p r' : Stmt}
    (hr : (∃ d, t = .dead d) ∧ r = e ∨ (∃ d, e = .dead d) ∧ r = t)
    (hp : ∀ σ v τ, ev E c σ = some (v, τ) → run E n p σ = .ok .norm τ)
    (h : ∀ σ, Eqv (run E n r σ) (run E n r' σ)) (σ : St) :
    Eqv (run E n (.ifE c t e) σ) (run E n (.seq p r') σ) := by
  simp only [run]
  rcases hc : ev E c σ with _ | ⟨v, τ⟩
  · exact .inl rfl
  · rw [hp σ v τ hc]
    simp only [Res.ofE, Res.andThen]
    rcases hr with ⟨⟨d, rfl⟩, rfl⟩ | ⟨⟨d, rfl⟩, rfl⟩
    · by_cases hv : v = 0
      · simpa [hv] using h τ
      · exact .inl (by simp [hv, run])
    · by_cases hv : v = 0
      · exact .inl (by simp [hv, run])
      · simpa [hv] using h τ

/-- A loop with an unreachable body. -/
theorem iter_dead {c k : St → Option (Int × St)} {n : Nat} {σ : St} {r : Res}
    (h : ∀ v τ, c σ = some (v, τ) → r = .ok .norm τ) :
    Eqv (Unreach.iter c (fun _ => .hit) k n σ) r := by
  unfold Unreach.iter
  rcases hc : c σ with _ | ⟨v, τ⟩
  · exact .inl rfl
  · rw [h v τ hc]
    simp only [Res.ofE]
    by_cases hv : v = 0
    · simp [hv, Eqv]
    · exact .inl (by simp [hv])

theorem edit_ifT {c : Expr} {t : Stmt} (h : ∀ d, t ≠ .dead d) :
    edit (.ifT c t) = [.kif, .lp] ++ editE false c ++ [.rp] ++ edit t ∧
    flat (.ifT c t) = false ∧
    (SafeS (.ifT c t) → Safe .cond false c ∧ SafeS t ∧ flat t = false) := by
  cases t <;> first | exact absurd rfl (h _) | exact ⟨rfl, rfl, id⟩

theorem edit_loop {c : Expr} {t : Stmt} (h : ∀ d, t ≠ .dead d) :
    edit (.loop c t) = [.kwhile, .lp] ++ editE false c ++ [.rp] ++ edit t ∧
    flat (.loop c t) = false ∧
    (SafeS (.loop c t) → Safe .cond false c ∧ SafeS t ∧ flat t = false) := by
  cases t <;> first | exact absurd rfl (h _) | exact ⟨rfl, rfl, id⟩

theorem edit_for {i c k : Option Expr} {b : Stmt} (h : ∀ d, b ≠ .dead d) :
    edit (.for_ i c k b) = [.kfor, .lp] ++ oedit true i ++ [.semi] ++ oedit true c ++ [.semi] ++
      oedit false k ++ [.rp] ++ edit b ∧
    flat (.for_ i c k b) = false ∧
    (SafeS (.for_ i c k b) → OSafe .void true i ∧ OSafe .cond true c ∧ OSafe .void false k ∧
      SafeS b ∧ flat b = false) := by
  cases b <;> first | exact absurd rfl (h _) | exact ⟨rfl, rfl, id⟩

theorem edit_forD {x : Nat} {e : Expr} {c k : Option Expr} {b : Stmt} (h : ∀ d, b ≠ .dead d) :
    edit (.forD x e c k b) = [.kfor, .lp, .kint, .id x, .eq] ++ editE true e ++ [.semi] ++
      oedit true c ++ [.semi] ++ oedit false k ++ [.rp] ++ edit b ∧
    (SafeS (.forD x e c k b) → Safe .val true e ∧ OSafe .cond true c ∧ OSafe .void false k ∧
      SafeS b ∧ flat b = false) := by
  cases b <;> first | exact absurd rfl (h _) | exact ⟨rfl, id⟩

theorem edit_ifE2 {c : Expr} {t d : Stmt} (h : ∀ d, t ≠ .dead d) :
    edit (.ifE c t (.dead d)) = condPart c ++ branch (edit t) t ∧
    flat (.ifE c t (.dead d)) = true ∧
    (SafeS (.ifE c t (.dead d)) →
      (side c = true → Safe .void false c) ∧ SafeS t ∧ BranchOk t) := by
  cases t <;> first | exact absurd rfl (h _) | exact ⟨rfl, rfl, id⟩

theorem edit_ifE {c : Expr} {t e : Stmt} (h : ∀ d, t ≠ .dead d) (h' : ∀ d, e ≠ .dead d) :
    edit (.ifE c t e) =
      [.kif, .lp] ++ editE false c ++ [.rp] ++ edit t ++ [.kelse] ++ edit e ∧
    flat (.ifE c t e) = false ∧
    (SafeS (.ifE c t e) →
      Safe .cond false c ∧ SafeS t ∧ SafeS e ∧ flat t = false ∧ flat e = false) := by
  cases t <;> cases e <;>
    first | exact absurd rfl (h _) | exact absurd rfl (h' _) | exact ⟨rfl, rfl, id⟩

theorem last_append {us ts : List Tok} {t : Tok} (h : ts.getLast? = some t) :
    (us ++ ts).getLast? = some t := by
  rw [List.getLast?_append, h]; rfl

theorem bodyRest_ok {b : Stmt} (h : BodyOk b) : bodyRest b = [.semi] := by
  cases b with
  | block b => rfl
  | brk => rfl
  | cont => rfl
  | expr e => simp only [bodyRest, Stmt.toks]; exact if_pos (last_append rfl)
  | ret e => simp only [bodyRest, Stmt.toks]; exact if_pos (last_append rfl)
  | _ => exact h.elim

/-- A statement is transformed correctly, so is the content of a block. -/
theorem edit_good : ∀ s : Stmt, SafeS s → ProperS s →
    GoodS s (edit s) ∧ ∀ b, s = .block b → GoodS b (edit b) := by
  intro s
  induction s with
  | expr e =>
    intro h hp
    obtain ⟨e', h1, h2, h3⟩ := editE_good e _ _ h
    refine ⟨⟨.expr e', by simp [Stmt.toks, edit, h1], (h2 hp).1, id, ?_, ?_⟩, by simp⟩
    · intro _ _; exact ⟨fun _ => trivial, id, fun h => h.elim⟩
    · intro E n σ
      exact Eqv.ofE (h3 E σ) fun _ _ _ _ => .refl _
  | empty =>
    intro _ _
    exact ⟨⟨.empty, rfl, trivial, id, fun _ _ => ⟨id, id, fun h => h.elim⟩,
      fun _ _ _ => .refl _⟩, by simp⟩
  | skip =>
    intro _ _
    exact ⟨⟨.skip, rfl, trivial, id, fun _ _ => ⟨id, id, fun h => h.elim⟩,
      fun _ _ _ => .refl _⟩, by simp⟩
  | brk =>
    intro _ _
    exact ⟨⟨.brk, rfl, trivial, id, fun _ _ => ⟨id, id, fun h => h.elim⟩,
      fun _ _ _ => .refl _⟩, by simp⟩
  | cont =>
    intro _ _
    exact ⟨⟨.cont, rfl, trivial, id, fun _ _ => ⟨id, id, fun h => h.elim⟩,
      fun _ _ _ => .refl _⟩, by simp⟩
  | ret e =>
    intro h hp
    obtain ⟨e', h1, h2, h3⟩ := editE_good e _ _ h
    refine ⟨⟨.ret e', by simp [Stmt.toks, edit, h1], (h2 hp).1, id, ?_, ?_⟩, by simp⟩
    · intro _ _; exact ⟨fun _ => trivial, id, fun h => h.elim⟩
    · intro E n σ
      refine Eqv.ofE (h3 E σ) fun _ _ _ h => ?_
      cases h
      exact .refl _
  | dead s ih =>
    intro _ _
    refine ⟨⟨.empty, rfl, trivial, by simp [hasDecl], ?_, fun _ _ _ => .inl rfl⟩, by simp⟩
    intro _ h
    exact absurd rfl (h s)
  | seq a b iha ihb =>
    intro h hp
    obtain ⟨⟨a', a1, a2, a3, -, a5⟩, -⟩ := iha h.1 hp.1
    obtain ⟨⟨b', b1, b2, b3, -, b5⟩, -⟩ := ihb h.2 hp.2.1
    refine ⟨⟨.seq a' b', by simp [Stmt.toks, edit, a1, b1], ⟨a2, b2, ?_⟩, ?_, ?_, ?_⟩, by simp⟩
    · by_contra hc
      exact absurd (a3 (by simpa using hc)) (by simp [hp.2.2])
    · intro hd
      simp only [hasDecl, Bool.or_eq_true] at hd ⊢
      exact hd.imp a3 b3
    · intro _ _; exact ⟨fun h => h.elim, fun h => by simp [opens] at h, fun h => h.elim⟩
    · intro E n σ
      exact (a5 E n σ).andThen (b5 E n)
  | decl x e r ih =>
    intro h hp
    obtain ⟨⟨r', a1, a2, -, -, a5⟩, -⟩ := ih h.2 hp.2.2
    obtain ⟨e', h1, h2, h3⟩ := editE_good e _ _ h.1
    refine ⟨⟨.decl x e' r', by simp [Stmt.toks, edit, a1, h1],
      ⟨(h2 hp.1).1, Nat.le_trans hp.2.1 (h2 hp.1).2, a2⟩, fun _ => rfl, ?_, ?_⟩, by simp⟩
    · intro _ _; exact ⟨fun h => h.elim, fun h => by simp [opens] at h, fun h => h.elim⟩
    · intro E n σ
      refine Eqv.ofE (h3 E σ) fun v w τ h => ?_
      cases h
      exact (a5 E n _).scope
  | block b ih =>
    intro h hp
    obtain ⟨hg, -⟩ := ih h hp
    refine ⟨?_, fun b' hb => by cases hb; exact hg⟩
    obtain ⟨b', a1, a2, -, -, a5⟩ := hg
    refine ⟨.block b', by simp [Stmt.toks, edit, a1], a2, fun h => by simp [hasDecl] at h, ?_, a5⟩
    intro _ _
    exact ⟨fun _ => trivial, fun h => by simp [opens] at h, fun _ => by simp only [edit]; exact last_append rfl⟩
  | ifT c t ih =>
    intro h hp
    refine ⟨?_, by simp⟩
    by_cases hd : ∃ d, t = .dead d
    · obtain ⟨d, rfl⟩ := hd
      obtain ⟨p, p1, p2, p3, p4⟩ := condPart_good h hp.1
      refine ⟨p, p1, p2, by simp [p3], fun hf => by simp [flat] at hf, ?_⟩
      intro E n σ
      simp only [run]
      rcases hc : ev E c σ with _ | ⟨v, τ⟩
      · exact .inl rfl
      · rw [p4 E n σ v τ hc]
        by_cases hv : v = 0
        · exact .inr (by simp [Res.ofE, hv])
        · exact .inl (by simp [Res.ofE, hv])
    · simp only [not_exists] at hd
      obtain ⟨he, -, hs⟩ := edit_ifT (c := c) hd
      obtain ⟨s1, s2, s3⟩ := hs h
      obtain ⟨⟨t', a1, a2, -, a4, a5⟩, -⟩ := ih s2 hp.2.1
      obtain ⟨c', h1, h2, h3⟩ := editE_good c _ _ s1
      obtain ⟨b1, b2, b3⟩ := a4 s3 hd
      refine ⟨.ifT c' t', by simp [Stmt.toks, he, a1, h1], ⟨(h2 hp.1).1, a2, b1 hp.2.2⟩,
        fun h => by simp [hasDecl] at h, ?_, ?_⟩
      · intro _ _
        exact ⟨fun _ => trivial, fun _ => rfl, fun h => by rw [he]; exact last_append (b3 h)⟩
      · intro E n σ
        refine Eqv.ofE (h3 E σ) fun v w τ h => ?_
        simp only [Agree] at h
        by_cases hv : v = 0
        · simp only [hv, h.1 hv, ne_eq, not_true, if_false]; exact .refl _
        · have hw : w ≠ 0 := fun e => hv (h.2 e)
          simp only [hv, hw, ne_eq, not_false_eq_true, if_true]; exact a5 E n τ
  | ifE c t e iht ihe =>
    intro h hp
    refine ⟨?_, by simp⟩
    obtain ⟨q1, q2, q3, q4, q5, q6⟩ := hp
    by_cases hd : ∃ d, t = .dead d
    · obtain ⟨d, rfl⟩ := hd
      simp only [SafeS] at h
      obtain ⟨p, p1, p2, p3, p4⟩ := condPart_good h.1 q1
      obtain ⟨g1, g2⟩ := ihe h.2.1 q3
      obtain ⟨s', r1, r2, r3, r4⟩ := branch_good g1 q3 q5 h.2.2 g2
      refine ⟨.seq p s', by simp [Stmt.toks, edit, p1, r1], ⟨p2, r2, p3⟩, by simp [hasDecl, p3, r3],
        fun hf => by simp [flat] at hf, ?_⟩
      intro E n σ
      exact ifE_dead (.inl ⟨⟨d, rfl⟩, rfl⟩) (p4 E n) (r4 E n) σ
    · simp only [not_exists] at hd
      by_cases hd' : ∃ d, e = .dead d
      · obtain ⟨d, rfl⟩ := hd'
        obtain ⟨he, hfl, hs⟩ := edit_ifE2 (c := c) (d := d) hd
        have h := hs h
        obtain ⟨p, p1, p2, p3, p4⟩ := condPart_good h.1 q1
        obtain ⟨g1, g2⟩ := iht h.2.1 q2
        obtain ⟨s', r1, r2, r3, r4⟩ := branch_good g1 q2 q4 h.2.2 g2
        refine ⟨.seq p s', by simp [Stmt.toks, he, p1, r1], ⟨p2, r2, p3⟩,
          by simp [hasDecl, p3, r3], fun hf => by simp [hfl] at hf, ?_⟩
        intro E n σ
        exact ifE_dead (.inr ⟨⟨d, rfl⟩, rfl⟩) (p4 E n) (r4 E n) σ
      · simp only [not_exists] at hd'
        obtain ⟨he, -, hs⟩ := edit_ifE (c := c) hd hd'
        obtain ⟨s1, s2, s3, s4, s5⟩ := hs h
        obtain ⟨⟨t', a1, a2, -, a4, a5⟩, -⟩ := iht s2 q2
        obtain ⟨⟨e', b1, b2, -, b4, b5⟩, -⟩ := ihe s3 q3
        obtain ⟨c', h1, h2, h3⟩ := editE_good c _ _ s1
        obtain ⟨x1, x2, x3⟩ := a4 s4 hd
        obtain ⟨y1, y2, y3⟩ := b4 s5 hd'
        refine ⟨.ifE c' t' e', by simp [Stmt.toks, he, a1, b1, h1],
          ⟨(h2 q1).1, a2, b2, x1 q4, y1 q5, ?_⟩, fun h => by simp [hasDecl] at h, ?_, ?_⟩
        · by_contra hc
          exact absurd (x2 (by simpa using hc)) (by simp [q6])
        · intro _ _
          exact ⟨fun _ => trivial, y2, fun h => by rw [he]; exact last_append (y3 h)⟩
        · intro E n σ
          refine Eqv.ofE (h3 E σ) fun v w τ h => ?_
          simp only [Agree] at h
          by_cases hv : v = 0
          · simp only [hv, h.1 hv, ne_eq, not_true, if_false]; exact b5 E n τ
          · have hw : w ≠ 0 := fun e => hv (h.2 e)
            simp only [hv, hw, ne_eq, not_false_eq_true, if_true]; exact a5 E n τ
  | loop c t ih =>
    intro h hp
    refine ⟨?_, by simp⟩
    by_cases hd : ∃ d, t = .dead d
    · obtain ⟨d, rfl⟩ := hd
      obtain ⟨p, p1, p2, p3, p4⟩ := condPart_good h hp.1
      refine ⟨p, p1, p2, by simp [p3], fun hf => by simp [flat] at hf, ?_⟩
      intro E n σ
      exact iter_dead (fun v τ hc => p4 E n σ v τ hc)
    · simp only [not_exists] at hd
      obtain ⟨he, -, hs⟩ := edit_loop (c := c) hd
      obtain ⟨s1, s2, s3⟩ := hs h
      obtain ⟨⟨t', a1, a2, -, a4, a5⟩, -⟩ := ih s2 hp.2.1
      obtain ⟨c', h1, h2, h3⟩ := editE_good c _ _ s1
      obtain ⟨b1, b2, b3⟩ := a4 s3 hd
      refine ⟨.loop c' t', by simp [Stmt.toks, he, a1, h1], ⟨(h2 hp.1).1, a2, b1 hp.2.2⟩,
        fun h => by simp [hasDecl] at h, ?_, ?_⟩
      · intro _ _
        exact ⟨fun _ => trivial, b2, fun h => by rw [he]; exact last_append (b3 h)⟩
      · intro E n σ
        exact Eqv.iter (h3 E) (a5 E n) (fun σ v τ h => ⟨v, h, trivial⟩) n σ
  | for_ i c k b ih =>
    intro h hp
    refine ⟨?_, by simp⟩
    obtain ⟨q1, q2, q3, q4, q5⟩ := hp
    by_cases hd : ∃ d, b = .dead d
    · obtain ⟨d, rfl⟩ := hd
      simp only [SafeS] at h
      obtain ⟨k1, k2, k3, k4⟩ := h
      have hi : ∃ p, p.toks = (if oside i then oedit true i ++ [.semi] else []) ∧ ProperS p ∧
          hasDecl p = false ∧
          ∀ E n σ v τ, oev E 0 i σ = some (v, τ) → run E n p σ = .ok .norm τ := by
        cases i with
        | none => exact ⟨.empty, rfl, trivial, rfl, fun E n σ v τ h => by simp_all [oev, run]⟩
        | some e =>
          by_cases hs : side e = true
          · obtain ⟨e', h1, h2, h3⟩ := editE_good e _ _ (k3 hs e rfl)
            refine ⟨.expr e', by simp [Stmt.toks, oside, hs, oedit, h1], (h2 (q1 e rfl)).1, rfl, ?_⟩
            intro E n σ v τ hv
            obtain ⟨w, hw, -⟩ := h3 E σ v τ hv
            simp [run, hw, Res.ofE]
          · refine ⟨.empty, by simp [Stmt.toks, oside, hs], trivial, rfl, ?_⟩
            intro E n σ v τ hv
            rw [ev_side E (by simpa using hs) hv]
            rfl
      have hc : ∃ p, p.toks = (if oside c then oedit true c ++ [.semi] else []) ∧ ProperS p ∧
          hasDecl p = false ∧
          ∀ E n σ v τ, oev E 1 c σ = some (v, τ) → run E n p σ = .ok .norm τ := by
        cases c with
        | none => exact ⟨.empty, rfl, trivial, rfl, fun E n σ v τ h => by simp_all [oev, run]⟩
        | some e =>
          by_cases hs : side e = true
          · obtain ⟨e', h1, h2, h3⟩ := editE_good e _ _ (k4 hs e rfl)
            refine ⟨.expr e', by simp [Stmt.toks, oside, hs, oedit, h1], (h2 (q2 e rfl)).1, rfl, ?_⟩
            intro E n σ v τ hv
            obtain ⟨w, hw, -⟩ := h3 E σ v τ hv
            simp [run, hw, Res.ofE]
          · refine ⟨.empty, by simp [Stmt.toks, oside, hs], trivial, rfl, ?_⟩
            intro E n σ v τ hv
            rw [ev_side E (by simpa using hs) hv]
            rfl
      obtain ⟨p, p1, p2, p3, p4⟩ := hi
      obtain ⟨r, r1, r2, r3, r4⟩ := hc
      refine ⟨.seq p r, ?_, ⟨p2, r2, p3⟩, by simp [hasDecl, p3, r3],
        fun hf => by simp [flat] at hf, ?_⟩
      · simp only [Stmt.toks, p1, r1, edit, forRest]
        by_cases hsi : oside i = true
        · have hsc := k1 hsi
          simp [hsi, hsc, k2 hsc, otoks]
        · by_cases hsc : oside c = true
          · simp [hsi, hsc, k2 hsc, otoks]
          · simp [hsi, hsc]
      · intro E n σ
        simp only [run]
        rcases ho : oev E 0 i σ with _ | ⟨v, τ⟩
        · exact .inl rfl
        · rw [p4 E n σ v τ ho]
          exact iter_dead (fun v τ' hc => r4 E n τ v τ' hc)
    · simp only [not_exists] at hd
      obtain ⟨he, -, hs⟩ := edit_for (i := i) (c := c) (k := k) hd
      obtain ⟨s1, s2, s3, s4, s5⟩ := hs h
      obtain ⟨⟨b', a1, a2, -, a4, a5⟩, -⟩ := ih s4 q4
      obtain ⟨i', i1, i2, i3⟩ := oedit_good s1 q1
      obtain ⟨c', c1, c2, c3⟩ := oedit_good s2 q2
      obtain ⟨k', k1, k2, k3⟩ := oedit_good s3 q3
      obtain ⟨b1, b2, b3⟩ := a4 s5 hd
      refine ⟨.for_ i' c' k' b', by simp [Stmt.toks, he, a1, i1, c1, k1],
        ⟨i2, c2, k2, a2, b1 q5⟩, fun h => by simp [hasDecl] at h, ?_, ?_⟩
      · intro _ _
        exact ⟨fun _ => trivial, b2, fun h => by rw [he]; exact last_append (b3 h)⟩
      · intro E n σ
        refine Eqv.ofE (i3 E 0 σ) fun v w τ _ => ?_
        exact Eqv.iter (c3 E 1) (a5 E n) (k3 E 0) n τ
  | forD x e c k b ih =>
    intro h hp
    refine ⟨?_, by simp⟩
    obtain ⟨q0, q1, q2, q3, q4, q5⟩ := hp
    by_cases hd : ∃ d, b = .dead d
    · obtain ⟨d, rfl⟩ := hd
      simp only [SafeS] at h
      obtain ⟨h1, h2, h3⟩ := h
      obtain ⟨c', c1, c2, c3⟩ := oedit_good h2 q2
      obtain ⟨e', e1, e2, e3⟩ := editE_good e _ _ h1
      refine ⟨.forD x e' c' none .skip, ?_, ?_, fun h => by simp [hasDecl] at h, ?_, ?_⟩
      · have hn : otoks none = [] := rfl
        simp [Stmt.toks, edit, e1, c1, hn, bodyRest_ok h3]
      · exact ⟨(e2 q0).1, Nat.le_trans q1 (e2 q0).2, c2, fun _ h => by simp at h, trivial, trivial⟩
      · intro _ _
        exact ⟨fun _ => trivial, fun h => by simp [opens] at h, fun h => h.elim⟩
      · intro E n σ
        refine Eqv.ofE (e3 E σ) fun v w τ h => ?_
        cases h
        refine Eqv.scope ?_
        unfold Unreach.iter
        refine Eqv.ofE (c3 E 1 _) fun v w τ h => ?_
        simp only [Agree] at h
        by_cases hv : v = 0
        · simp only [hv, h.1 hv, if_true]; exact .refl _
        · exact .inl (by simp [hv, run])
    · simp only [not_exists] at hd
      obtain ⟨he, hs⟩ := edit_forD (x := x) (e := e) (c := c) (k := k) hd
      obtain ⟨s1, s2, s3, s4, s5⟩ := hs h
      obtain ⟨⟨b', a1, a2, -, a4, a5⟩, -⟩ := ih s4 q4
      obtain ⟨e', e1, e2, e3⟩ := editE_good e _ _ s1
      obtain ⟨c', c1, c2, c3⟩ := oedit_good s2 q2
      obtain ⟨k', k1, k2, k3⟩ := oedit_good s3 q3
      obtain ⟨b1, b2, b3⟩ := a4 s5 hd
      refine ⟨.forD x e' c' k' b', by simp [Stmt.toks, he, a1, e1, c1, k1],
        ⟨(e2 q0).1, Nat.le_trans q1 (e2 q0).2, c2, k2, a2, b1 q5⟩,
        fun h => by simp [hasDecl] at h, ?_, ?_⟩
      · intro _ _
        exact ⟨fun _ => trivial, b2, fun h => by rw [he]; exact last_append (b3 h)⟩
      · intro E n σ
        refine Eqv.ofE (e3 E σ) fun v w τ h => ?_
        cases h
        exact (Eqv.iter (c3 E 1) (a5 E n) (k3 E 0) n _).scope

end Tsar.Unreach
