import Verif.Unreach.Stmts

/-! # Programs without marks -/

namespace Tsar.Unreach

theorem plain_toksE (e : Expr) : e.plain.toks = e.toks := by
  induction e <;> simp_all [Expr.plain, Expr.toks]

theorem plain_lvl (e : Expr) : lvl e.plain = lvl e := by
  induction e <;> simp_all [Expr.plain, lvl]

theorem plain_proper {e : Expr} (h : Proper e) : Proper e.plain := by
  induction e <;> simp_all [Expr.plain, Proper, plain_lvl]

theorem plain_plainE (e : Expr) : e.plain.plain = e.plain := by
  induction e <;> simp_all [Expr.plain]

theorem plain_ev (E : Env) : ∀ (e : Expr) (σ : St) (r : Int × St), ev E e σ = some r →
    ev E e.plain σ = some r := by
  intro e
  induction e with
  | var x => intro σ r h; exact h
  | num x => intro σ r h; exact h
  | inc x => intro σ r h; exact h
  | par e ih => intro σ r h; exact ih σ r h
  | dead e ih => intro σ r h; simp [ev] at h
  | bin o a b iha ihb =>
    intro σ r h
    simp only [ev, Option.bind_eq_bind, Option.bind_eq_some_iff, Prod.exists] at h
    obtain ⟨u, σ1, h1, v, σ2, h2, h3⟩ := h
    simpa [Expr.plain, ev, iha _ _ h1, ihb _ _ h2] using h3
  | asg x e ih =>
    intro σ r h
    simp only [ev, Option.bind_eq_bind, Option.bind_eq_some_iff, Prod.exists] at h
    obtain ⟨u, σ1, h1, h3⟩ := h
    simpa [Expr.plain, ev, ih _ _ h1] using h3
  | call x e ih =>
    intro σ r h
    simp only [ev, Option.bind_eq_bind, Option.bind_eq_some_iff, Prod.exists] at h
    obtain ⟨u, σ1, h1, h3⟩ := h
    simpa [Expr.plain, ev, ih _ _ h1] using h3
  | land a b iha ihb =>
    intro σ r h
    simp only [ev, Option.bind_eq_bind, Option.bind_eq_some_iff, Prod.exists] at h
    obtain ⟨u, σ1, h1, h3⟩ := h
    by_cases hu : u = 0
    · simpa [Expr.plain, ev, iha _ _ h1, hu] using h3
    · simp only [hu, if_false, Option.bind_eq_some_iff, Prod.exists] at h3
      obtain ⟨v, σ2, h2, h3⟩ := h3
      simpa [Expr.plain, ev, iha _ _ h1, hu, ihb _ _ h2] using h3
  | lor a b iha ihb =>
    intro σ r h
    simp only [ev, Option.bind_eq_bind, Option.bind_eq_some_iff, Prod.exists] at h
    obtain ⟨u, σ1, h1, h3⟩ := h
    by_cases hu : u = 0
    · simp only [hu, ne_eq, not_true, if_false, Option.bind_eq_some_iff, Prod.exists] at h3
      obtain ⟨v, σ2, h2, h3⟩ := h3
      simpa [Expr.plain, ev, iha _ _ h1, hu, ihb _ _ h2] using h3
    · simpa [Expr.plain, ev, iha _ _ h1, hu] using h3
  | cond c a b ihc iha ihb =>
    intro σ r h
    simp only [ev, Option.bind_eq_bind, Option.bind_eq_some_iff, Prod.exists] at h
    obtain ⟨u, σ1, h1, h3⟩ := h
    by_cases hu : u = 0
    · simp only [hu, ne_eq, not_true, if_false] at h3
      simp [Expr.plain, ev, ihc _ _ h1, hu, ihb _ _ h3]
    · simp only [hu, ne_eq, not_false_eq_true, if_true] at h3
      simp [Expr.plain, ev, ihc _ _ h1, hu, iha _ _ h3]
  | comma a b iha ihb =>
    intro σ r h
    simp only [ev, Option.bind_eq_bind, Option.bind_eq_some_iff, Prod.exists] at h
    obtain ⟨u, σ1, h1, h3⟩ := h
    simp [Expr.plain, ev, iha _ _ h1, ihb _ _ h3]

theorem plain_sim (E : Env) (k : Ctx) (e : Expr) : Sim E k e e.plain :=
  fun σ v τ h => ⟨v, plain_ev E e σ _ h, .refl _ _⟩

theorem plain_otoks (o : Option Expr) : otoks (o.map Expr.plain) = otoks o := by
  cases o <;> simp [otoks, plain_toksE]

theorem plain_oproper {o : Option Expr} (h : OProper o) : OProper (o.map Expr.plain) := by
  cases o with
  | none => exact h
  | some e => intro x hx; cases hx; exact plain_proper (h e rfl)

theorem plain_osim (E : Env) (k : Ctx) (d : Int) (o : Option Expr) (σ : St) (v : Int) (τ : St)
    (h : oev E d o σ = some (v, τ)) :
    ∃ w, oev E d (o.map Expr.plain) σ = some (w, τ) ∧ Agree k v w := by
  cases o with
  | none => exact ⟨v, h, .refl _ _⟩
  | some e => exact plain_sim E k e σ v τ h

theorem plain_toks (s : Stmt) : s.plain.toks = s.toks := by
  induction s <;> simp_all [Stmt.plain, Stmt.toks, plain_toksE, plain_otoks]

theorem plain_hasDecl (s : Stmt) : hasDecl s.plain = hasDecl s := by
  induction s <;> simp_all [Stmt.plain, hasDecl]

theorem plain_single {s : Stmt} (h : Single s) : Single s.plain := by
  induction s <;> simp_all [Stmt.plain, Single]

theorem plain_opens (s : Stmt) : opens s.plain = opens s := by
  induction s <;> simp_all [Stmt.plain, opens]

theorem plain_properS {s : Stmt} (h : ProperS s) : ProperS s.plain := by
  induction s with
  | expr e => exact plain_proper h
  | ret e => exact plain_proper h
  | empty | skip | brk | cont => exact h
  | seq a b iha ihb => exact ⟨iha h.1, ihb h.2.1, by rw [plain_hasDecl]; exact h.2.2⟩
  | decl x e r ih => exact ⟨plain_proper h.1, by rw [plain_lvl]; exact h.2.1, ih h.2.2⟩
  | block b ih => exact ih h
  | dead b ih => exact ih h
  | ifT c t ih => exact ⟨plain_proper h.1, ih h.2.1, plain_single h.2.2⟩
  | ifE c t e iht ihe =>
    obtain ⟨h1, h2, h3, h4, h5, h6⟩ := h
    exact ⟨plain_proper h1, iht h2, ihe h3, plain_single h4, plain_single h5,
      by rw [plain_opens]; exact h6⟩
  | loop c t ih => exact ⟨plain_proper h.1, ih h.2.1, plain_single h.2.2⟩
  | for_ i c k b ih =>
    obtain ⟨h1, h2, h3, h4, h5⟩ := h
    exact ⟨plain_oproper h1, plain_oproper h2, plain_oproper h3, ih h4, plain_single h5⟩
  | forD x e c k b ih =>
    obtain ⟨h0, h1, h2, h3, h4, h5⟩ := h
    exact ⟨plain_proper h0, by rw [plain_lvl]; exact h1, plain_oproper h2, plain_oproper h3,
      ih h4, plain_single h5⟩

/-- A run which does not reach a mark is the run of the program without marks. -/
theorem plain_run (E : Env) (n : Nat) : ∀ (s : Stmt) (σ : St),
    Eqv (run E n s σ) (run E n s.plain σ) := by
  intro s
  induction s with
  | expr e => intro σ; exact Eqv.ofE (plain_sim E .void e σ) fun _ _ _ _ => .refl _
  | ret e =>
    intro σ
    refine Eqv.ofE (plain_sim E .val e σ) fun _ _ _ h => ?_
    cases h
    exact .refl _
  | empty | skip | brk | cont => intro σ; exact .refl _
  | seq a b iha ihb => intro σ; exact (iha σ).andThen ihb
  | decl x e r ih =>
    intro σ
    refine Eqv.ofE (plain_sim E .val e σ) fun _ _ _ h => ?_
    cases h
    exact (ih _).scope
  | block b ih => exact ih
  | dead b ih => intro σ; exact .inl rfl
  | ifT c t ih =>
    intro σ
    refine Eqv.ofE (plain_sim E .val c σ) fun v _ τ h => ?_
    cases h
    by_cases hv : v = 0
    · simp only [hv, ne_eq, not_true, if_false]; exact .refl _
    · simp only [hv, ne_eq, not_false_eq_true, if_true]; exact ih τ
  | ifE c t e iht ihe =>
    intro σ
    refine Eqv.ofE (plain_sim E .val c σ) fun v _ τ h => ?_
    cases h
    by_cases hv : v = 0
    · simp only [hv, ne_eq, not_true, if_false]; exact ihe τ
    · simp only [hv, ne_eq, not_false_eq_true, if_true]; exact iht τ
  | loop c t ih =>
    intro σ
    exact Eqv.iter (plain_sim E .cond c) ih (fun σ v τ h => ⟨v, h, trivial⟩) n σ
  | for_ i c k b ih =>
    intro σ
    refine Eqv.ofE (plain_osim E .void 0 i σ) fun v _ τ _ => ?_
    exact Eqv.iter (plain_osim E .cond 1 c) ih (plain_osim E .void 0 k) n τ
  | forD x e c k b ih =>
    intro σ
    refine Eqv.ofE (plain_sim E .val e σ) fun _ _ τ h => ?_
    cases h
    exact (Eqv.iter (plain_osim E .cond 1 c) ih (plain_osim E .void 0 k) n _).scope

end Tsar.Unreach
