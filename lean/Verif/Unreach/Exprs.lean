import Verif.Unreach.Safe

/-! # Transformation of expressions -/

namespace Tsar.Unreach

/-- Values are equal in the context. -/
def Agree : Ctx → Int → Int → Prop
  | .val, v, w => v = w
  | .cond, v, w => v = 0 ↔ w = 0
  | .void, _, _ => True

theorem Agree.refl (k : Ctx) (v : Int) : Agree k v v := by
  cases k <;> simp [Agree]

/-- `e'` is evaluated as `e` if evaluation of `e` does not reach unreachable code. -/
def Sim (E : Env) (k : Ctx) (e e' : Expr) : Prop :=
  ∀ σ v τ, ev E e σ = some (v, τ) → ∃ w, ev E e' σ = some (w, τ) ∧ Agree k v w

/-- Result of transformation of an expression. -/
def Good (k : Ctx) (e : Expr) (ts : List Tok) : Prop :=
  ∃ e', e'.toks = ts ∧ (Proper e → Proper e' ∧ lvl e ≤ lvl e') ∧
    ∀ E, Sim E k e e'

/-- Evaluation of an expression without side effects does not change the state. -/
theorem ev_side (E : Env) : ∀ {e : Expr} {σ : St} {v : Int} {τ : St}, side e = false →
    ev E e σ = some (v, τ) → τ = σ := by
  intro e
  induction e with
  | var x => intro σ v τ _ h; simp [ev] at h; exact h.2.symm
  | num x => intro σ v τ _ h; simp [ev] at h; exact h.2.symm
  | asg | inc | call => intro σ v τ h; simp [side] at h
  | par e ih => intro σ v τ h; exact ih h
  | dead e ih => intro σ v τ _ h; simp [ev] at h
  | bin o a b iha ihb =>
    intro σ v τ h hv
    simp only [side, Bool.or_eq_false_iff] at h
    simp only [ev, Option.bind_eq_bind, Option.bind_eq_some_iff, Prod.exists, Option.pure_def,
      Option.some.injEq, Prod.mk.injEq] at hv
    obtain ⟨u, σ1, h1, w, σ2, h2, -, rfl⟩ := hv
    rw [ihb h.2 h2, iha h.1 h1]
  | land a b iha ihb =>
    intro σ v τ h hv
    simp only [side, Bool.or_eq_false_iff] at h
    simp only [ev, Option.bind_eq_bind, Option.bind_eq_some_iff, Prod.exists, Option.pure_def]
      at hv
    obtain ⟨u, σ1, h1, h2⟩ := hv
    split at h2
    · simp at h2; rw [← h2.2, iha h.1 h1]
    · simp only [Option.bind_eq_some_iff, Prod.exists, Option.some.injEq, Prod.mk.injEq] at h2
      obtain ⟨w, σ2, h2, -, rfl⟩ := h2
      rw [ihb h.2 h2, iha h.1 h1]
  | lor a b iha ihb =>
    intro σ v τ h hv
    simp only [side, Bool.or_eq_false_iff] at h
    simp only [ev, Option.bind_eq_bind, Option.bind_eq_some_iff, Prod.exists, Option.pure_def]
      at hv
    obtain ⟨u, σ1, h1, h2⟩ := hv
    split at h2
    · simp at h2; rw [← h2.2, iha h.1 h1]
    · simp only [Option.bind_eq_some_iff, Prod.exists, Option.some.injEq, Prod.mk.injEq] at h2
      obtain ⟨w, σ2, h2, -, rfl⟩ := h2
      rw [ihb h.2 h2, iha h.1 h1]
  | cond c a b ihc iha ihb =>
    intro σ v τ h hv
    simp only [side, Bool.or_eq_false_iff] at h
    simp only [ev, Option.bind_eq_bind, Option.bind_eq_some_iff, Prod.exists] at hv
    obtain ⟨u, σ1, h1, h2⟩ := hv
    split at h2
    · rw [iha h.1.2 h2, ihc h.1.1 h1]
    · rw [ihb h.2 h2, ihc h.1.1 h1]
  | comma a b iha ihb =>
    intro σ v τ h hv
    simp only [side, Bool.or_eq_false_iff] at h
    simp only [ev, Option.bind_eq_bind, Option.bind_eq_some_iff, Prod.exists] at hv
    obtain ⟨u, σ1, h1, h2⟩ := hv
    rw [ihb h.2 h2, iha h.1 h1]

theorem Good.refl (k : Ctx) (e : Expr) : Good k e e.toks :=
  ⟨e, rfl, fun h => ⟨h, Nat.le_refl _⟩, fun E σ v τ h => ⟨v, h, .refl _ _⟩⟩

theorem Good.bin {k : Ctx} {o : Nat} {a b : Expr} {ta tb : List Tok} (ha : Good .val a ta)
    (hb : Good .val b tb) : Good k (.bin o a b) (ta ++ [.op o] ++ tb) := by
  obtain ⟨a', rfl, pa, sa⟩ := ha
  obtain ⟨b', rfl, pb, sb⟩ := hb
  refine ⟨.bin o a' b', rfl, ?_, ?_⟩
  · rintro ⟨h1, h2, h3, h4⟩
    have := pa h1; have := pb h2
    exact ⟨⟨by simp_all only, by simp_all only, by omega, by omega⟩, Nat.le_refl _⟩
  · intro E σ v τ h
    simp only [ev, Option.bind_eq_bind, Option.bind_eq_some_iff, Prod.exists, Option.pure_def,
      Option.some.injEq, Prod.mk.injEq] at h
    obtain ⟨u, σ1, h1, w, σ2, h2, rfl, rfl⟩ := h
    obtain ⟨u', h1', rfl⟩ := sa E _ _ _ h1
    obtain ⟨w', h2', rfl⟩ := sb E _ _ _ h2
    exact ⟨_, by simp [ev, h1', h2'], .refl _ _⟩

theorem Good.par {k : Ctx} {e : Expr} {t : List Tok} (h : Good k e t) :
    Good k (.par e) ([.lp] ++ t ++ [.rp]) := by
  obtain ⟨e', rfl, p, s⟩ := h
  exact ⟨.par e', rfl, fun h => ⟨(p h).1, Nat.le_refl _⟩, fun E σ v τ h => s E σ v τ h⟩

theorem Good.asg {k : Ctx} {x : Nat} {e : Expr} {t : List Tok} (h : Good .val e t) :
    Good k (.asg x e) ([.id x, .eq] ++ t) := by
  obtain ⟨e', rfl, p, s⟩ := h
  refine ⟨.asg x e', rfl, fun h => ⟨⟨(p h.1).1, ?_⟩, Nat.le_refl _⟩, fun E σ v τ h => ?_⟩
  · exact Nat.le_trans h.2 (p h.1).2
  · simp only [ev, Option.bind_eq_bind, Option.bind_eq_some_iff, Prod.exists, Option.pure_def,
      Option.some.injEq, Prod.mk.injEq] at h
    obtain ⟨u, σ1, h1, rfl, rfl⟩ := h
    obtain ⟨u', h1', rfl⟩ := s E _ _ _ h1
    exact ⟨_, by simp [ev, h1'], .refl _ _⟩

theorem Good.call {k : Ctx} {x : Nat} {e : Expr} {t : List Tok} (h : Good .val e t) :
    Good k (.call x e) ([.id x, .lp] ++ t ++ [.rp]) := by
  obtain ⟨e', rfl, p, s⟩ := h
  refine ⟨.call x e', rfl, fun h => ⟨⟨(p h.1).1, ?_⟩, Nat.le_refl _⟩, fun E σ v τ h => ?_⟩
  · exact Nat.le_trans h.2 (p h.1).2
  · simp only [ev, Option.bind_eq_bind, Option.bind_eq_some_iff, Prod.exists, Option.pure_def,
      Option.some.injEq] at h
    obtain ⟨u, σ1, h1, h2⟩ := h
    obtain ⟨u', h1', rfl⟩ := s E _ _ _ h1
    exact ⟨_, by simp [ev, h1', h2], .refl _ _⟩

theorem Good.land {k : Ctx} {a b : Expr} {ta tb : List Tok} (ha : Good .cond a ta)
    (hb : Good .cond b tb) : Good k (.land a b) (ta ++ [.andand] ++ tb) := by
  obtain ⟨a', rfl, pa, sa⟩ := ha
  obtain ⟨b', rfl, pb, sb⟩ := hb
  refine ⟨.land a' b', rfl, ?_, ?_⟩
  · rintro ⟨h1, h2, h3, h4⟩
    have := pa h1; have := pb h2
    exact ⟨⟨by simp_all only, by simp_all only, by omega, by omega⟩, Nat.le_refl _⟩
  · intro E σ v τ h
    simp only [ev, Option.bind_eq_bind, Option.bind_eq_some_iff, Prod.exists, Option.pure_def]
      at h
    obtain ⟨u, σ1, h1, h2⟩ := h
    obtain ⟨u', h1', hu⟩ := sa E _ _ _ h1
    simp only [Agree] at hu
    split at h2
    · rename_i h0
      simp only [Option.some.injEq, Prod.mk.injEq] at h2
      obtain ⟨rfl, rfl⟩ := h2
      exact ⟨0, by simp [ev, h1', hu.1 h0], .refl _ _⟩
    · rename_i h0
      simp only [Option.bind_eq_some_iff, Prod.exists, Option.some.injEq, Prod.mk.injEq] at h2
      obtain ⟨w, σ2, h2, rfl, rfl⟩ := h2
      obtain ⟨w', h2', hw⟩ := sb E _ _ _ h2
      simp only [Agree] at hw
      refine ⟨if w = 0 then 0 else 1, ?_, .refl _ _⟩
      have : u' ≠ 0 := fun h => h0 (hu.2 h)
      simp [ev, h1', this, h2', hw]

theorem Good.lor {k : Ctx} {a b : Expr} {ta tb : List Tok} (ha : Good .cond a ta)
    (hb : Good .cond b tb) : Good k (.lor a b) (ta ++ [.oror] ++ tb) := by
  obtain ⟨a', rfl, pa, sa⟩ := ha
  obtain ⟨b', rfl, pb, sb⟩ := hb
  refine ⟨.lor a' b', rfl, ?_, ?_⟩
  · rintro ⟨h1, h2, h3, h4⟩
    have := pa h1; have := pb h2
    exact ⟨⟨by simp_all only, by simp_all only, by omega, by omega⟩, Nat.le_refl _⟩
  · intro E σ v τ h
    simp only [ev, Option.bind_eq_bind, Option.bind_eq_some_iff, Prod.exists, Option.pure_def]
      at h
    obtain ⟨u, σ1, h1, h2⟩ := h
    obtain ⟨u', h1', hu⟩ := sa E _ _ _ h1
    simp only [Agree] at hu
    split at h2
    · rename_i h0
      simp only [Option.some.injEq, Prod.mk.injEq] at h2
      obtain ⟨rfl, rfl⟩ := h2
      have : u' ≠ 0 := fun h => h0 (hu.2 h)
      exact ⟨1, by simp [ev, h1', this], .refl _ _⟩
    · rename_i h0
      simp only [Option.bind_eq_some_iff, Prod.exists, Option.some.injEq, Prod.mk.injEq] at h2
      obtain ⟨w, σ2, h2, rfl, rfl⟩ := h2
      obtain ⟨w', h2', hw⟩ := sb E _ _ _ h2
      simp only [Agree] at hw
      refine ⟨if w = 0 then 0 else 1, ?_, .refl _ _⟩
      have : u' = 0 := hu.1 (by simpa using h0)
      simp [ev, h1', this, h2', hw]

/-- The right operand of `&&` is removed. -/
theorem Good.landDead {k : Ctx} {a b : Expr} {ta : List Tok} (ha : Good .cond a ta) :
    Good k (.land a (.dead b)) ta := by
  obtain ⟨a', rfl, pa, sa⟩ := ha
  refine ⟨a', rfl, ?_, ?_⟩
  · rintro ⟨h1, h2, h3, h4⟩
    have := pa h1
    exact ⟨by simp_all only, by simp only [lvl]; omega⟩
  · intro E σ v τ h
    simp only [ev, Option.bind_eq_bind, Option.bind_eq_some_iff, Prod.exists, Option.pure_def]
      at h
    obtain ⟨u, σ1, h1, h2⟩ := h
    obtain ⟨u', h1', hu⟩ := sa E _ _ _ h1
    simp only [Agree] at hu
    split at h2
    · rename_i h0
      simp only [Option.some.injEq, Prod.mk.injEq] at h2
      obtain ⟨rfl, rfl⟩ := h2
      exact ⟨u', h1', by rw [hu.1 h0]; exact .refl _ _⟩
    · simp at h2

/-- The right operand of `||` is removed. -/
theorem Good.lorDead {k : Ctx} {a b : Expr} {ta : List Tok} (hk : k ≠ .val)
    (ha : Good .cond a ta) : Good k (.lor a (.dead b)) ta := by
  obtain ⟨a', rfl, pa, sa⟩ := ha
  refine ⟨a', rfl, ?_, ?_⟩
  · rintro ⟨h1, h2, h3, h4⟩
    have := pa h1
    exact ⟨by simp_all only, by simp only [lvl]; omega⟩
  · intro E σ v τ h
    simp only [ev, Option.bind_eq_bind, Option.bind_eq_some_iff, Prod.exists, Option.pure_def]
      at h
    obtain ⟨u, σ1, h1, h2⟩ := h
    obtain ⟨u', h1', hu⟩ := sa E _ _ _ h1
    simp only [Agree] at hu
    split at h2
    · rename_i h0
      simp only [Option.some.injEq, Prod.mk.injEq] at h2
      obtain ⟨rfl, rfl⟩ := h2
      refine ⟨u', h1', ?_⟩
      have : u' ≠ 0 := fun h => h0 (hu.2 h)
      cases k <;> simp_all [Agree]
    · simp at h2

theorem Good.cond {k : Ctx} {c a b : Expr} {tc ta tb : List Tok} (hc : Good .cond c tc)
    (ha : Good k a ta) (hb : Good k b tb) :
    Good k (.cond c a b) (tc ++ [.quest] ++ ta ++ [.colon] ++ tb) := by
  obtain ⟨c', rfl, pc, sc⟩ := hc
  obtain ⟨a', rfl, pa, sa⟩ := ha
  obtain ⟨b', rfl, pb, sb⟩ := hb
  refine ⟨.cond c' a' b', rfl, ?_, ?_⟩
  · rintro ⟨h1, h2, h3, h4, h5⟩
    have := pc h1; have := pa h2; have := pb h3
    exact ⟨⟨by simp_all only, by simp_all only, by simp_all only, by omega, by omega⟩, Nat.le_refl _⟩
  · intro E σ v τ h
    simp only [ev, Option.bind_eq_bind, Option.bind_eq_some_iff, Prod.exists] at h
    obtain ⟨u, σ1, h1, h2⟩ := h
    obtain ⟨u', h1', hu⟩ := sc E _ _ _ h1
    simp only [Agree] at hu
    split at h2
    · rename_i h0
      have : u' ≠ 0 := fun h => h0 (hu.2 h)
      obtain ⟨w, h2', hw⟩ := sa E _ _ _ h2
      exact ⟨w, by simp [ev, h1', this, h2'], hw⟩
    · rename_i h0
      have : u' = 0 := hu.1 (by simpa using h0)
      obtain ⟨w, h2', hw⟩ := sb E _ _ _ h2
      exact ⟨w, by simp [ev, h1', this, h2'], hw⟩

theorem Good.comma {k : Ctx} {a b : Expr} {ta tb : List Tok} (ha : Good .void a ta)
    (hb : Good k b tb) : Good k (.comma a b) (ta ++ [.comma] ++ tb) := by
  obtain ⟨a', rfl, pa, sa⟩ := ha
  obtain ⟨b', rfl, pb, sb⟩ := hb
  refine ⟨.comma a' b', rfl, ?_, ?_⟩
  · rintro ⟨h1, h2, h3⟩
    have := pa h1; have := pb h2
    exact ⟨⟨by simp_all only, by simp_all only, by omega⟩, Nat.le_refl _⟩
  · intro E σ v τ h
    simp only [ev, Option.bind_eq_bind, Option.bind_eq_some_iff, Prod.exists] at h
    obtain ⟨u, σ1, h1, h2⟩ := h
    obtain ⟨u', h1', -⟩ := sa E _ _ _ h1
    obtain ⟨w, h2', hw⟩ := sb E _ _ _ h2
    exact ⟨w, by simp [ev, h1', h2'], hw⟩

/-- One operand of the conditional operator is unreachable: the other one is
evaluated after the condition. -/
theorem cond_dead {E : Env} {c a b r : Expr} {σ τ : St} {v : Int}
    (hr : (∃ d, a = .dead d) ∧ r = b ∨ (∃ d, b = .dead d) ∧ r = a)
    (h : ev E (.cond c a b) σ = some (v, τ)) :
    ∃ u σ1, ev E c σ = some (u, σ1) ∧ ev E r σ1 = some (v, τ) := by
  simp only [ev, Option.bind_eq_bind, Option.bind_eq_some_iff, Prod.exists] at h
  obtain ⟨u, σ1, h1, h2⟩ := h
  refine ⟨u, σ1, h1, ?_⟩
  rcases hr with ⟨⟨d, rfl⟩, rfl⟩ | ⟨⟨d, rfl⟩, rfl⟩
  · split at h2
    · simp [ev] at h2
    · exact h2
  · split at h2
    · exact h2
    · simp [ev] at h2

theorem Good.condPure {k : Ctx} {c a b r : Expr} {t : List Tok}
    (hr : (∃ d, a = .dead d) ∧ r = b ∨ (∃ d, b = .dead d) ∧ r = a ∧ 2 ≤ lvl a)
    (hc : side c = false) (h : Good k r t) : Good k (.cond c a b) t := by
  obtain ⟨e', rfl, p, s⟩ := h
  refine ⟨e', rfl, ?_, ?_⟩
  · rintro ⟨h1, h2, h3, h4, h5⟩
    rcases hr with ⟨-, rfl⟩ | ⟨-, rfl, h6⟩
    · have := p h3; exact ⟨this.1, by simp only [lvl]; omega⟩
    · have := p h2; exact ⟨this.1, by simp only [lvl]; omega⟩
  · intro E σ v τ h
    obtain ⟨u, σ1, h1, h2⟩ := cond_dead (hr.imp id fun h => ⟨h.1, h.2.1⟩) h
    rw [ev_side E hc h1] at h2
    exact s E _ _ _ h2

theorem Good.condSide {k : Ctx} {c a b r : Expr} {tc t : List Tok}
    (hr : (∃ d, a = .dead d) ∧ r = b ∨ (∃ d, b = .dead d) ∧ r = a ∧ 1 ≤ lvl a)
    (hc : Good .void c tc) (h : Good k r t) :
    Good k (.cond c a b) ([.lp] ++ tc ++ [.comma] ++ t ++ [.rp]) := by
  obtain ⟨c', rfl, pc, sc⟩ := hc
  obtain ⟨e', rfl, p, s⟩ := h
  refine ⟨.par (.comma c' e'), by simp [Expr.toks], ?_, ?_⟩
  · rintro ⟨h1, h2, h3, h4, h5⟩
    have := pc h1
    rcases hr with ⟨-, rfl⟩ | ⟨-, rfl, h6⟩
    · have := p h3; exact ⟨⟨by simp_all only, by simp_all only, by omega⟩, by simp [lvl]⟩
    · have := p h2; exact ⟨⟨by simp_all only, by simp_all only, by omega⟩, by simp [lvl]⟩
  · intro E σ v τ h
    obtain ⟨u, σ1, h1, h2⟩ := cond_dead (hr.imp id fun h => ⟨h.1, h.2.1⟩) h
    obtain ⟨u', h1', -⟩ := sc E _ _ _ h1
    obtain ⟨w, h2', hw⟩ := s E _ _ _ h2
    exact ⟨w, by simp [ev, h1', h2'], hw⟩

/-- An expression is transformed correctly. -/
theorem editE_good : ∀ (e : Expr) (k : Ctx) (s : Bool), Safe k s e → Good k e (editE s e) := by
  intro e
  induction e with
  | var x => intro k s _; exact .refl _ _
  | num x => intro k s _; exact .refl _ _
  | inc x => intro k s _; exact .refl _ _
  | bin o a b iha ihb => intro k s h; exact (iha _ _ h.1).bin (ihb _ _ h.2)
  | par e ih => intro k s h; exact (ih _ _ h).par
  | asg x e ih => intro k s h; exact (ih _ _ h).asg
  | call x e ih => intro k s h; exact (ih _ _ h).call
  | comma a b iha ihb => intro k s h; exact (iha _ _ h.1).comma (ihb _ _ h.2)
  | dead e ih => intro k s h; exact h.elim
  | land a b iha ihb =>
    intro k s h
    cases b with
    | dead d => exact (iha _ _ h).landDead
    | _ => exact (iha _ _ h.1).land (ihb _ _ h.2)
  | lor a b iha ihb =>
    intro k s h
    cases b with
    | dead d => exact (iha _ _ h.2).lorDead h.1
    | _ => exact (iha _ _ h.1).lor (ihb _ _ h.2)
  | cond c a b ihc iha ihb =>
    intro k s h
    by_cases ha : ∃ d, a = .dead d
    · obtain ⟨d, rfl⟩ := ha
      simp only [Safe] at h
      simp only [editE]
      by_cases hc : side c = true
      · simp only [hc, if_true] at h ⊢
        obtain ⟨⟨rfl, h1⟩, h2⟩ := h
        exact Good.condSide (.inl ⟨⟨d, rfl⟩, rfl⟩) (ihc _ _ h1) (ihb _ _ h2)
      · simp only [hc] at h ⊢
        exact Good.condPure (.inl ⟨⟨d, rfl⟩, rfl⟩) (by simpa using hc) (ihb _ _ h.2)
    · by_cases hb : ∃ d, b = .dead d
      · obtain ⟨d, rfl⟩ := hb
        have h' : (if side c then s = true ∧ Safe .void false c ∧ 1 ≤ lvl a
            else Marks c = false ∧ 2 ≤ lvl a) ∧ Safe k false a := by
          cases a <;> first | exact h | exact absurd ⟨_, rfl⟩ ha
        have he : editE s (.cond c a (.dead d)) = if side c then
            if s then [.lp] ++ editE false c ++ [.comma] ++ editE false a ++ [.rp]
            else [.lp] ++ editE false c ++ [.comma] ++ editE false a
            else editE false a := by
          cases a <;> first | rfl | exact absurd ⟨_, rfl⟩ ha
        rw [he]
        by_cases hc : side c = true
        · simp only [hc, if_true] at h' ⊢
          obtain ⟨⟨rfl, h1, h3⟩, h2⟩ := h'
          exact Good.condSide (.inr ⟨⟨d, rfl⟩, rfl, h3⟩) (ihc _ _ h1) (iha _ _ h2)
        · simp only [hc] at h' ⊢
          exact Good.condPure (.inr ⟨⟨d, rfl⟩, rfl, h'.1.2⟩) (by simpa using hc)
            (iha _ _ h'.2)
      · have h' : Safe .cond false c ∧ Safe k false a ∧ Safe k s b := by
          cases a <;> cases b <;>
            first | exact h | exact absurd ⟨_, rfl⟩ ha | exact absurd ⟨_, rfl⟩ hb
        have he : editE s (.cond c a b) = editE false c ++ [.quest] ++ editE false a ++
            [.colon] ++ editE s b := by
          cases a <;> cases b <;>
            first | rfl | exact absurd ⟨_, rfl⟩ ha | exact absurd ⟨_, rfl⟩ hb
        rw [he]
        exact (ihc _ _ h'.1).cond (iha _ _ h'.2.1) (ihb _ _ h'.2.2)

end Tsar.Unreach
