import Verif.Inline.Spec
import Verif.Inline.Sem
import Verif.Inline.Frames
/-!
# Expanded expressions: evaluation after insertion of bodies
-/
namespace Tsar.Inline

mutual

/-- An expression of the expanded program corresponds to an expression of the original one: names of
variables may differ and a variable may be used instead of a known value. -/
def RE (m : Name → Name) (V W : Name → Prop) (J : Name → Val → Prop) : Expr → Expr → Prop
  | .val a, .val b => a = b
  | .var y, .var x => y = m x ∧ V x
  | .var y, .val v => J y v
  | .assign y a, .assign x b => y = m x ∧ V x ∧ RE m V W J a b
  | .bin o l' r', .bin p l r => o = p ∧ RE m V W J l' l ∧ RE m V W J r' r
  | .land l' r', .land l r => RE m V W J l' l ∧ RE m V W J r' r
  | .lor l' r', .lor l r => RE m V W J l' l ∧ RE m V W J r' r
  | .comma l' r', .comma l r => RE m V W J l' l ∧ RE m V W J r' r
  | .cond c' a' b', .cond c a b => RE m V W J c' c ∧ RE m V W J a' a ∧ RE m V W J b' b
  | .elvis l' r', .elvis l r => RE m V W J l' l ∧ RE m V W J r' r
  | .size a, .size b => RE m V W J a b
  | .call _ f as', .call _ g as => f = g ∧ W g ∧ RL m V W J as' as
  | _, _ => False

def RL (m : Name → Name) (V W : Name → Prop) (J : Name → Val → Prop) : List Expr → List Expr → Prop
  | [], [] => True
  | a :: as, b :: bs => RE m V W J a b ∧ RL m V W J as bs
  | _, _ => False

end

section
variable {m : Name → Name} {V W : Name → Prop} {J J₁ : Name → Val → Prop}

mutual

theorem RE.mono (hJ : ∀ y v, J y v → J₁ y v) : ∀ {a b}, RE m V W J a b → RE m V W J₁ a b
  | .val _, b, h => by cases b <;> simp only [RE] at h ⊢ <;> exact h
  | .var _, b, h => by cases b <;> simp only [RE] at h ⊢ <;> first | exact h | exact hJ _ _ h
  | .assign _ _, b, h => by
    cases b <;> simp only [RE] at h ⊢ <;> exact ⟨h.1, h.2.1, RE.mono hJ h.2.2⟩
  | .bin _ _ _, b, h => by
    cases b <;> simp only [RE] at h ⊢ <;> exact ⟨h.1, RE.mono hJ h.2.1, RE.mono hJ h.2.2⟩
  | .land _ _, b, h => by
    cases b <;> simp only [RE] at h ⊢ <;> exact ⟨RE.mono hJ h.1, RE.mono hJ h.2⟩
  | .lor _ _, b, h => by
    cases b <;> simp only [RE] at h ⊢ <;> exact ⟨RE.mono hJ h.1, RE.mono hJ h.2⟩
  | .comma _ _, b, h => by
    cases b <;> simp only [RE] at h ⊢ <;> exact ⟨RE.mono hJ h.1, RE.mono hJ h.2⟩
  | .cond _ _ _, b, h => by
    cases b <;> simp only [RE] at h ⊢ <;> exact ⟨RE.mono hJ h.1, RE.mono hJ h.2.1, RE.mono hJ h.2.2⟩
  | .elvis _ _, b, h => by
    cases b <;> simp only [RE] at h ⊢ <;> exact ⟨RE.mono hJ h.1, RE.mono hJ h.2⟩
  | .size _, b, h => by cases b <;> simp only [RE] at h ⊢ <;> exact RE.mono hJ h
  | .call _ _ _, b, h => by
    cases b <;> simp only [RE] at h ⊢ <;> exact ⟨h.1, h.2.1, RL.mono hJ h.2.2⟩

theorem RL.mono (hJ : ∀ y v, J y v → J₁ y v) : ∀ {a b}, RL m V W J a b → RL m V W J₁ a b
  | [], b, h => by cases b <;> simp only [RL] at h ⊢
  | _ :: _, b, h => by cases b <;> simp only [RL] at h ⊢ <;> exact ⟨RE.mono hJ h.1, RL.mono hJ h.2⟩

end

theorem RE.val_left {v : Val} {b : Expr} (h : RE m V W J (.val v) b) : b = .val v := by
  cases b <;> simp only [RE] at h
  rw [h]

theorem RL.split {pre' post' : List Expr} {a' : Expr} {as : List Expr}
    (h : RL m V W J (pre' ++ a' :: post') as) :
    ∃ pre a post, as = pre ++ a :: post ∧ RE m V W J a' a ∧
      ∀ b' b, RE m V W J b' b → RL m V W J (pre' ++ b' :: post') (pre ++ b :: post) := by
  induction pre' generalizing as with
  | nil =>
    cases as with
    | nil => simp [RL] at h
    | cons a post =>
      simp only [List.nil_append, RL] at h
      exact ⟨[], a, post, rfl, h.1, fun b' b hb => by simpa [RL] using ⟨hb, h.2⟩⟩
  | cons p pre' ih =>
    cases as with
    | nil => simp [RL] at h
    | cons q as =>
      simp only [List.cons_append, RL] at h
      obtain ⟨pre, a, post, rfl, h₁, h₂⟩ := ih h.2
      exact ⟨q :: pre, a, post, rfl, h₁, fun b' b hb => by simpa [RL] using ⟨h.1, h₂ b' b hb⟩⟩

theorem RL.vals {vs : List Val} {as : List Expr} (h : RL m V W J (vs.map .val) as) :
    as = vs.map .val := by
  induction vs generalizing as with
  | nil => cases as <;> simp [RL] at h ⊢
  | cons v vs ih =>
    cases as with
    | nil => simp [RL] at h
    | cons a as =>
      simp only [List.map_cons, RL] at h
      cases a <;> simp only [RE] at h
      all_goals first | exact h.1.elim | skip
      rw [List.map_cons, h.1, ih h.2]

theorem RL.length {as' as : List Expr} (h : RL m V W J as' as) : as'.length = as.length := by
  induction as' generalizing as with
  | nil => cases as <;> simp [RL] at h ⊢
  | cons a' as' ih =>
    cases as with
    | nil => simp [RL] at h
    | cons a as => simp only [RL] at h; simp [ih h.2]

/-- The same place in corresponding expressions. -/
theorem RE.hole {F' : Hole} {a' e : Expr} (h : RE m V W J (F'.plug a') e) :
    ∃ F a, e = Hole.plug F a ∧ RE m V W J a' a ∧
      ∀ b' b, RE m V W J b' b → RE m V W J (F'.plug b') (Hole.plug F b) := by
  cases F' with
  | assign x =>
    cases e <;> simp only [Hole.plug, RE] at h
    rename_i y a
    exact ⟨.assign y, a, rfl, h.2.2, fun b' b hb => by simpa [Hole.plug, RE] using ⟨h.1, h.2.1, hb⟩⟩
  | binL o r =>
    cases e <;> simp only [Hole.plug, RE] at h
    rename_i p l r
    exact ⟨.binL p r, l, rfl, h.2.1, fun b' b hb => by simpa [Hole.plug, RE] using ⟨h.1, hb, h.2.2⟩⟩
  | binR o l =>
    cases e <;> simp only [Hole.plug, RE] at h
    rename_i p l r
    exact ⟨.binR p l, r, rfl, h.2.2, fun b' b hb => by simpa [Hole.plug, RE] using ⟨h.1, h.2.1, hb⟩⟩
  | land r =>
    cases e <;> simp only [Hole.plug, RE] at h
    rename_i l r
    exact ⟨.land r, l, rfl, h.1, fun b' b hb => by simpa [Hole.plug, RE] using ⟨hb, h.2⟩⟩
  | lor r =>
    cases e <;> simp only [Hole.plug, RE] at h
    rename_i l r
    exact ⟨.lor r, l, rfl, h.1, fun b' b hb => by simpa [Hole.plug, RE] using ⟨hb, h.2⟩⟩
  | comma r =>
    cases e <;> simp only [Hole.plug, RE] at h
    rename_i l r
    exact ⟨.comma r, l, rfl, h.1, fun b' b hb => by simpa [Hole.plug, RE] using ⟨hb, h.2⟩⟩
  | cond t f =>
    cases e <;> simp only [Hole.plug, RE] at h
    rename_i c t f
    exact ⟨.cond t f, c, rfl, h.1, fun b' b hb => by simpa [Hole.plug, RE] using ⟨hb, h.2⟩⟩
  | elvis r =>
    cases e <;> simp only [Hole.plug, RE] at h
    rename_i l r
    exact ⟨.elvis r, l, rfl, h.1, fun b' b hb => by simpa [Hole.plug, RE] using ⟨hb, h.2⟩⟩
  | arg k f pre' post' =>
    cases e <;> simp only [Hole.plug, RE] at h
    rename_i k₁ f₁ as
    obtain ⟨hf, hW, h⟩ := h
    obtain ⟨pre, a, post, rfl, h₁, h₂⟩ := h.split
    exact ⟨.arg k₁ f₁ pre post, a, rfl, h₁, fun b' b hb => by
      simpa [Hole.plug, RE] using ⟨hf, hW, h₂ b' b hb⟩⟩

end

/-! ## Steps -/

/-- Names an expression may refer to. -/
def Vars (Old : Name → Prop) (K : Frame) (sh : Shape) (x : Name) : Prop :=
  Old x ∧ (x ∈ olds sh ∨ x ∉ names K)

/-- Functions which may be called. -/
def Fns (Old : Name → Prop) (K : Frame) (sh : Shape) (f : Name) : Prop :=
  Old f ∧ f ∉ olds sh ∧ f ∉ names K

/-- New variables with known values. -/
def Known (sh : Shape) (y : Name) (v : Val) : Prop := Ent.junk y (.auto v) ∈ sh

/-- Correspondence of expressions. -/
abbrev Rel (Old : Name → Prop) (K : Frame) (sh : Shape) : Expr → Expr → Prop :=
  RE (mOf sh) (Vars Old K sh) (Fns Old K sh) (Known sh)

variable {Old : Name → Prop} {K : Frame} {sh : Shape} {C C' : Calls}

/-- Results of steps correspond to each other. -/
def SimR (Old : Name → Prop) (K : Frame) (sh : Shape) (C : Calls) (e : Expr) (σ : St) (t : List Ev) :
    SRes → Prop
  | .ok e' σ' => ∃ e₁ σ₁, Steps C e σ t (.ok e₁ σ₁) ∧ Rel Old K sh e' e₁ ∧ SR K sh σ₁ σ'
  | .halt h => Steps C e σ t (.halt h)

theorem fn_unbound {σ σ' : St} {f : Name} (hs : SR K sh σ σ') (hw : WF Old K sh)
    (hf : Fns Old K sh f) : find σ.l f = none ∧ find σ'.l f = none := by
  obtain ⟨ho, h₁, h₂⟩ := hf
  refine ⟨find_none.2 (by rw [hs.l.names_left]; exact h₁), find_none.2 ?_⟩
  rw [hs.l.names_right, List.mem_append, not_or]
  refine ⟨fun h => ?_, h₂⟩
  obtain ⟨a, ha, rfl⟩ := List.mem_map.1 h
  clear h hs
  induction sh with
  | nil => cases ha
  | cons b sh ih =>
    rcases List.mem_cons.1 ha with rfl | ha'
    · have h₃ := hw.1
      cases a with
      | junk y c => exact h₃ ho
      | pair x y =>
        have := h₃.2 ho
        simp only [Ent.new] at h₁ ⊢
        subst this
        exact h₁ (by simp [olds, Ent.old])
    · refine ih hw.tail ha' ?_
      intro hc
      apply h₁
      simp only [olds, List.filterMap_cons] at hc ⊢
      split
      · exact hc
      · exact .tail _ hc

theorem choose_sim {σ σ' : St} {v : Val} {a' b' a b : Expr} {e : Expr}
    (hs : SR K sh σ σ') (ha : Rel Old K sh a' a) (hb : Rel Old K sh b' b)
    (hst : Step C e σ [] (choose σ v a b)) : SimR Old K sh C e σ [] (choose σ' v a' b') := by
  unfold choose at hst ⊢
  split
  · rename_i h; rw [h] at hst; exact .one hst
  · rename_i h; rw [h] at hst; exact ⟨_, _, .one hst, ha, hs⟩
  · rename_i h; rw [h] at hst; exact ⟨_, _, .one hst, hb, hs⟩

theorem head_sim (hC : ∀ f vs g t r, C' f vs g t r → C f vs g t r) (hw : WF Old K sh)
    {e' e : Expr} {σ σ' : St} {t : List Ev} {r' : SRes} (h : Head C' e' σ' t r')
    (he : Rel Old K sh e' e) (hs : SR K sh σ σ') : SimR Old K sh C e σ t r' := by
  unfold Head at h
  split at h
  · -- a variable
    obtain ⟨rfl, rfl⟩ := h
    cases e <;> simp only [RE] at he
    · rename_i x v
      refine ⟨.val v, σ, .refl _ _, ?_, hs⟩
      simp only [RE]
      exact hs.get_junk hw he
    · rename_i x y
      obtain ⟨rfl, hV⟩ := he
      refine ⟨_, σ, .one (.head ⟨rfl, rfl⟩), ?_, hs⟩
      simp only [RE]
      exact hs.get hw hV.1 hV.2
  · obtain ⟨rfl, rfl⟩ := h
    cases e <;> simp only [RE] at he
    rename_i x v y e
    obtain ⟨rfl, hV, he⟩ := he
    cases e <;> simp only [RE] at he
    subst he
    refine ⟨_, _, .one (.head ⟨rfl, rfl⟩), ?_, hs.set _ hw hV.1 hV.2⟩
    simp only [RE]
  · obtain ⟨rfl, rfl⟩ := h
    cases e <;> simp only [RE] at he
    rename_i l r
    obtain ⟨rfl, h₁, h₂⟩ := he
    cases l <;> simp only [RE] at h₁
    cases r <;> simp only [RE] at h₂
    subst h₁ h₂
    refine ⟨_, _, .one (.head ⟨rfl, rfl⟩), ?_, hs⟩
    simp only [RE]
  · obtain ⟨rfl, rfl⟩ := h
    cases e <;> simp only [RE] at he
    rename_i l r
    obtain ⟨h₁, h₂⟩ := he
    have := h₁.val_left
    subst this
    exact choose_sim hs (by simp only [RE]; exact ⟨trivial, h₂, trivial⟩) (by simp only [RE])
      (.head ⟨rfl, rfl⟩)
  · obtain ⟨rfl, rfl⟩ := h
    cases e <;> simp only [RE] at he
    rename_i l r
    obtain ⟨h₁, h₂⟩ := he
    have := h₁.val_left
    subst this
    exact choose_sim hs (by simp only [RE]) (by simp only [RE]; exact ⟨trivial, h₂, trivial⟩)
      (.head ⟨rfl, rfl⟩)
  · obtain ⟨rfl, rfl⟩ := h
    cases e <;> simp only [RE] at he
    rename_i l r
    have := he.1.val_left
    subst this
    exact ⟨_, _, .one (.head ⟨rfl, rfl⟩), he.2, hs⟩
  · obtain ⟨rfl, rfl⟩ := h
    cases e <;> simp only [RE] at he
    rename_i c a b
    obtain ⟨h₀, h₁, h₂⟩ := he
    have := h₀.val_left
    subst this
    exact choose_sim hs h₁ h₂ (.head ⟨rfl, rfl⟩)
  · obtain ⟨rfl, rfl⟩ := h
    cases e <;> simp only [RE] at he
    rename_i l r
    obtain ⟨h₁, h₂⟩ := he
    have := h₁.val_left
    subst this
    exact choose_sim hs (by simp only [RE]) h₂ (.head ⟨rfl, rfl⟩)
  · obtain ⟨rfl, rfl⟩ := h
    cases e <;> simp only [RE] at he
    refine ⟨_, _, .one (.head ⟨rfl, rfl⟩), ?_, hs⟩
    simp only [RE]
  · obtain ⟨vs, rfl, h⟩ := h
    cases e <;> simp only [RE] at he
    rename_i k f k₁ f₁ as
    obtain ⟨rfl, hW, he⟩ := he
    have := he.vals
    subst this
    obtain ⟨hn, hn'⟩ := fn_unbound hs hw hW
    simp only [hn'] at h
    obtain ⟨cr, hc, rfl⟩ := h
    have hst : Step C (.call k₁ f (vs.map .val)) σ t (cr.step σ.l) := by
      refine .head ⟨vs, rfl, ?_⟩
      simp only [hn]
      exact ⟨cr, hC _ _ _ _ _ (by rw [hs.g]; exact hc), rfl⟩
    cases cr with
    | ret v g =>
      refine ⟨_, _, .one hst, ?_, ⟨rfl, hs.l⟩⟩
      simp only [RE]
    | halt h => exact .one hst
  · exact h.elim

theorem step_sim (hC : ∀ f vs g t r, C' f vs g t r → C f vs g t r) (hw : WF Old K sh)
    {e' : Expr} {σ' : St} {t : List Ev} {r' : SRes} (h : Step C' e' σ' t r') :
    ∀ {e : Expr} {σ : St}, Rel Old K sh e' e → SR K sh σ σ' → SimR Old K sh C e σ t r' := by
  induction h with
  | head h => intro e σ he hs; exact head_sim hC hw h he hs
  | @hole e₀ e' σ' t r r₀ F' he' _ hr ih =>
    intro e σ he hs
    subst he' hr
    obtain ⟨F, a, rfl, h₁, h₂⟩ := he.hole
    have := ih h₁ hs
    cases r with
    | ok e₁' σ₁' =>
      obtain ⟨e₁, σ₁, h₃, h₄, h₅⟩ := this
      exact ⟨_, _, h₃.hole F, h₂ _ _ h₄, h₅⟩
    | halt k => exact Steps.hole F this

theorem steps_sim (hC : ∀ f vs g t r, C' f vs g t r → C f vs g t r) (hw : WF Old K sh)
    {e' : Expr} {σ' : St} {t : List Ev} {r' : SRes} (h : Steps C' e' σ' t r') :
    ∀ {e : Expr} {σ : St}, Rel Old K sh e' e → SR K sh σ σ' → SimR Old K sh C e σ t r' := by
  induction h with
  | refl e' σ' => intro e σ he hs; exact ⟨e, σ, .refl _ _, he, hs⟩
  | cut => intro e σ _ _; exact .cut _ _
  | halt h => intro e σ he hs; exact step_sim hC hw h he hs
  | @step e' σ' t₁ e₁' σ₁' t₂ r h _ ih =>
    intro e σ he hs
    obtain ⟨e₁, σ₁, h₁, h₂, h₃⟩ := step_sim hC hw h he hs
    have := ih h₂ h₃
    cases r with
    | ok e₂' σ₂' =>
      obtain ⟨e₂, σ₂, h₄, h₅, h₆⟩ := this
      exact ⟨e₂, σ₂, h₁.trans h₄, h₅, h₆⟩
    | halt k => exact h₁.trans this

/-- A complete evaluation. -/
theorem eval_sim (hC : ∀ f vs g t r, C' f vs g t r → C f vs g t r) (hw : WF Old K sh)
    {e' e : Expr} {σ σ' : St} {t : List Ev} {v : Val} {σ₁' : St} (h : Eval C' e' σ' t (.val v σ₁'))
    (he : Rel Old K sh e' e) (hs : SR K sh σ σ') :
    ∃ σ₁, Steps C e σ t (.ok (.val v) σ₁) ∧ SR K sh σ₁ σ₁' := by
  cases h with
  | val h =>
    obtain ⟨e₁, σ₁, h₁, h₂, h₃⟩ := steps_sim hC hw h he hs
    cases e₁ <;> simp only [RE] at h₂
    subst h₂
    exact ⟨σ₁, h₁, h₃⟩

theorem eval_simH (hC : ∀ f vs g t r, C' f vs g t r → C f vs g t r) (hw : WF Old K sh)
    {e' e : Expr} {σ σ' : St} {t : List Ev} {h : Halt} (hh : Eval C' e' σ' t (.halt h))
    (he : Rel Old K sh e' e) (hs : SR K sh σ σ') : Steps C e σ t (.halt h) := by
  cases hh with
  | halt hh => exact steps_sim hC hw hh he hs

end Tsar.Inline
