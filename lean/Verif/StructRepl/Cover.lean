import Verif.StructRepl.Model

/-!
# Accesses to candidates are replaced (C133)
-/

namespace Tsar.StructRepl

/-- Variables which are mentioned in an expression. -/
def refs : Expr → List Var
  | .ref v => [v]
  | .lit _ => []
  | .lv2rv e => refs e
  | .cast e => refs e
  | .paren e => refs e
  | .deref e => refs e
  | .addr e => refs e
  | .sub b i => refs b ++ refs i
  | .member _ b _ _ => refs b
  | .op _ a b => refs a ++ refs b
  | .call _ args => refs args
  | .arg a rest => refs a ++ refs rest
  | .nil => []
  | .new _ _ => []

/-- There are no member expressions and requested calls in an expression. -/
def flat (req : Nat → Option Req) : Expr → Prop
  | .ref _ => True
  | .lit _ => True
  | .lv2rv e => flat req e
  | .cast e => flat req e
  | .paren e => flat req e
  | .deref e => flat req e
  | .addr e => flat req e
  | .sub b i => flat req b ∧ flat req i
  | .member _ _ _ _ => False
  | .op _ a b => flat req a ∧ flat req b
  | .call id args => req id = none ∧ flat req args
  | .arg a rest => flat req a ∧ flat req rest
  | .nil => True
  | .new _ _ => True

/-- The first visited leaf of an expression is in a member expression. -/
def spine (req : Nat → Option Req) : Expr → Prop
  | .lv2rv e => spine req e
  | .cast e => spine req e
  | .paren e => spine req e
  | .deref e => spine req e
  | .addr e => spine req e
  | .sub b _ => spine req b
  | .member _ _ _ _ => True
  | .op _ a _ => spine req a
  | .call id args => req id = none ∧ spine req args
  | .arg a _ => spine req a
  | _ => False

/-- A base of a member expression starts with another member expression, or there is no other member expression and
at most one candidate in it, and the candidate is not in an index. -/
def tame (req : Nat → Option Req) (P : Var → Bool) : Expr → Prop
  | .ref _ => True
  | .lit _ => True
  | .lv2rv e => tame req P e
  | .cast e => tame req P e
  | .paren e => tame req P e
  | .deref e => tame req P e
  | .addr e => tame req P e
  | .sub b i => tame req P b ∧ tame req P i
  | .member _ b _ _ => tame req P b ∧ (spine req b ∨
      (flat req b ∧ ((refs b).filter P).length ≤ 1 ∧ ∀ b' i, b = .sub b' i → ∀ v ∈ refs i, P v = false))
  | .op _ a b => tame req P a ∧ tame req P b
  | .call _ args => tame req P args
  | .arg a rest => tame req P a ∧ tame req P rest
  | .nil => True
  | .new _ _ => True

/-- Requested calls, and only they, are replaced. -/
def Done (c : Cands) (metaOf : Nat → Option (List PMeta)) (req : Nat → Option Req) : Expr → Prop
  | .ref _ => True
  | .lit _ => True
  | .lv2rv e => Done c metaOf req e
  | .cast e => Done c metaOf req e
  | .paren e => Done c metaOf req e
  | .deref e => Done c metaOf req e
  | .addr e => Done c metaOf req e
  | .sub b i => Done c metaOf req b ∧ Done c metaOf req i
  | .member _ b _ _ => Done c metaOf req b
  | .op _ a b => Done c metaOf req a ∧ Done c metaOf req b
  | .call id args => Done c metaOf req args ∧ (req id = none → metaOf id = none) ∧
      (req id ≠ none → ((metaOf id).bind (newArgs c (argList args) (argList (rw c metaOf args)))).isSome = true)
  | .arg a rest => Done c metaOf req a ∧ Done c metaOf req rest
  | .nil => True
  | .new _ _ => True

/-- Candidates may be removed and members may be added. -/
def Le (c d : Cands) : Prop :=
  ∀ v l, d v = some l → ∃ k, c v = some k ∧ ∀ r ∈ k, ∃ s ∈ l, s.field = r.field

theorem Le.refl (c : Cands) : Le c c := fun v l h => ⟨l, h, fun r hr => ⟨r, hr, rfl⟩⟩

theorem Le.trans {a b c : Cands} (h : Le a b) (h' : Le b c) : Le a c := by
  intro v l hl
  obtain ⟨k, hk, h1⟩ := h' v l hl
  obtain ⟨j, hj, h2⟩ := h v k hk
  refine ⟨j, hj, fun r hr => ?_⟩
  obtain ⟨s, hs, e⟩ := h2 r hr
  obtain ⟨t, ht, e'⟩ := h1 s hs
  exact ⟨t, ht, e'.trans e⟩

theorem Le.some {c d : Cands} (h : Le c d) {v : Var} (hv : (d v).isSome = true) : (c v).isSome = true := by
  obtain ⟨l, hl⟩ := Option.isSome_iff_exists.mp hv
  obtain ⟨k, hk, _⟩ := h v l hl
  simp [hk]

theorem le_erase (c : Cands) (v : Var) : Le c (erase c v) := by
  intro x l h
  simp only [erase] at h
  split_ifs at h
  exact ⟨l, h, fun r hr => ⟨r, hr, rfl⟩⟩

theorem erase_self (c : Cands) (v : Var) : erase c v v = none := by simp [erase]

theorem note_old {l : List Repl} {f : Field} {a b : Bool} : ∀ r ∈ l, ∃ s ∈ note l f a b, s.field = r.field := by
  intro r hr
  unfold note
  split_ifs
  · refine ⟨_, List.mem_map_of_mem hr, ?_⟩
    split_ifs <;> rfl
  · exact ⟨r, by simp [hr], rfl⟩

theorem note_new {l : List Repl} {f : Field} {a b : Bool} : ∃ s ∈ note l f a b, s.field = f := by
  unfold note
  split_ifs with h
  · obtain ⟨r, hr, e⟩ := List.any_eq_true.mp h
    refine ⟨_, List.mem_map_of_mem hr, ?_⟩
    simp only [decide_eq_true_eq] at e
    simp [e]
  · exact ⟨⟨f, a, b⟩, by simp, rfl⟩

theorem le_put {c : Cands} {v : Var} (h : (c v).isSome = true) (f : Field) (a b : Bool) :
    Le c (put c v (note ((c v).getD []) f a b)) := by
  intro x l hl
  simp only [put] at hl
  split_ifs at hl with e
  · subst e
    obtain ⟨k, hk⟩ := Option.isSome_iff_exists.mp h
    simp only [hk, Option.getD_some, Option.some.injEq] at hl
    subst hl
    exact ⟨k, hk, note_old⟩
  · exact ⟨l, hl, fun r hr => ⟨r, hr, rfl⟩⟩

theorem le_useArg (i : Nat) (v : Var) : ∀ (ps : List PMeta) (c : Cands), (c v).isSome = true → Le c (useArg i v ps c)
  | [], c, _ => Le.refl c
  | p :: ps, c, h => by
    unfold useArg
    split_ifs
    · exact le_useArg i v ps c h
    · cases p.member with
      | none => exact le_erase c v
      | some f =>
        refine (le_put h f false false).trans (le_useArg i v ps _ ?_)
        simp [put]

theorem le_drop (st : St) : Le st.cands (drop st).cands := by
  unfold drop
  split
  · exact le_erase _ _
  · exact Le.refl _

theorem drop_inner (st : St) : (drop st).inner = st.inner := by
  unfold drop; split <;> rfl

theorem drop_none {st : St} (h : st.last = none) : drop st = st := by
  unfold drop; rw [h]; split <;> simp_all

theorem drop_outer {st : St} (h : st.inner = false) : drop st = st := by
  unfold drop; rw [h]

/-! ### Bases without member expressions -/

theorem flat_id (req : Nat → Option Req) : ∀ (e : Expr) (st : St), flat req e → (trav req e none st).1 = e := by
  intro e
  induction e with
  | ref v => intro st _; unfold trav; split_ifs <;> rfl
  | lit n => intro st _; rfl
  | lv2rv e ih => intro st h; simp only [trav]; rw [ih _ h]
  | cast e ih => intro st h; simp only [trav]; rw [ih _ h]
  | paren e ih => intro st h; simp only [trav]; rw [ih _ h]
  | deref e ih => intro st h; simp only [trav]; rw [ih _ h]
  | addr e ih => intro st h; simp only [trav]; rw [ih _ h]
  | sub b i ihb ihi => intro st h; simp only [trav]; rw [ihb _ h.1, ihi _ h.2]
  | member m b f a ih => intro st h; exact h.elim
  | op k a b iha ihb => intro st h; simp only [trav]; rw [iha _ h.1, ihb _ h.2]
  | call id args ih => intro st h; simp only [trav, h.1]; rw [ih _ h.2]
  | arg a rest iha ihr =>
    intro st h
    simp only [trav, Option.map_none]
    rw [iha _ h.1, ihr _ h.2]
  | nil => intro st _; rfl
  | new v f => intro st _; rfl

/-- The state has not been changed, or the last reference has been removed from candidates. -/
def Kept (st st' : St) : Prop :=
  (st'.last = st.last ∧ st'.cands = st.cands) ∨
    ∃ w, st.last = some w ∧ st'.last = none ∧ st'.cands = erase st.cands w

theorem Kept.le {st st' : St} (h : Kept st st') : Le st.cands st'.cands := by
  rcases h with ⟨_, h⟩ | ⟨w, _, _, h⟩
  · rw [h]; exact Le.refl _
  · rw [h]; exact le_erase _ _

theorem Kept.trans {a b c : St} (h : Kept a b) (h' : Kept b c) : Kept a c := by
  rcases h with ⟨h1, h2⟩ | ⟨w, h1, h2, h3⟩
  · rcases h' with ⟨k1, k2⟩ | ⟨w, k1, k2, k3⟩
    · exact .inl ⟨k1.trans h1, k2.trans h2⟩
    · exact .inr ⟨w, h1 ▸ k1, k2, by rw [k3, h2]⟩
  · rcases h' with ⟨k1, k2⟩ | ⟨w', k1, k2, k3⟩
    · exact .inr ⟨w, h1, k1.trans h2, k2.trans h3⟩
    · rw [h2] at k1; cases k1

theorem kept_drop {st : St} : Kept st (drop st) := by
  unfold drop
  split
  · next v _ h => exact .inr ⟨v, h, rfl, rfl⟩
  · exact .inl ⟨rfl, rfl⟩

/-- An expression without candidates. -/
theorem flat_zero (req : Nat → Option Req) : ∀ (e : Expr) (st : St), flat req e → st.inner = true →
    (∀ v ∈ refs e, st.cands v = none) →
    (trav req e none st).2.inner = true ∧ Kept st (trav req e none st).2 := by
  intro e
  induction e with
  | ref v =>
    intro st _ hi hn
    have := hn v (by simp [refs])
    simp only [trav, this, Option.isNone_none, if_true]
    exact ⟨hi, .inl ⟨rfl, rfl⟩⟩
  | lit n =>
    intro st _ hi _
    refine ⟨by simp [trav, drop_inner, visit, hi], ?_⟩
    exact (show Kept st (visit st) from .inl ⟨rfl, rfl⟩).trans kept_drop
  | lv2rv e ih =>
    intro st h hi hn
    exact ih { st with asg := false } h hi hn
  | cast e ih =>
    intro st h hi hn
    obtain ⟨h1, h2⟩ := ih st h hi hn
    exact ⟨by simp only [trav, drop_inner, h1], h2.trans kept_drop⟩
  | paren e ih => intro st h hi hn; exact ih (visit st) h hi hn
  | deref e ih => intro st h hi hn; exact ih (visit st) h hi hn
  | addr e ih => intro st h hi hn; exact ih (visit st) h hi hn
  | sub b i ihb ihi =>
    intro st h hi hn
    obtain ⟨h1, h2⟩ := ihb (visit st) h.1 hi (fun v hv => hn v (by simp [refs, hv]))
    have hn' : ∀ v ∈ refs i, (trav req b none (visit st)).2.cands v = none := by
      intro v hv
      have := hn v (by simp [refs, hv])
      by_contra hc
      have := h2.le.some (v := v) (by cases hx : (trav req b none (visit st)).2.cands v <;> simp_all)
      simp_all [visit]
    obtain ⟨k1, k2⟩ := ihi _ h.2 h1 hn'
    exact ⟨k1, h2.trans k2⟩
  | member m b f a ih => intro st h; exact h.elim
  | op k a b iha ihb =>
    intro st h hi hn
    obtain ⟨h1, h2⟩ := iha (visit st) h.1 hi (fun v hv => hn v (by simp [refs, hv]))
    have hn' : ∀ v ∈ refs b, (trav req a none (visit st)).2.cands v = none := by
      intro v hv
      have := hn v (by simp [refs, hv])
      by_contra hc
      have := h2.le.some (v := v) (by cases hx : (trav req a none (visit st)).2.cands v <;> simp_all)
      simp_all [visit]
    obtain ⟨k1, k2⟩ := ihb _ h.2 h1 hn'
    exact ⟨by simp only [trav, drop_inner, k1], (h2.trans k2).trans kept_drop⟩
  | call id args ih =>
    intro st h hi hn
    have hd : Kept st (drop (visit st)) := (show Kept st (visit st) from .inl ⟨rfl, rfl⟩).trans kept_drop
    obtain ⟨h1, h2⟩ := ih (drop (visit st)) h.2 (by simp [drop_inner, visit, hi]) (by
      intro v hv
      have := hn v (by simpa [refs] using hv)
      by_contra hc
      have := hd.le.some (v := v) (by cases hx : (drop (visit st)).cands v <;> simp_all)
      simp_all)
    simp only [trav, h.1]
    exact ⟨by simp only [drop_inner, h1], (hd.trans h2).trans kept_drop⟩
  | arg a rest iha ihr =>
    intro st h hi hn
    obtain ⟨h1, h2⟩ := iha st h.1 hi (fun v hv => hn v (by simp [refs, hv]))
    have hn' : ∀ v ∈ refs rest, (trav req a none st).2.cands v = none := by
      intro v hv
      have := hn v (by simp [refs, hv])
      by_contra hc
      have := h2.le.some (v := v) (by cases hx : (trav req a none st).2.cands v <;> simp_all)
      simp_all
    obtain ⟨k1, k2⟩ := ihr _ h.2 h1 hn'
    simp only [trav, Option.map_none]
    exact ⟨k1, h2.trans k2⟩
  | nil => intro st _ hi _; exact ⟨hi, .inl ⟨rfl, rfl⟩⟩
  | new v f =>
    intro st _ hi _
    refine ⟨by simp [trav, drop_inner, visit, hi], ?_⟩
    exact (show Kept st (visit st) from .inl ⟨rfl, rfl⟩).trans kept_drop

/-- A reference to a single candidate has been found, or the candidate has been removed. -/
def Found (v : Var) (st st' : St) : Prop :=
  (st'.last = some v ∧ st'.cands = st.cands) ∨ (st'.last = none ∧ st'.cands = erase st.cands v)

theorem Found.le {v : Var} {st st' : St} (h : Found v st st') : Le st.cands st'.cands := by
  rcases h with ⟨_, h⟩ | ⟨_, h⟩
  · rw [h]; exact Le.refl _
  · rw [h]; exact le_erase _ _

theorem Found.kept {v : Var} {a b c : St} (h : Found v a b) (h' : Kept b c) : Found v a c := by
  rcases h with ⟨h1, h2⟩ | ⟨h1, h2⟩
  · rcases h' with ⟨k1, k2⟩ | ⟨w, k1, k2, k3⟩
    · exact .inl ⟨k1.trans h1, k2.trans h2⟩
    · rw [h1, Option.some.injEq] at k1
      subst k1
      exact .inr ⟨k2, by rw [k3, h2]⟩
  · rcases h' with ⟨k1, k2⟩ | ⟨w, k1, k2, k3⟩
    · exact .inr ⟨k1.trans h1, k2.trans h2⟩
    · rw [h1] at k1; cases k1

theorem kept_found {v : Var} {a b c : St} (hl : a.last = none) (h : Kept a b) (h' : Found v b c) : Found v a c := by
  rcases h with ⟨h1, h2⟩ | ⟨w, h1, _⟩
  · rcases h' with ⟨k1, k2⟩ | ⟨k1, k2⟩
    · exact .inl ⟨k1, k2.trans h2⟩
    · exact .inr ⟨k1, by rw [k2, h2]⟩
  · rw [hl] at h1; cases h1

/-- There is exactly one reference to a candidate. -/
def One (c : Cands) (v : Var) (e : Expr) : Prop := (refs e).filter (fun x => (c x).isSome) = [v]

theorem one_split {c : Cands} {v : Var} {a b : List Var}
    (h : (a ++ b).filter (fun x => (c x).isSome) = [v]) :
    (a.filter (fun x => (c x).isSome) = [v] ∧ ∀ x ∈ b, c x = none) ∨
      ((∀ x ∈ a, c x = none) ∧ b.filter (fun x => (c x).isSome) = [v]) := by
  rw [List.filter_append] at h
  rcases List.append_eq_singleton_iff.mp h with ⟨h1, h2⟩ | ⟨h1, h2⟩
  · exact .inr ⟨fun x hx => by simpa using List.filter_eq_nil_iff.mp h1 x hx, h2⟩
  · exact .inl ⟨h1, fun x hx => by simpa using List.filter_eq_nil_iff.mp h2 x hx⟩

theorem none_le {c d : Cands} (h : Le c d) {x : Var} (hx : c x = none) : d x = none := by
  by_contra hc
  have := h.some (v := x) (by cases hh : d x <;> simp_all)
  simp_all

/-- An expression with one reference to a candidate. -/
theorem flat_one (req : Nat → Option Req) (v : Var) : ∀ (e : Expr) (st : St), flat req e → st.inner = true →
    st.last = none → One st.cands v e →
    (trav req e none st).2.inner = true ∧ Found v st (trav req e none st).2 := by
  have two : ∀ (a b : Expr), (∀ st : St, flat req a → st.inner = true → st.last = none → One st.cands v a →
      (trav req a none st).2.inner = true ∧ Found v st (trav req a none st).2) →
      (∀ st : St, flat req b → st.inner = true → st.last = none → One st.cands v b →
      (trav req b none st).2.inner = true ∧ Found v st (trav req b none st).2) →
      ∀ st : St, flat req a → flat req b → st.inner = true → st.last = none →
      (refs a ++ refs b).filter (fun x => (st.cands x).isSome) = [v] →
      (trav req b none (trav req a none st).2).2.inner = true ∧
        Found v st (trav req b none (trav req a none st).2).2 := by
    intro a b iha ihb st ha hb hi hl hn
    rcases one_split hn with ⟨h1, h2⟩ | ⟨h1, h2⟩
    · obtain ⟨k1, k2⟩ := iha st ha hi hl h1
      obtain ⟨j1, j2⟩ := flat_zero req b _ hb k1 (fun x hx => none_le k2.le (h2 x hx))
      exact ⟨j1, k2.kept j2⟩
    · obtain ⟨k1, k2⟩ := flat_zero req a st ha hi h1
      have hc : (trav req a none st).2.cands = st.cands ∧ (trav req a none st).2.last = none := by
        rcases k2 with ⟨e1, e2⟩ | ⟨w, e1, _⟩
        · exact ⟨e2, e1.trans hl⟩
        · rw [hl] at e1; cases e1
      obtain ⟨j1, j2⟩ := ihb _ hb k1 hc.2 (by unfold One; rw [hc.1]; exact h2)
      exact ⟨j1, kept_found hl k2 j2⟩
  intro e
  induction e with
  | ref x =>
    intro st _ hi hl hn
    unfold One at hn
    simp only [refs, List.filter_cons, List.filter_nil] at hn
    split_ifs at hn with hs
    · simp only [List.cons.injEq, and_true] at hn
      subst hn
      have : (st.cands x).isNone = false := by cases hh : st.cands x <;> simp_all
      simp only [trav, this, hi, if_true, Bool.false_eq_true, if_false]
      exact ⟨hi, .inl ⟨rfl, rfl⟩⟩
  | lit n => intro st _ _ _ hn; simp [One, refs] at hn
  | lv2rv e ih => intro st h hi hl hn; exact ih { st with asg := false } h hi hl hn
  | cast e ih =>
    intro st h hi hl hn
    obtain ⟨h1, h2⟩ := ih st h hi hl hn
    exact ⟨by simp only [trav, drop_inner, h1], h2.kept kept_drop⟩
  | paren e ih => intro st h hi hl hn; exact ih (visit st) h hi hl hn
  | deref e ih => intro st h hi hl hn; exact ih (visit st) h hi hl hn
  | addr e ih => intro st h hi hl hn; exact ih (visit st) h hi hl hn
  | sub b i ihb ihi => intro st h hi hl hn; exact two b i ihb ihi (visit st) h.1 h.2 hi hl hn
  | member m b f a ih => intro st h; exact h.elim
  | op k a b iha ihb =>
    intro st h hi hl hn
    obtain ⟨h1, h2⟩ := two a b iha ihb (visit st) h.1 h.2 hi hl hn
    exact ⟨by simp only [trav, drop_inner, h1], h2.kept kept_drop⟩
  | call id args ih =>
    intro st h hi hl hn
    have hd : drop (visit st) = visit st := drop_none hl
    obtain ⟨h1, h2⟩ := ih (visit st) h.2 hi hl hn
    simp only [trav, h.1, hd]
    exact ⟨by simp only [drop_inner, h1], h2.kept kept_drop⟩
  | arg a rest iha ihr =>
    intro st h hi hl hn
    simp only [trav, Option.map_none]
    exact two a rest iha ihr st h.1 h.2 hi hl hn
  | nil => intro st _ _ _ hn; simp [One, refs] at hn
  | new x f => intro st _ _ _ hn; simp [One, refs] at hn

/-! ### Bodies -/

theorem getCandidate_refs : ∀ (a : Expr) (v : Var), getCandidate a = some v → refs a = [v]
  | .deref e, v, h => getCandidate_refs e v h
  | .addr e, v, h => getCandidate_refs e v h
  | .lv2rv (.ref w), v, h => by simp only [getCandidate, Option.some.injEq] at h; simp [refs, h]
  | .ref w, v, h => by simp only [getCandidate, Option.some.injEq] at h; simp [refs, h]

theorem getCandidate_rw (c : Cands) (mo : Nat → Option (List PMeta)) : ∀ (a : Expr) (v : Var),
    getCandidate a = some v → rw c mo a = a
  | .deref e, v, h => by simp only [rw]; rw [getCandidate_rw c mo e v h]
  | .addr e, v, h => by simp only [rw]; rw [getCandidate_rw c mo e v h]
  | .lv2rv (.ref w), v, h => rfl
  | .ref w, v, h => rfl

theorem getCandidate_spine (req : Nat → Option Req) : ∀ (a : Expr) (v : Var), getCandidate a = some v → ¬ spine req a
  | .deref e, v, h => getCandidate_spine req e v h
  | .addr e, v, h => getCandidate_spine req e v h
  | .lv2rv (.ref w), v, h => id
  | .ref w, v, h => id

theorem rw_member (c : Cands) (mo : Nat → Option (List PMeta)) (m : Option Var) (b : Expr) (f : Field) (a : Bool) :
    (∃ v r, m = some v ∧ flagOf c v f = some r ∧
      ((∃ b' i, rw c mo b = .sub b' i ∧ isSub b = true ∧
        (rw c mo (.member m b f a) = .sub (.paren (.deref (.lv2rv (.new v f)))) i ∨
          rw c mo (.member m b f a) = .sub (.lv2rv (.new v f)) i)) ∨
        rw c mo (.member m b f a) = .paren (.deref (.lv2rv (.new v f))) ∨
        rw c mo (.member m b f a) = .new v f)) ∨
    ((∀ v, m = some v → flagOf c v f = none) ∧ rw c mo (.member m b f a) = .member m (rw c mo b) f a) := by
  cases m with
  | none => exact .inr ⟨fun v h => (by cases h), by simp only [rw, Option.bind_none]⟩
  | some v =>
    cases hr : flagOf c v f with
    | none =>
      refine .inr ⟨fun w h => ?_, by simp only [rw, Option.bind_some, hr]⟩
      simp only [Option.some.injEq] at h
      subst h
      exact hr
    | some r =>
      refine .inl ⟨v, r, rfl, hr, ?_⟩
      by_cases hs : isSub b = true
      · cases hb : rw c mo b
        case sub b' i =>
          refine .inl ⟨b', i, rfl, hs, ?_⟩
          simp only [rw, Option.bind_some, hr, hs, hb]
          split_ifs
          · exact .inl rfl
          · exact .inr rfl
        all_goals
          refine .inr ?_
          simp only [rw, Option.bind_some, hr, hs, hb]
          split_ifs
          · exact .inl rfl
          · exact .inr rfl
      · refine .inr ?_
        have : isSub b = false := by simpa using hs
        simp only [rw, Option.bind_some, hr, this]
        split_ifs
        · exact .inl rfl
        · exact .inr rfl

theorem argList_rw (c : Cands) (mo : Nat → Option (List PMeta)) : ∀ e : Expr,
    argList (rw c mo e) = (argList e).map (rw c mo)
  | .arg a rest => by simp only [rw, argList, List.map_cons, argList_rw c mo rest]
  | .ref v => rfl
  | .lit n => rfl
  | .lv2rv e => rfl
  | .cast e => rfl
  | .paren e => rfl
  | .deref e => rfl
  | .addr e => rfl
  | .sub b i => rfl
  | .member m b f a => by
    rcases rw_member c mo m b f a with ⟨v, r, _, _, ⟨b', i, _, _, h | h⟩ | h | h⟩ | ⟨_, h⟩ <;> rw [h] <;> rfl
  | .op k a b => rfl
  | .call id args => by
    simp only [rw]
    split <;> rfl
  | .nil => rfl
  | .new v f => rfl

theorem refs_mkArgs : ∀ (es : List Expr) (v : Var), (∀ e ∈ es, v ∉ refs e) → v ∉ refs (mkArgs es)
  | [], v, _ => by simp [mkArgs, refs]
  | e :: es, v, h => by
    have h1 := h e (by simp)
    have h2 := refs_mkArgs es v (fun x hx => h x (by simp [hx]))
    simp [mkArgs, refs, h1, h2]

theorem newArg_refs {c : Cands} {p : PMeta} {a a' e : Expr} {v : Var} (h : newArg c p a a' = some e)
    (hv : inCands c a = none → v ∉ refs a') : v ∉ refs e := by
  unfold newArg at h
  cases hc : inCands c a with
  | none =>
    simp only [hc] at h
    have hv := hv hc
    split_ifs at h
    all_goals cases hm : p.member <;> simp only [hm, Option.some.injEq] at h <;> subst h <;>
      simpa [refs] using hv
  | some w =>
    simp only [hc] at h
    cases hm : p.member.bind (flagOf c w) with
    | none => simp [hm] at h
    | some r =>
      simp only [hm, Option.some.injEq] at h
      subst h
      split_ifs <;> simp [refs]

theorem newArgs_refs {c : Cands} {as as' : List Expr} {v : Var}
    (hv : ∀ (n : Nat) (a a' : Expr), as[n]? = some a → as'[n]? = some a' → inCands c a = none → v ∉ refs a') :
    ∀ (ps : List PMeta) (es : List Expr), newArgs c as as' ps = some es → ∀ e ∈ es, v ∉ refs e
  | [], es, h => by simp only [newArgs, Option.some.injEq] at h; subst h; simp
  | p :: ps, es, h => by
    unfold newArgs at h
    cases h1 : as[p.target]? with
    | none => simp [h1] at h
    | some a =>
      cases h2 : as'[p.target]? with
      | none => simp [h1, h2] at h
      | some a' =>
        simp only [h1, h2] at h
        cases h3 : newArg c p a a' with
        | none => simp [h3] at h
        | some e0 =>
          cases h4 : newArgs c as as' ps with
          | none => simp [h3, h4] at h
          | some es0 =>
            simp only [h3, h4, Option.some.injEq] at h
            subst h
            intro e he
            rcases List.mem_cons.mp he with rfl | he
            · exact newArg_refs h3 (hv p.target a a' h1 h2)
            · exact newArgs_refs hv ps es0 h4 e he

theorem flat_rw (c : Cands) (mo : Nat → Option (List PMeta)) (req : Nat → Option Req) : ∀ e : Expr, flat req e →
    Done c mo req e → rw c mo e = e
  | .ref v, _, _ => rfl
  | .lit n, _, _ => rfl
  | .lv2rv e, h, d => by simp only [rw]; rw [flat_rw c mo req e h d]
  | .cast e, h, d => by simp only [rw]; rw [flat_rw c mo req e h d]
  | .paren e, h, d => by simp only [rw]; rw [flat_rw c mo req e h d]
  | .deref e, h, d => by simp only [rw]; rw [flat_rw c mo req e h d]
  | .addr e, h, d => by simp only [rw]; rw [flat_rw c mo req e h d]
  | .sub b i, h, d => by simp only [rw]; rw [flat_rw c mo req b h.1 d.1, flat_rw c mo req i h.2 d.2]
  | .member m b f a, h, _ => h.elim
  | .op k a b, h, d => by simp only [rw]; rw [flat_rw c mo req a h.1 d.1, flat_rw c mo req b h.2 d.2]
  | .call id args, h, d => by
    simp only [rw, d.2.1 h.1, Option.bind_none]
    rw [flat_rw c mo req args h.2 d.1]
  | .arg a rest, h, d => by simp only [rw]; rw [flat_rw c mo req a h.1 d.1, flat_rw c mo req rest h.2 d.2]
  | .nil, _, _ => rfl
  | .new v f, _, _ => rfl

/-- A list of arguments. -/
def isArg : Expr → Bool
  | .arg _ _ => true
  | _ => false

/-- What is known after a traversal. -/
structure Spec (req : Nat → Option Req) (mo : Nat → Option (List PMeta)) (e : Expr)
    (q : Option (Option (List PMeta) × Nat)) (st : St) (e' : Expr) (st' : St) : Prop where
  inner : st'.inner = false
  last : st'.last = none
  le : Le st.cands st'.cands
  clean : ∀ c, Le st'.cands c → Done c mo req e' → ∀ v, (c v).isSome = true →
    (isArg e = false ∨ q = none → v ∉ refs (rw c mo e')) ∧
      ∀ a ∈ argList e', inCands c a = none → v ∉ refs (rw c mo a)

theorem spec_trav (req : Nat → Option Req) (mo : Nat → Option (List PMeta)) (P : Var → Bool) :
    ∀ (e : Expr) (q : Option (Option (List PMeta) × Nat)) (st : St), tame req P e →
    (∀ v, (st.cands v).isSome = true → P v = true) → st.last = none → (st.inner = false ∨ spine req e) →
    Spec req mo e q st (trav req e q st).1 (trav req e q st).2 := by
  intro e
  induction e with
  | ref v =>
    intro q st _ _ hl hi
    have hi : st.inner = false := hi.resolve_right id
    unfold trav
    split_ifs with h h'
    · refine ⟨hi, hl, Le.refl _, fun c hc _ w hw => ⟨fun _ hm => ?_, fun a ha => by simp [argList] at ha⟩⟩
      simp only [rw, refs, List.mem_singleton] at hm
      subst hm
      have := hc.some hw
      simp only [visit] at this
      cases hx : st.cands w <;> simp_all
    · simp [hi] at h'
    · refine ⟨hi, hl, le_erase _ _, fun c hc _ w hw => ⟨fun _ hm => ?_, fun a ha => by simp [argList] at ha⟩⟩
      simp only [rw, refs, List.mem_singleton] at hm
      subst hm
      have := hc.some hw
      simp [erase] at this
  | lit n =>
    intro q st _ _ hl hi
    have hi : st.inner = false := hi.resolve_right id
    have hd : drop (visit st) = visit st := drop_outer hi
    simp only [trav, hd]
    exact ⟨hi, hl, Le.refl _, fun c hc _ w hw => ⟨fun _ => by simp [rw, refs], fun a ha => by simp [argList] at ha⟩⟩
  | lv2rv e ih =>
    intro q st ht hP hl hi
    have := ih none { st with asg := false } ht hP hl hi
    exact ⟨this.inner, this.last, this.le, fun c hc hd w hw =>
      ⟨fun _ => (this.clean c hc hd w hw).1 (.inr rfl), fun a ha => by simp [trav, argList] at ha⟩⟩
  | cast e ih =>
    intro q st ht hP hl hi
    have := ih none st ht hP hl hi
    have hd : drop (trav req e none st).2 = (trav req e none st).2 := drop_outer this.inner
    simp only [trav, hd]
    exact ⟨this.inner, this.last, this.le, fun c hc hd w hw =>
      ⟨fun _ => (this.clean c hc hd w hw).1 (.inr rfl), fun a ha => by simp [argList] at ha⟩⟩
  | paren e ih =>
    intro q st ht hP hl hi
    have := ih none (visit st) ht hP hl hi
    exact ⟨this.inner, this.last, this.le, fun c hc hd w hw =>
      ⟨fun _ => (this.clean c hc hd w hw).1 (.inr rfl), fun a ha => by simp [trav, argList] at ha⟩⟩
  | deref e ih =>
    intro q st ht hP hl hi
    have := ih none (visit st) ht hP hl hi
    exact ⟨this.inner, this.last, this.le, fun c hc hd w hw =>
      ⟨fun _ => (this.clean c hc hd w hw).1 (.inr rfl), fun a ha => by simp [trav, argList] at ha⟩⟩
  | addr e ih =>
    intro q st ht hP hl hi
    have := ih none (visit st) ht hP hl hi
    exact ⟨this.inner, this.last, this.le, fun c hc hd w hw =>
      ⟨fun _ => (this.clean c hc hd w hw).1 (.inr rfl), fun a ha => by simp [trav, argList] at ha⟩⟩
  | sub b i ihb ihi =>
    intro q st ht hP hl hi
    have h1 := ihb none (visit st) ht.1 hP hl hi
    have h2 := ihi none (trav req b none (visit st)).2 ht.2 (fun v hv => hP v (h1.le.some hv)) h1.last (.inl h1.inner)
    refine ⟨h2.inner, h2.last, h1.le.trans h2.le, fun c hc hd w hw => ⟨fun _ => ?_, fun a ha => by simp [trav, argList] at ha⟩⟩
    have k1 := (h1.clean c (h2.le.trans hc) hd.1 w hw).1 (.inr rfl)
    have k2 := (h2.clean c hc hd.2 w hw).1 (.inr rfl)
    simp only [trav, rw, refs, List.mem_append, not_or]
    exact ⟨k1, k2⟩
  | member m b f a ih =>
    intro q st ht hP hl _
    obtain ⟨ht, hb⟩ := ht
    rcases hb with hs | ⟨hf, hcnt, hidx⟩
    · have h1 := ih none { visit st with inner := true } ht hP hl (.inr hs)
      have hr : record st.asg b f (trav req b none { visit st with inner := true }).2 =
          (none, (trav req b none { visit st with inner := true }).2) := by
        unfold record
        simp only [h1.inner]
        generalize hg : (trav req b none { visit st with inner := true }).2 = z at h1
        rw [← h1.inner, ← h1.last]
      simp only [trav, hr]
      refine ⟨h1.inner, h1.last, h1.le, fun c hc hd w hw => ⟨fun _ => ?_, fun a ha => by simp [argList] at ha⟩⟩
      have k1 := (h1.clean c hc hd w hw).1 (.inr rfl)
      simpa only [rw, Option.bind_none, refs] using k1
    · have hid := flat_id req b { visit st with inner := true } hf
      have hrefs : ∀ x ∈ refs b, (st.cands x).isSome = true → x ∈ (refs b).filter P := fun x hx hs =>
        List.mem_filter.mpr ⟨hx, hP x hs⟩
      have hcase : (∀ x ∈ refs b, st.cands x = none) ∨ ∃ v, One st.cands v b := by
        have hle : ((refs b).filter (fun x => (st.cands x).isSome)).length ≤ ((refs b).filter P).length := by
          have : (refs b).filter (fun x => (st.cands x).isSome) =
              ((refs b).filter P).filter (fun x => (st.cands x).isSome) := by
            rw [List.filter_filter]
            apply List.filter_congr
            intro x _
            by_cases hx : (st.cands x).isSome = true
            · simp [hx, hP x hx]
            · simp [hx]
          rw [this]
          exact List.length_filter_le _ _
        have hle := Nat.le_trans hle hcnt
        cases hx : (refs b).filter (fun x => (st.cands x).isSome) with
        | nil => exact .inl (fun x hx' => by simpa using List.filter_eq_nil_iff.mp hx x hx')
        | cons v l =>
          rw [hx] at hle
          have : l = [] := by
            cases l with
            | nil => rfl
            | cons _ _ => simp at hle
          exact .inr ⟨v, by unfold One; rw [hx, this]⟩
      rcases hcase with h0 | ⟨v, h1⟩
      · obtain ⟨k1, k2⟩ := flat_zero req b { visit st with inner := true } hf rfl h0
        generalize hz : (trav req b none { visit st with inner := true }).2 = z at k1 k2
        have hk : z.last = none ∧ z.cands = st.cands := by
          rcases k2 with ⟨e1, e2⟩ | ⟨w, e1, _⟩
          · exact ⟨e1.trans hl, e2⟩
          · exact absurd e1 (by simp [visit, hl])
        have hr : record st.asg b f z = (none, { z with inner := false, last := none }) := by
          unfold record; simp only [k1, hk.1]
        simp only [trav, hz, hr, hid]
        refine ⟨rfl, rfl, by simp only [hk.2]; exact Le.refl _, fun c hc hd w hw =>
          ⟨fun _ => ?_, fun a ha => by simp [argList] at ha⟩⟩
        simp only [rw, Option.bind_none, refs]
        rw [flat_rw c mo req b hf hd]
        intro hm
        have := hc.some hw
        simp only [hk.2, h0 w hm] at this
        cases this
      · obtain ⟨k1, k2⟩ := flat_one req v b { visit st with inner := true } hf rfl hl h1
        generalize hz : (trav req b none { visit st with inner := true }).2 = z at k1 k2
        have only : ∀ w, (st.cands w).isSome = true → w ∈ refs b → w = v := by
          intro w hw hm
          have : w ∈ (refs b).filter (fun x => (st.cands x).isSome) := List.mem_filter.mpr ⟨hm, hw⟩
          rw [h1] at this
          simpa using this
        have hvs : (st.cands v).isSome = true ∧ v ∈ refs b := by
          have : v ∈ (refs b).filter (fun x => (st.cands x).isSome) := by rw [h1]; simp
          exact ⟨(List.mem_filter.mp this).2, (List.mem_filter.mp this).1⟩
        rcases k2 with ⟨e1, e2⟩ | ⟨e1, e2⟩
        · have e2 : z.cands = st.cands := e2
          have hr : record st.asg b f z = (some v, { z with
              cands := put st.cands v (note ((st.cands v).getD []) f st.asg (isSub b)), inner := false,
              last := none }) := by
            unfold record; simp only [k1, e1, e2]
          simp only [trav, hz, hr, hid]
          refine ⟨rfl, rfl, le_put hvs.1 _ _ _, fun c hc hd w hw => ⟨fun _ => ?_, fun a ha => by simp [argList] at ha⟩⟩
          have hws : (st.cands w).isSome = true := (le_put hvs.1 _ _ _).some (hc.some hw)
          have hfr : flat_rw c mo req b hf hd = flat_rw c mo req b hf hd := rfl
          have hb := flat_rw c mo req b hf hd
          rcases rw_member c mo (some v) b f a with ⟨v', r, hv', hr', ⟨b', i, hbi, hsb, h | h⟩ | h | h⟩ | ⟨hnone, h⟩
          · rw [h]
            simp only [refs, List.nil_append]
            rw [hb] at hbi
            intro hm
            have := hidx b' i hbi w hm
            rw [hP w hws] at this
            cases this
          · rw [h]
            simp only [refs, List.nil_append]
            rw [hb] at hbi
            intro hm
            have := hidx b' i hbi w hm
            rw [hP w hws] at this
            cases this
          · rw [h]; simp [refs]
          · rw [h]; simp [refs]
          · rw [h]
            simp only [refs, hb]
            intro hm
            have hwv := only w hws hm
            subst hwv
            exfalso
            obtain ⟨l, hlw⟩ := Option.isSome_iff_exists.mp hw
            obtain ⟨k, hk, hk'⟩ := hc w l hlw
            simp only [put, if_true, Option.some.injEq] at hk
            obtain ⟨s, hs, hsf⟩ := note_new (l := (st.cands w).getD []) (f := f) (a := st.asg) (b := isSub b)
            rw [hk] at hs
            obtain ⟨s', hs', hsf'⟩ := hk' s hs
            have := hnone w rfl
            simp only [flagOf, hlw, Option.bind_some] at this
            have := List.find?_eq_none.mp this s' hs'
            simp [hsf', hsf] at this
        · have e2 : z.cands = erase st.cands v := e2
          have hr : record st.asg b f z = (none, { z with inner := false, last := none }) := by
            unfold record; simp only [k1, e1]
          simp only [trav, hz, hr, hid]
          refine ⟨rfl, rfl, by simp only [e2]; exact le_erase _ _, fun c hc hd w hw =>
            ⟨fun _ => ?_, fun a ha => by simp [argList] at ha⟩⟩
          simp only [rw, Option.bind_none, refs]
          rw [flat_rw c mo req b hf hd]
          intro hm
          have hws := hc.some hw
          simp only [e2] at hws
          have := only w ((le_erase st.cands v).some hws) hm
          subst this
          simp [erase] at hws
  | op k a b iha ihb =>
    intro q st ht hP hl hi
    have h1 := iha none (visit st) ht.1 hP hl hi
    have h2 := ihb none (trav req a none (visit st)).2 ht.2 (fun v hv => hP v (h1.le.some hv)) h1.last (.inl h1.inner)
    have hd := drop_outer h2.inner
    simp only [trav, hd]
    refine ⟨h2.inner, h2.last, h1.le.trans h2.le, fun c hc hd w hw => ⟨fun _ => ?_, fun a ha => by simp [argList] at ha⟩⟩
    have k1 := (h1.clean c (h2.le.trans hc) hd.1 w hw).1 (.inr rfl)
    have k2 := (h2.clean c hc hd.2 w hw).1 (.inr rfl)
    simp only [rw, refs, List.mem_append, not_or]
    exact ⟨k1, k2⟩
  | call id args ih =>
    intro q st ht hP hl hi
    have key : ∀ (p : Option (List PMeta)), req id ≠ none → st.inner = false →
        Spec req mo (.call id args) q st (.call id (trav req args (some (p, 0)) st).1)
          (drop (trav req args (some (p, 0)) st).2) := by
      intro p hreq hi
      have h1 := ih (some (p, 0)) st ht hP hl (.inl hi)
      rw [drop_outer h1.inner]
      refine ⟨h1.inner, h1.last, h1.le, fun c hc hd w hw => ⟨fun _ => ?_, fun a ha => by simp [argList] at ha⟩⟩
      obtain ⟨hd1, _, hd2⟩ := hd
      have hs := hd2 hreq
      obtain ⟨es, hes⟩ := Option.isSome_iff_exists.mp hs
      simp only [rw, hes, refs]
      obtain ⟨ps, _, hps⟩ := Option.bind_eq_some_iff.mp hes
      refine refs_mkArgs es w (newArgs_refs ?_ ps es hps)
      intro n a a' ha ha' hn
      rw [argList_rw, List.getElem?_map, ha] at ha'
      simp only [Option.map_some, Option.some.injEq] at ha'
      subst ha'
      exact (h1.clean c hc hd1 w hw).2 a (List.mem_of_getElem? ha) hn
    cases hreq : req id with
    | none =>
      have hd : drop (visit st) = visit st := drop_none hl
      have h1 := ih none (visit st) ht hP hl (hi.imp_right fun h => h.2)
      simp only [trav, hreq, hd, drop_outer h1.inner]
      refine ⟨h1.inner, h1.last, h1.le, fun c hc hd w hw => ⟨fun _ => ?_, fun a ha => by simp [argList] at ha⟩⟩
      obtain ⟨hd1, hd2, _⟩ := hd
      simp only [rw, hd2 hreq, Option.bind_none, refs]
      exact (h1.clean c hc hd1 w hw).1 (.inr rfl)
    | some r =>
      have hi' : st.inner = false := hi.resolve_right (fun h => by rw [h.1] at hreq; cases hreq)
      cases r with
      | explicit ps => simp only [trav, hreq]; exact key (some ps) (by simp [hreq]) hi'
      | implicit => simp only [trav, hreq]; exact key none (by simp [hreq]) hi'
  | arg a rest iha ihr =>
    intro q st ht hP hl hi
    have gen : ∀ q', (q' = none ↔ q = none) → Spec req mo (.arg a rest) q st
        (.arg (trav req a none st).1 (trav req rest q' (trav req a none st).2).1)
        (trav req rest q' (trav req a none st).2).2 := by
      intro q' hq
      have h1 := iha none st ht.1 hP hl hi
      have h2 := ihr q' (trav req a none st).2 ht.2 (fun v hv => hP v (h1.le.some hv)) h1.last (.inl h1.inner)
      refine ⟨h2.inner, h2.last, h1.le.trans h2.le, fun c hc hd w hw => ⟨fun hq' => ?_, fun x hx hn => ?_⟩⟩
      · have hq' : q = none := hq'.resolve_left (by simp [isArg])
        have k1 := (h1.clean c (h2.le.trans hc) hd.1 w hw).1 (.inr rfl)
        have k2 := (h2.clean c hc hd.2 w hw).1 (.inr (hq.mpr hq'))
        simp only [rw, refs, List.mem_append, not_or]
        exact ⟨k1, k2⟩
      · simp only [argList, List.mem_cons] at hx
        rcases hx with rfl | hx
        · exact (h1.clean c (h2.le.trans hc) hd.1 w hw).1 (.inr rfl)
        · exact (h2.clean c hc hd.2 w hw).2 x hx hn
    cases q with
    | none => simpa only [trav, Option.map_none] using gen none Iff.rfl
    | some p =>
      obtain ⟨ps, i⟩ := p
      cases hc : inCands st.cands a with
      | none =>
        simpa only [trav, Option.bind_some, hc, Option.map_some] using gen (some (ps, i + 1)) (by simp)
      | some v =>
        have hga : getCandidate a = some v ∧ (st.cands v).isSome = true := by
          simpa [inCands, Option.filter_eq_some_iff] using hc
        have hi' : st.inner = false := hi.resolve_right (getCandidate_spine req a v hga.1)
        simp only [trav, Option.bind_some, hc]
        generalize hst : ({ st with cands := argCands ps i v st.cands } : St) = st1
        have hle : Le st.cands st1.cands := by
          subst hst
          cases ps with
          | none => exact Le.refl _
          | some ps => exact le_useArg i v ps st.cands hga.2
        have h2 := ihr (some (ps, i + 1)) st1 ht.2 (fun v hv => hP v (hle.some hv)) (by subst hst; exact hl)
          (.inl (by subst hst; exact hi'))
        refine ⟨h2.inner, h2.last, hle.trans h2.le, fun c hc hd w hw => ⟨fun hq => ?_, fun x hx hn => ?_⟩⟩
        · simp [isArg] at hq
        · simp only [argList, List.mem_cons] at hx
          rcases hx with rfl | hx
          · rw [getCandidate_rw c mo x v hga.1, getCandidate_refs x v hga.1, List.mem_singleton]
            rintro rfl
            have : inCands c x = some w := by
              simp [inCands, hga.1, hw]
            rw [this] at hn
            cases hn
          · exact (h2.clean c hc hd.2 w hw).2 x hx hn
  | nil =>
    intro q st _ _ hl hi
    have hi : st.inner = false := hi.resolve_right id
    exact ⟨hi, hl, Le.refl _, fun c hc _ w hw => ⟨fun _ => by simp [trav, rw, refs], fun a ha => by simp [trav, argList] at ha⟩⟩
  | new v f =>
    intro q st _ _ hl hi
    have hi : st.inner = false := hi.resolve_right id
    have hd : drop (visit st) = visit st := drop_outer hi
    simp only [trav, hd]
    exact ⟨hi, hl, Le.refl _, fun c hc _ w hw => ⟨fun _ => by simp [rw, refs], fun a ha => by simp [argList] at ha⟩⟩

end Tsar.StructRepl
