import Verif.Propagate.Model
/-!
# Replacement of references preserves values
-/
namespace Tsar.Propagate

variable {S : Src} {op : Nat → Int → Int → Int} {defs : Nat → Option (List Usage)}

/-! ## Names -/

/-- Stacks of declarations describe open scopes. -/
def Inv (S : Src) (st : St) (fs : List (List Nat)) : Prop :=
  st.frames = fs.map (·.map S.name) ∧ ∀ m, st.stacks m = fs.flatten.filter fun d => S.name d == m

theorem popAll_eq : ∀ (ns : List Nat) (st : Nat → List Nat) (m : Nat), popAll ns st m = (st m).drop (ns.count m) := by
  intro ns
  induction ns with
  | nil => intro st m; simp [popAll]
  | cons n ns ih =>
    intro st m
    simp only [popAll, ih, List.count_cons]
    by_cases h : m = n
    · subst h; simp [List.drop_drop, Nat.add_comm]
    · rw [if_neg h]
      simp [Ne.symm h]

theorem count_name (f : List Nat) (m : Nat) : (f.map S.name).count m = (f.filter fun d => S.name d == m).length := by
  rw [List.count, List.countP_map, List.countP_eq_length_filter]
  rfl

theorem inv_step {st : St} {fs : List (List Nat)} {ev : Ev} (h : Inv S st fs) (hn : nested fs.length [ev] = true) :
    Inv S (step S defs st ev).1 (scopes fs [ev]) := by
  obtain ⟨h1, h2⟩ := h
  cases ev with
  | enter => exact ⟨by simp [step, scopes, h1], fun m => by simp [step, scopes, h2]⟩
  | exit =>
    cases fs with
    | nil => simp [nested] at hn
    | cons f fs =>
      refine ⟨by simp [step, scopes, h1], fun m => ?_⟩
      simp only [step, scopes, h1, List.map_cons, List.headD_cons, List.tail_cons, popAll_eq, count_name, h2,
        List.flatten_cons, List.filter_append]
      rw [List.drop_left]
  | decl d =>
    cases fs with
    | nil => simp [nested] at hn
    | cons f fs =>
      refine ⟨by simp [step, scopes, h1], fun m => ?_⟩
      simp only [step, scopes, h2, List.flatten_cons, List.cons_append, List.filter_cons]
      by_cases hm : m = S.name d
      · subst hm; simp
      · rw [if_neg hm]; simp [Ne.symm hm]
  | expr e => exact ⟨h1, h2⟩
  | assign dl e =>
    simp only [step]
    cases defs dl with
    | none => exact ⟨h1, h2⟩
    | some us => exact ⟨h1, h2⟩

/-- The state of the visitor after a list of events. -/
def run (S : Src) (defs : Nat → Option (List Usage)) : St → List Ev → St
  | st, [] => st
  | st, ev :: es => run S defs (step S defs st ev).1 es

theorem scopes_cons (fs : List (List Nat)) (ev : Ev) (es : List Ev) : scopes fs (ev :: es) = scopes (scopes fs [ev]) es := by
  cases ev <;> cases fs <;> simp [scopes]

theorem nested_cons (n : Nat) (ev : Ev) (es : List Ev) {fs : List (List Nat)} (hf : fs.length = n)
    (h : nested n (ev :: es) = true) : nested n [ev] = true ∧ nested (scopes fs [ev]).length es = true := by
  subst hf
  cases ev <;> simp_all [nested, scopes]
  · cases fs <;> simp_all [scopes]

theorem inv_run : ∀ (es : List Ev) (st : St) (fs : List (List Nat)), Inv S st fs → nested fs.length es = true →
    Inv S (run S defs st es) (scopes fs es) := by
  intro es
  induction es with
  | nil => intro st fs h _; simpa [run, scopes] using h
  | cons ev es ih =>
    intro st fs h hn
    obtain ⟨h1, h2⟩ := nested_cons _ ev es rfl hn
    rw [scopes_cons]
    exact ih _ _ (inv_step h h1) h2

theorem traverse_getElem : ∀ (es : List Ev) (st : St) (i : Nat) (ev : Ev), es[i]? = some ev →
    (traverse S defs st es)[i]? = some (step S defs (run S defs st (es.take i)) ev).2 := by
  intro es
  induction es with
  | nil => intro st i ev h; simp at h
  | cons e es ih =>
    intro st i ev h
    cases i with
    | zero => simp only [List.getElem?_cons_zero, Option.some.injEq] at h; subst h; rfl
    | succ i => simpa [traverse, run] using ih (step S defs st e).1 i ev (by simpa using h)

/-- Scopes contain declared variables only. -/
theorem mem_scopes : ∀ (es : List Ev) (fs : List (List Nat)) (d : Nat), d ∈ (scopes fs es).flatten →
    d ∈ fs.flatten ∨ Ev.decl d ∈ es := by
  intro es
  induction es with
  | nil => intro fs d h; left; simpa [scopes] using h
  | cons ev es ih =>
    intro fs d h
    rw [scopes_cons] at h
    rcases ih _ d h with h | h
    · cases ev with
      | enter => left; simpa [scopes] using h
      | exit =>
        left
        cases fs with
        | nil => simpa [scopes] using h
        | cons f fs => simp only [scopes, List.tail_cons] at h; simp [h]
      | decl x =>
        cases fs with
        | nil => left; simpa [scopes] using h
        | cons f fs =>
          simp only [scopes, List.flatten_cons, List.cons_append, List.mem_cons] at h
          rcases h with rfl | h
          · right; simp
          · left; simpa using h
      | expr e => left; simpa [scopes] using h
      | assign dl e => left; simpa [scopes] using h
    · right; simp [h]

theorem find_pairwise {f : Nat → Nat} : ∀ (l : List Nat), l.Pairwise (fun a b => f a ≠ f b) → ∀ {a}, a ∈ l →
    l.find? (fun d => f d == f a) = some a := by
  intro l
  induction l with
  | nil => intro _ a h; cases h
  | cons x l ih =>
    intro hp a ha
    rw [List.pairwise_cons] at hp
    rcases List.mem_cons.1 ha with rfl | ha
    · simp
    · rw [List.find?_cons_of_neg (by simpa using hp.1 a ha)]
      exact ih hp.2 ha

/-- A visible declaration is the one its name refers to. -/
theorem visible_resolve {st : St} {fs : List (List Nat)} (h : Inv S st fs)
    (hglob : S.globals.Pairwise fun a b => S.name a ≠ S.name b)
    (hhide : ∀ d ∈ fs.flatten, ∀ g ∈ S.globals, S.name d ≠ S.name g) {a : Nat}
    (ha : visible S st a = true ∨ a ∈ S.globals) : resolve S fs (S.name a) = some a := by
  have ha' : (st.stacks (S.name a)).head? = some a ∨ a ∈ S.globals := by
    rcases ha with ha | ha
    · simpa [visible] using ha
    · exact Or.inr ha
  rw [resolve, List.find?_append]
  rcases ha' with ha | ha
  · rw [h.2, List.head?_filter] at ha
    rw [ha]; rfl
  · have h1 : fs.flatten.find? (fun d => S.name d == S.name a) = none := by
      rw [List.find?_eq_none]
      intro d hd hx
      exact hhide d hd a ha (by simpa using hx)
    rw [h1, Option.none_or]
    exact find_pairwise _ hglob ha

/-! ## Replacements -/

theorem text_eval {res : Nat → Option Nat} (s : Env) : ∀ (e : E), (∀ d ∈ e.refs, res (S.name d) = some d) →
    (e.text S).eval op res s = some (e.eval op s) := by
  intro e
  induction e with
  | num c => intro _; rfl
  | ref p d => intro h; simp [E.text, T.eval, E.eval, h d (by simp [E.refs])]
  | bin f a b iha ihb =>
    intro h
    simp only [E.text, T.eval, E.eval]
    rw [iha (fun d hd => h d (by simp [E.refs, hd])), ihb (fun d hd => h d (by simp [E.refs, hd]))]
    rfl
  | load a ih =>
    intro h
    simp only [E.text, T.eval, E.eval]
    rw [ih h]; rfl
  | loc l e ih => intro h; exact ih h

/-- The value of an expression depends on variables it refers to and on memory. -/
theorem eval_congr {s s' : Env} : ∀ (e : E), (∀ d ∈ e.refs, s.var d = s'.var d) → (e.reads = true → s.mem = s'.mem) →
    e.eval op s = e.eval op s' := by
  intro e
  induction e with
  | num c => intro _ _; rfl
  | ref p d => intro h _; exact h d (by simp [E.refs])
  | bin f a b iha ihb =>
    intro h hm
    simp only [E.eval]
    rw [iha (fun d hd => h d (by simp [E.refs, hd])) (fun h => hm (by simp [E.reads, h])),
      ihb (fun d hd => h d (by simp [E.refs, hd])) (fun h => hm (by simp [E.reads, h]))]
  | load a ih =>
    intro h hm
    simp only [E.eval]
    rw [ih h (fun _ => hm rfl), hm rfl]
  | loc l e ih => intro h hm; exact ih h hm

/-- All replacements at a location satisfy a predicate. -/
def All (P : Nat → Repl → Prop) (uses : Nat → Option (List (Nat × Repl))) (l : Nat) : Prop :=
  ∀ rs, uses l = some rs → ∀ x ∈ rs, P x.1 x.2

theorem scan_spec {avail : List Nat} : ∀ (refs : List Nat) (ok : Bool) (seen : List Nat),
    (scan S avail refs ok seen).2.1 = true →
    ok = true ∧ (scan S avail refs ok seen).1 = [] ∧ (∀ r ∈ refs, S.enum r = true ∨ r ∈ avail) ∧
    (∀ r, r ∈ seen ∨ r ∈ refs → r ∈ (scan S avail refs ok seen).2.2) := by
  intro refs
  induction refs with
  | nil => intro ok seen h; exact ⟨h, rfl, by simp, by simp [scan]⟩
  | cons r rs ih =>
    intro ok seen h
    simp only [scan] at h ⊢
    by_cases he : S.enum r = true
    · rw [if_pos he] at h ⊢
      obtain ⟨h1, h2, h3, h4⟩ := ih _ _ h
      refine ⟨h1, h2, ?_, ?_⟩
      · intro x hx
        rcases List.mem_cons.1 hx with rfl | hx
        · exact Or.inl he
        · exact h3 x hx
      · intro x hx
        refine h4 x ?_
        rcases hx with hx | hx
        · exact Or.inl (by simp [hx])
        · rcases List.mem_cons.1 hx with rfl | hx
          · exact Or.inl (by simp)
          · exact Or.inr hx
    · rw [if_neg he] at h ⊢
      by_cases ha : (!avail.contains r) = true
      · rw [if_pos ha] at h; cases h
      · rw [if_neg ha] at h ⊢
        obtain ⟨h1, h2, h3, h4⟩ := ih _ _ h
        refine ⟨h1, h2, ?_, ?_⟩
        · intro x hx
          rcases List.mem_cons.1 hx with rfl | hx
          · exact Or.inr (by simpa using ha)
          · exact h3 x hx
        · intro x hx
          refine h4 x ?_
          rcases hx with hx | hx
          · exact Or.inl (by simp [hx])
          · rcases List.mem_cons.1 hx with rfl | hx
            · exact Or.inl (by simp)
            · exact Or.inr hx

theorem addCands_all {P : Nat → Repl → Prop} {rhs : E} {seen : List Nat} : ∀ (Ds : List Nat) (rs : List (Nat × Repl)),
    (∀ x ∈ rs, P x.1 x.2) → (∀ D ∈ Ds, P D (rhs, seen)) → ∀ x ∈ addCands rhs seen Ds rs, P x.1 x.2 := by
  intro Ds
  induction Ds with
  | nil => intro rs h _ x hx; exact h x hx
  | cons D Ds ih =>
    intro rs h hD
    simp only [addCands]
    split
    · exact ih rs h (fun D hD' => hD D (by simp [hD']))
    · refine ih _ ?_ (fun D hD' => hD D (by simp [hD']))
      intro x hx
      rcases List.mem_cons.1 hx with rfl | hx
      · exact hD D (by simp)
      · exact h x hx

/-- Nothing is added after a reference which is not available. -/
theorem check_false {rhs : E} {uses : Nat → Option (List (Nat × Repl))} : ∀ (us : List Usage) (refs seen : List Nat),
    check S rhs us refs false seen uses = uses := by
  intro us
  induction us with
  | nil => intro _ _; rfl
  | cons u us ih =>
    intro refs seen
    simp only [check]
    have : (scan S u.avail refs false seen).2.1 = false := by
      cases hx : (scan S u.avail refs false seen).2.1 with
      | false => rfl
      | true => exact absurd (scan_spec _ _ _ hx).1 (by simp)
    rw [this]
    simpa using ih _ _

/-- The loop over usages if references which have been processed are available for all of them. -/
theorem check_all {P : Nat → Repl → Prop} {rhs : E} {l : Nat} : ∀ (us : List Usage) (refs : List Nat) (ok : Bool)
    (seen : List Nat) (uses : Nat → Option (List (Nat × Repl))), All P uses l →
    (∀ r ∈ rhs.refs, r ∈ seen ∨ r ∈ refs) →
    (∀ u ∈ us, u.loc = l → ∀ seen, (∀ r ∈ rhs.refs, r ∈ seen) → ∀ D ∈ u.cand, P D (rhs, seen)) →
    All P (check S rhs us refs ok seen uses) l := by
  intro us
  induction us with
  | nil => intro refs ok seen uses h _ _; exact h
  | cons u us ih =>
    intro refs ok seen uses h hs hu
    simp only [check]
    cases hb : (scan S u.avail refs ok seen).2.1 with
    | false =>
      simp only [Bool.false_eq_true, if_false]
      rw [check_false]; exact h
    | true =>
      obtain ⟨h1, h2, h3, h4⟩ := scan_spec _ _ _ hb
      refine ih _ _ _ _ ?_ ?_ (fun v hv => hu v (by simp [hv]))
      · intro rs hrs
        simp only [if_true] at hrs
        by_cases hl : l = u.loc
        · rw [if_pos hl] at hrs
          cases hrs
          refine addCands_all _ _ ?_ ?_
          · intro x hx
            cases hx' : uses l with
            | none => simp [hx'] at hx
            | some ys => rw [hx'] at hx; exact h ys hx' x hx
          · exact hu u (by simp) hl.symm _ (fun r hr => h4 r (hs r hr))
        · rw [if_neg hl] at hrs
          exact h rs hrs
      · intro r hr
        exact Or.inl (h4 r (hs r hr))

/-- The loop over usages: availability of references is checked for the first usage. -/
theorem check_inv {P : Nat → Repl → Prop} {rhs : E} {l : Nat} {us : List Usage}
    {uses : Nat → Option (List (Nat × Repl))} (h : All P uses l)
    (htail : ∀ u ∈ us.tail, ∀ r ∈ rhs.refs, S.enum r = true ∨ r ∈ u.avail)
    (hu : ∀ u ∈ us, u.loc = l → (∀ r ∈ rhs.refs, S.enum r = true ∨ r ∈ u.avail) →
      ∀ seen, (∀ r ∈ rhs.refs, r ∈ seen) → ∀ D ∈ u.cand, P D (rhs, seen)) :
    All P (check S rhs us rhs.refs true [] uses) l := by
  cases us with
  | nil => exact h
  | cons u us =>
    by_cases hav : ∀ r ∈ rhs.refs, S.enum r = true ∨ r ∈ u.avail
    · refine check_all _ _ _ _ _ h (fun r hr => Or.inr hr) ?_
      intro v hv hl
      refine hu v hv hl ?_
      rcases List.mem_cons.1 hv with rfl | hv
      · exact hav
      · exact htail v hv
    · -- the first usage forbids all replacements
      have hb : (scan S u.avail rhs.refs true []).2.1 = false := by
        cases hx : (scan S u.avail rhs.refs true []).2.1 with
        | false => rfl
        | true => exact absurd (scan_spec _ _ _ hx).2.2.1 hav
      simp only [check, hb, Bool.false_eq_true, if_false]
      rw [check_false]
      exact h

theorem run_append (es : List Ev) (ev : Ev) : ∀ (st : St), run S defs st (es ++ [ev]) = (step S defs (run S defs st es) ev).1 := by
  induction es with
  | nil => intro st; rfl
  | cons e es ih => intro st; exact ih _

/-- Replacements after a list of events. -/
theorem run_all {P : Nat → Repl → Prop} {l : Nat} : ∀ (es : List Ev) (st : St), All P st.uses l →
    (∀ dl rhs us u, Ev.assign dl rhs ∈ es → defs dl = some us → u ∈ us.tail →
      ∀ r ∈ rhs.refs, S.enum r = true ∨ r ∈ u.avail) →
    (∀ dl rhs us u, Ev.assign dl rhs ∈ es → defs dl = some us → u ∈ us → u.loc = l →
      (∀ r ∈ rhs.refs, S.enum r = true ∨ r ∈ u.avail) →
      ∀ seen, (∀ r ∈ rhs.refs, r ∈ seen) → ∀ D ∈ u.cand, P D (rhs, seen)) →
    All P (run S defs st es).uses l := by
  intro es
  induction es with
  | nil => intro st h _ _; exact h
  | cons ev es ih =>
    intro st h h1 h2
    refine ih _ ?_ (fun dl rhs us u hm => h1 dl rhs us u (by simp [hm])) (fun dl rhs us u hm => h2 dl rhs us u (by simp [hm]))
    cases ev with
    | enter => exact h
    | exit => exact h
    | decl d => exact h
    | expr e => exact h
    | assign dl e =>
      simp only [step]
      cases hd : defs dl with
      | none => exact h
      | some us =>
        exact check_inv h (fun u hu => h1 dl e us u (by simp) hd hu) (fun u hu => h2 dl e us u (by simp) hd hu)

/-- A text after replacement: `L` are locations which are used as a top of the stack of replacements. -/
theorem rewrite_eval {st : St} {fs : List (List Nat)} {s : Env} {L : Nat → Prop}
    (hres : ∀ a, visible S st a = true ∨ a ∈ S.globals → resolve S fs (S.name a) = some a)
    (hall : ∀ l, L l → All (fun D r => r.1.eval op s = s.var D ∧ ∀ d ∈ r.1.refs, d ∈ r.2 ∨ d ∈ S.globals) st.uses l) :
    ∀ (e : E) (cur : Option Nat), (∀ l, cur = some l → L l) → (∀ l ∈ e.locs, L l) →
      (∀ d ∈ e.refs, resolve S fs (S.name d) = some d) →
      (rewrite S st cur e).eval op (resolve S fs) s = some (e.eval op s) := by
  intro e
  induction e with
  | num c => intro _ _ _ _; rfl
  | ref p d =>
    intro cur hc _ hd
    have keep : (T.name (S.name d)).eval op (resolve S fs) s = some (E.eval op s (.ref p d)) := by
      simp [T.eval, E.eval, hd d (by simp [E.refs])]
    simp only [rewrite]
    split
    · exact keep
    · cases hb : cur.bind st.uses with
      | none => exact keep
      | some rs =>
        simp only
        cases hl : rs.lookup d with
        | none => exact keep
        | some r =>
          simp only
          split
          · next hv =>
            cases cur with
            | none => simp at hb
            | some l =>
              have hm : (d, r) ∈ rs := by
                rw [List.lookup_eq_some_iff] at hl
                obtain ⟨x, y, rfl, _⟩ := hl
                simp
              obtain ⟨g1, g2⟩ := hall l (hc l rfl) rs hb _ hm
              rw [text_eval s r.1 (fun x hx => hres x ?_), g1]
              · rfl
              · exact (g2 x hx).imp (fun h => by simpa using List.all_eq_true.1 hv x h) id
          · exact keep
  | bin f a b iha ihb =>
    intro cur hc hl hd
    simp only [rewrite, T.eval, E.eval]
    rw [iha cur hc (fun l h => hl l (by simp [E.locs, h])) (fun d h => hd d (by simp [E.refs, h])),
      ihb cur hc (fun l h => hl l (by simp [E.locs, h])) (fun d h => hd d (by simp [E.refs, h]))]
    rfl
  | load a ih =>
    intro cur hc hl hd
    simp only [rewrite, T.eval, E.eval]
    rw [ih cur hc hl hd]; rfl
  | loc l e ih =>
    intro cur hc hl hd
    simp only [rewrite, E.eval]
    refine ih _ ?_ (fun k h => hl k (by simp [E.locs, h])) hd
    intro k hk
    split at hk
    · cases hk; exact hl l (by simp [E.locs])
    · exact hc k hk

/-- What is known about a replacement which is built for a value in IR: the variable holds the constant, the address
of the object or the value of the other variable. -/
def DirectFact (S : Src) (s : Env) (D : Nat) : Direct → Prop
  | .const c => s.var D = c
  | .object d => d ∈ S.globals ∧ s.var D = s.var d
  | .var d => s.var D = s.var d

/-- What is known about a usage of a definition: candidates hold the value of the right-hand side in the point of the
definition (the state `s'`), available variables and enumerators of the right-hand side have the same values in both
points. Memory which is
read by the right-hand side has not been changed: the code does not check it (see `memory_fails`). -/
def DefFact (S : Src) (op : Nat → Int → Int → Int) (s : Env) (rhs : E) (u : Usage) : Prop :=
  ∃ s' : Env, (∀ D ∈ u.cand, s.var D = rhs.eval op s') ∧
    (∀ v ∈ rhs.refs, S.enum v = true ∨ v ∈ u.avail → s.var v = s'.var v) ∧ (rhs.reads = true → s.mem = s'.mem)

/-- A program is right, the analysis of IR is right for the expression `e` (the event `i`) and a state `s` it is
evaluated in: scopes are nested, global names differ, each name in the original text refers to the declaration from
the syntax tree, facts about replacements are valid in the state. -/
structure Right (S : Src) (op : Nat → Int → Int → Int) (defs : Nat → Option (List Usage))
    (direct : Nat → Option (List (Nat × Direct))) (evs : List Ev) (i : Nat) (e : E) (s : Env) : Prop where
  nest : nested 0 evs = true
  glob : S.globals.Pairwise fun a b => S.name a ≠ S.name b
  at_i : evs[i]?.bind Ev.exp? = some e
  scope : ∀ d ∈ e.refs, resolve S (scopes [] (evs.take i)) (S.name d) = some d
  dir : ∀ l ∈ e.locs, ∀ rs, direct l = some rs → ∀ x ∈ rs, DirectFact S s x.1 x.2
  dfn : ∀ j < i, ∀ dl rhs us u, evs[j]? = some (.assign dl rhs) → defs dl = some us → u ∈ us → u.loc ∈ e.locs →
    DefFact S op s rhs u

/-- **C112.** A text of any expression after propagation has the same value in the same state as the original
expression: all names refer to expected declarations and values are the same.

What is missing: global declarations must not be hidden by local ones (`hhide`, see `hidden_fails`), and references in
a right-hand side must be available in all usages of a definition except the first one (`htail`, see
`second_fails`). -/
theorem propagate_partial {evs : List Ev} {direct : Nat → Option (List (Nat × Direct))} {i : Nat} {e : E} {s : Env}
    (h : Right S op defs direct evs i e s)
    (hhide : ∀ d, Ev.decl d ∈ evs → ∀ g ∈ S.globals, S.name d ≠ S.name g)
    (htail : ∀ dl rhs us u, Ev.assign dl rhs ∈ evs → defs dl = some us → u ∈ us.tail →
      ∀ r ∈ rhs.refs, S.enum r = true ∨ r ∈ u.avail) :
    ∃ t, (traverse S defs (initial direct) evs)[i]? = some (some t) ∧
      t.eval op (resolve S (scopes [] (evs.take i))) s = some (e.eval op s) := by
  obtain ⟨hn, hglob, hie, hscope, hdirect, hdef⟩ := h
  obtain ⟨ev, hi, he⟩ := Option.bind_eq_some_iff.1 hie
  have hn' : nested 0 (evs.take i) = true := by
    have : ∀ (es : List Ev) (n i : Nat), nested n es = true → nested n (es.take i) = true := by
      intro es
      induction es with
      | nil => intro n i h; simpa using h
      | cons e es ih =>
        intro n i h
        cases i with
        | zero => rfl
        | succ i =>
          cases e <;> simp only [List.take_succ_cons, nested, Bool.and_eq_true] at h ⊢
          · exact ih _ _ h
          · exact ⟨h.1, ih _ _ h.2⟩
          · exact ⟨h.1, ih _ _ h.2⟩
          · exact ih _ _ h
          · exact ih _ _ h
    exact this _ _ _ hn
  have hinv : Inv S (run S defs (initial direct) (evs.take i)) (scopes [] (evs.take i)) :=
    inv_run _ _ [] ⟨rfl, fun m => rfl⟩ hn'
  have hsub : ∀ x, x ∈ evs.take i → x ∈ evs := fun x h => List.mem_of_mem_take h
  have hidx : ∀ x, x ∈ evs.take i → ∃ j < i, evs[j]? = some x := by
    intro x hx
    obtain ⟨j, hj⟩ := List.mem_iff_getElem?.1 hx
    rw [List.getElem?_take] at hj
    split at hj
    · next h => exact ⟨j, h, hj⟩
    · cases hj
  have hstep : (step S defs (run S defs (initial direct) (evs.take i)) ev).2 =
      some (rewrite S (run S defs (initial direct) (evs.take i)) none e) := by
    cases ev with
    | expr e' => cases he; rfl
    | assign dl e' =>
      cases he
      simp only [step]
      cases defs dl <;> rfl
    | enter => cases he
    | exit => cases he
    | decl d => cases he
  refine ⟨_, by rw [traverse_getElem _ _ _ _ hi, hstep], ?_⟩
  refine rewrite_eval (L := fun l => l ∈ e.locs) ?_ ?_ e none (by simp) (fun l h => h) hscope
  · intro a ha
    refine visible_resolve hinv hglob ?_ ha
    intro d hd g hg
    rcases mem_scopes _ _ _ hd with h | h
    · simp at h
    · exact hhide d (hsub _ h) g hg
  · intro l hl
    refine run_all _ _ ?_ ?_ ?_
    · intro rs hrs x hx
      simp only [initial, Option.map_eq_some_iff] at hrs
      obtain ⟨ds, hds, rfl⟩ := hrs
      obtain ⟨y, hy, rfl⟩ := List.mem_map.1 hx
      have hf := hdirect l hl ds hds y hy
      obtain ⟨D, r⟩ := y
      cases r with
      | const c => exact ⟨hf.symm, by simp [Direct.repl, E.refs]⟩
      | object d => exact ⟨hf.2.symm, by simp [Direct.repl, E.refs, hf.1]⟩
      | var d => exact ⟨Eq.symm hf, by simp [Direct.repl, E.refs]⟩
    · intro dl rhs us u hm; exact htail dl rhs us u (hsub _ hm)
    · intro dl rhs us u hm hd hu hul hav seen hseen D hD
      obtain ⟨j, hj, hjx⟩ := hidx _ hm
      obtain ⟨s', h1, h2, h3⟩ := hdef j hj dl rhs us u hjx hd hu (by rw [hul]; exact hl)
      refine ⟨?_, fun d hd => Or.inl (hseen d hd)⟩
      rw [h1 D hD]
      exact eval_congr rhs (fun d hd => h2 d hd (hav d hd)) h3

end Tsar.Propagate
