import Verif.SrcLoop.Model

/-!
# Ways out of loops, jumps into loops and calls
-/
namespace Tsar.SrcLoop

variable {callees : Nat → Option FnAttrs} {gs : List Kind}

/-! ### Sets of traits -/

theorem mem_addLoop_old {fl : Flags} {s L : Kind} {st : CSt} {e} (h : e ∈ st.loops) :
    e ∈ (st.addLoop fl s L).loops := by
  unfold CSt.addLoop
  split
  · exact h
  · simp [h]

theorem mem_addLoop_new (fl : Flags) (s L : Kind) (st : CSt) :
    ∃ fl', (L, s, fl') ∈ (st.addLoop fl s L).loops := by
  unfold CSt.addLoop
  split
  · next h =>
    obtain ⟨⟨a, b, c⟩, h1, h2, h3⟩ := h
    simp only at h2 h3
    subst h2 h3
    exact ⟨c, h1⟩
  · exact ⟨fl, by simp⟩

theorem mem_addLoop {fl : Flags} {s L : Kind} {st : CSt} {e} (h : e ∈ (st.addLoop fl s L).loops) :
    e ∈ st.loops ∨ e = (L, s, fl) := by
  unfold CSt.addLoop at h
  split at h
  · exact Or.inl h
  · simpa using h

theorem addLoop_func (fl : Flags) (s L : Kind) (st : CSt) : (st.addLoop fl s L).func = st.func := by
  unfold CSt.addLoop
  split <;> rfl

theorem addFunc_loops (fl : Flags) (s : Kind) (st : CSt) : (st.addFunc s fl).loops = st.loops := by
  unfold CSt.addFunc
  split <;> rfl

theorem mem_addFunc_old {fl : Flags} {s : Kind} {st : CSt} {e} (h : e ∈ st.func) :
    e ∈ (st.addFunc s fl).func := by
  unfold CSt.addFunc
  split
  · exact h
  · simp [h]

theorem mem_addFunc_new (fl : Flags) (s : Kind) (st : CSt) :
    ∃ fl', (s, fl') ∈ (st.addFunc s fl).func := by
  unfold CSt.addFunc
  split
  · next h =>
    obtain ⟨⟨a, b⟩, h1, h2⟩ := h
    simp only at h2
    subst h2
    exact ⟨b, h1⟩
  · exact ⟨fl, by simp⟩

theorem mem_addFunc {fl : Flags} {s : Kind} {st : CSt} {e} (h : e ∈ (st.addFunc s fl).func) :
    e ∈ st.func ∨ e = (s, fl) := by
  unfold CSt.addFunc at h
  split at h
  · exact Or.inl h
  · simpa using h

/-- A loop of insertions. -/
theorem fold_old (g : Kind → Flags) (s : Kind) (Ls : List Kind) (st : CSt) {e}
    (h : e ∈ st.loops) : e ∈ (Ls.foldl (fun st L => st.addLoop (g L) s L) st).loops := by
  induction Ls generalizing st with
  | nil => exact h
  | cons L Ls ih => exact ih _ (mem_addLoop_old h)

theorem fold_new (g : Kind → Flags) (s : Kind) (Ls : List Kind) (st : CSt) {L : Kind} (h : L ∈ Ls) :
    ∃ fl', (L, s, fl') ∈ (Ls.foldl (fun st L => st.addLoop (g L) s L) st).loops := by
  induction Ls generalizing st with
  | nil => simp at h
  | cons L' Ls ih =>
    rcases List.mem_cons.1 h with rfl | h
    · obtain ⟨fl', h'⟩ := mem_addLoop_new (g L) s L st
      exact ⟨fl', fold_old g s Ls _ h'⟩
    · exact ih _ h

theorem fold_from (g : Kind → Flags) (s : Kind) (Ls : List Kind) (st : CSt) {e}
    (h : e ∈ (Ls.foldl (fun st L => st.addLoop (g L) s L) st).loops) :
    e ∈ st.loops ∨ ∃ L ∈ Ls, e = (L, s, g L) := by
  induction Ls generalizing st with
  | nil => exact Or.inl h
  | cons L' Ls ih =>
    rcases ih _ h with h | ⟨L, h1, h2⟩
    · rcases mem_addLoop h with h | h
      · exact Or.inl h
      · exact Or.inr ⟨L', by simp, h⟩
    · exact Or.inr ⟨L, by simp [h1], h2⟩

theorem fold_func (g : Kind → Flags) (s : Kind) (Ls : List Kind) (st : CSt) :
    (Ls.foldl (fun st L => st.addLoop (g L) s L) st).func = st.func := by
  induction Ls generalizing st with
  | nil => rfl
  | cons L' Ls ih =>
    rw [List.foldl_cons, ih]
    exact addLoop_func _ _ _ _

theorem scopes_old {fl : Flags} {s : Kind} {scopes : List Kind} {st : CSt} {e}
    (h : e ∈ st.loops) : e ∈ (addScopes fl s scopes st).loops :=
  fold_old (fun _ => fl) s _ st h

theorem scopes_new {fl : Flags} {s : Kind} {scopes : List Kind} {st : CSt} {L : Kind}
    (h : L ∈ scopes) (hs : L.isSwitch = false) :
    ∃ fl', (L, s, fl') ∈ (addScopes fl s scopes st).loops :=
  fold_new (fun _ => fl) s _ st (List.mem_filter.2 ⟨h, by simp [hs]⟩)

theorem scopes_from {fl : Flags} {s : Kind} {scopes : List Kind} {st : CSt} {e}
    (h : e ∈ (addScopes fl s scopes st).loops) :
    e ∈ st.loops ∨ ∃ L ∈ scopes, L.isSwitch = false ∧ e = (L, s, fl) := by
  rcases fold_from (fun _ => fl) s _ st h with h | ⟨L, h1, h2⟩
  · exact Or.inl h
  · simp only [List.mem_filter, Bool.not_eq_eq_eq_not, Bool.not_true] at h1
    exact Or.inr ⟨L, h1.1, h1.2, h2⟩

theorem scopes_func (fl : Flags) (s : Kind) (scopes : List Kind) (st : CSt) :
    (addScopes fl s scopes st).func = st.func :=
  fold_func (fun _ => fl) s _ st

theorem visitGoto_eq (scopes : List Kind) (st : CSt) (s : Kind) (name : Nat) :
    ∃ Ls : List Kind, (∀ L ∈ Ls, L ∈ gs) ∧ visitGoto gs scopes st s name =
      addScopes { exit := true } s (scopes.filter (fun L => L ∉ Ls))
        (Ls.foldl (fun st L => st.addLoop (if L ∈ scopes then {} else { entry := true }) s L)
          (st.addFunc s {})) := by
  unfold visitGoto labelMap
  generalize hc : gs.filter _ = xs
  cases xs with
  | nil => exact ⟨[], by simp, by simp⟩
  | cons x xs =>
    refine ⟨x :: xs, ?_, ?_⟩
    · intro L hL
      rw [← hc] at hL
      exact (List.mem_filter.1 hL).1
    · simp only
      congr 2
      funext st L
      split <;> rfl

/-! ### Where traits come from -/

/-- `Kind` is a `goto`. -/
def Kind.isGoto : Kind → Bool
  | .gotoStmt _ _ => true
  | _ => false

/-- A trait of the loop `e.1` inserted when the statement `e.2.1` has been visited, `scopes` are the
statements in `mScopes`. -/
def Origin (callees : Nat → Option FnAttrs) (scopes : List Kind) (e : Kind × Kind × Flags) : Prop :=
  e.1.isGoto = true ∨ (e.1 ∈ scopes ∧ e.1.isSwitch = false ∧
    match e.2.1 with
    | .breakStmt _ => scopes.getLast? = some e.1 ∧ e.2.2 = { exit := true }
    | .returnStmt _ => e.2.2 = { exit := true }
    | .gotoStmt _ _ => e.2.2 = { exit := true }
    | .call _ c => e.2.2 = callFlags callees c
    | _ => False)

/-- The same for traits of a function. -/
def FuncOrigin (callees : Nat → Option FnAttrs) (e : Kind × Flags) : Prop :=
  match e.1 with
  | .returnStmt _ => e.2 = { exit := true }
  | .gotoStmt _ _ => e.2 = {}
  | .call _ c => e.2 = callFlags callees c
  | _ => False

theorem visit_old {scopes : List Kind} {st st' : CSt} {s : Kind}
    (h : visitNode callees gs scopes st s = some st') :
    (∀ e ∈ st.loops, e ∈ st'.loops) ∧ (∀ e ∈ st.func, e ∈ st'.func) := by
  unfold visitNode at h
  split at h
  · split at h
    · cases h
    · injection h with h
      subst h
      split
      · exact ⟨fun _ h => h, fun _ h => h⟩
      · exact ⟨fun _ h => mem_addLoop_old h, fun _ h => by rwa [addLoop_func]⟩
  · injection h with h
    subst h
    exact ⟨fun _ h => scopes_old (by rwa [addFunc_loops]),
      fun _ h => by rw [scopes_func]; exact mem_addFunc_old h⟩
  · next id name =>
    injection h with h
    subst h
    obtain ⟨Ls, _, h2⟩ := visitGoto_eq (gs := gs) scopes st (.gotoStmt id name) name
    rw [h2]
    constructor
    · intro e he
      refine scopes_old (fold_old _ _ _ _ ?_)
      rwa [addFunc_loops]
    · intro e he
      rw [scopes_func, fold_func]
      exact mem_addFunc_old he
  · injection h with h
    subst h
    refine ⟨fun _ h => ?_, fun _ h => mem_addFunc_old ?_⟩
    · rw [addFunc_loops]
      exact scopes_old h
    · rwa [scopes_func]
  · injection h with h
    subst h
    exact ⟨fun _ h => h, fun _ h => h⟩

theorem visit_from (hg : ∀ g ∈ gs, g.isGoto = true) {scopes : List Kind} {st st' : CSt} {s : Kind}
    (h : visitNode callees gs scopes st s = some st') :
    (∀ e ∈ st'.loops, e ∈ st.loops ∨ (e.2.1 = s ∧ Origin callees scopes e)) ∧
    (∀ e ∈ st'.func, e ∈ st.func ∨ (e.1 = s ∧ FuncOrigin callees e)) := by
  unfold visitNode at h
  split at h
  · split at h
    · cases h
    · next L hL =>
      injection h with h
      subst h
      split
      · exact ⟨fun _ h => Or.inl h, fun _ h => Or.inl h⟩
      · next hs =>
        refine ⟨fun e h => ?_, fun _ h => Or.inl (by rwa [addLoop_func] at h)⟩
        rcases mem_addLoop h with h | rfl
        · exact Or.inl h
        · exact Or.inr ⟨rfl, Or.inr ⟨List.mem_of_getLast? hL, by simpa using hs, hL, rfl⟩⟩
  · injection h with h
    subst h
    constructor
    · intro e h
      rcases scopes_from h with h | ⟨L, h1, h2, rfl⟩
      · rw [addFunc_loops] at h
        exact Or.inl h
      · exact Or.inr ⟨rfl, Or.inr ⟨h1, h2, rfl⟩⟩
    · intro e h
      rw [scopes_func] at h
      rcases mem_addFunc h with h | rfl
      · exact Or.inl h
      · exact Or.inr ⟨rfl, rfl⟩
  · next id name =>
    injection h with h
    subst h
    obtain ⟨Ls, h1, h2⟩ := visitGoto_eq (gs := gs) scopes st (.gotoStmt id name) name
    rw [h2]
    constructor
    · intro e he
      rcases scopes_from he with h | ⟨L, h3, h4, rfl⟩
      · rcases fold_from _ _ _ _ h with h | ⟨L, h3, rfl⟩
        · rw [addFunc_loops] at h
          exact Or.inl h
        · exact Or.inr ⟨rfl, Or.inl (hg L (h1 L h3))⟩
      · exact Or.inr ⟨rfl, Or.inr ⟨(List.mem_filter.1 h3).1, h4, rfl⟩⟩
    · intro e he
      rw [scopes_func, fold_func] at he
      rcases mem_addFunc he with h | rfl
      · exact Or.inl h
      · exact Or.inr ⟨rfl, rfl⟩
  · next id c =>
    injection h with h
    subst h
    constructor
    · intro e he
      rw [addFunc_loops] at he
      rcases scopes_from he with h | ⟨L, h1, h2, rfl⟩
      · exact Or.inl h
      · exact Or.inr ⟨rfl, Or.inr ⟨h1, h2, rfl⟩⟩
    · intro e he
      rcases mem_addFunc he with h | rfl
      · rw [scopes_func] at h
        exact Or.inl h
      · exact Or.inr ⟨rfl, rfl⟩
  · injection h with h
    subst h
    exact ⟨fun _ h => Or.inl h, fun _ h => Or.inl h⟩

/-- A statement which leaves a loop or calls a function is inserted, if it is visited. -/
theorem visit_new (hg : ∀ g ∈ gs, g.isGoto = true) {scopes : List Kind} {st st' : CSt} {s L : Kind}
    (h : visitNode callees gs scopes st s = some st') (hL : L ∈ scopes) (hl : L.isLoop = true)
    (hs : match s with
      | .breakStmt _ => scopes.getLast? = some L
      | .returnStmt _ => True
      | .gotoStmt _ _ => True
      | .call _ _ => True
      | _ => False) : ∃ fl, (L, s, fl) ∈ st'.loops := by
  have hsw : L.isSwitch = false := by cases L <;> simp_all [Kind.isLoop, Kind.isSwitch]
  have hgo : L.isGoto = false := by cases L <;> simp_all [Kind.isLoop, Kind.isGoto]
  unfold visitNode at h
  split at h
  · simp only at hs
    simp only [hs, hsw, Bool.false_eq_true, if_false] at h
    injection h with h
    subst h
    exact mem_addLoop_new _ _ _ _
  · injection h with h
    subst h
    exact scopes_new hL hsw
  · next id name =>
    injection h with h
    subst h
    obtain ⟨Ls, h1, h2⟩ := visitGoto_eq (gs := gs) scopes st (.gotoStmt id name) name
    rw [h2]
    refine scopes_new (List.mem_filter.2 ⟨hL, ?_⟩) hsw
    simp only [decide_eq_true_eq]
    intro h3
    have := hg L (h1 L h3)
    rw [hgo] at this
    cases this
  · injection h with h
    subst h
    rw [addFunc_loops]
    exact scopes_new hL hsw
  · next n1 n2 n3 n4 =>
    exfalso
    cases s with
    | breakStmt => exact n1 _ rfl
    | returnStmt => exact n2 _ rfl
    | gotoStmt => exact n3 _ _ rfl
    | call => exact n4 _ _ rfl
    | _ => exact hs

/-! ### The traversal -/

/-- The statements in `mScopes` inside `ctx`. -/
def scopesOf (ctx : List Kind) : List Kind := ctx.filter Kind.isScope

theorem traverse_node {scopes : List Kind} {k : Kind} {h b r : Forest} {st st' : CSt}
    (ht : traverse callees gs scopes (.node k h b r) st = some st') :
    ∃ s1 s2 s3, visitNode callees gs (scopes ++ scopesOf [k]) st k = some s1 ∧
      traverse callees gs (scopes ++ scopesOf [k]) h s1 = some s2 ∧
      traverse callees gs (scopes ++ scopesOf [k]) b s2 = some s3 ∧
      traverse callees gs scopes r s3 = some st' := by
  have he : (if k.isScope then scopes ++ [k] else scopes) = scopes ++ scopesOf [k] := by
    by_cases hk : k.isScope <;> simp [scopesOf, hk]
  simp only [traverse, he, Option.bind_eq_some_iff] at ht
  obtain ⟨s1, h1, s2, h2, s3, h3, h4⟩ := ht
  exact ⟨s1, s2, s3, h1, h2, h3, h4⟩

theorem traverse_old (f : Forest) {scopes : List Kind} {st st' : CSt}
    (ht : traverse callees gs scopes f st = some st') :
    (∀ e ∈ st.loops, e ∈ st'.loops) ∧ (∀ e ∈ st.func, e ∈ st'.func) := by
  induction f generalizing scopes st st' with
  | nil =>
    simp only [traverse, Option.some.injEq] at ht
    subst ht
    exact ⟨fun _ h => h, fun _ h => h⟩
  | node k h b r hh hb hr =>
    obtain ⟨s1, s2, s3, h1, h2, h3, h4⟩ := traverse_node ht
    exact ⟨fun e he => (hr h4).1 e ((hb h3).1 e ((hh h2).1 e ((visit_old h1).1 e he))),
      fun e he => (hr h4).2 e ((hb h3).2 e ((hh h2).2 e ((visit_old h1).2 e he)))⟩

theorem scopesOf_cons (scopes : List Kind) (k : Kind) (ctx : List Kind) :
    scopes ++ scopesOf (k :: ctx) = scopes ++ scopesOf [k] ++ scopesOf ctx := by
  by_cases hk : k.isScope <;> simp [scopesOf, hk]

/-- Each statement is visited with the scopes which enclose it. -/
theorem traverse_at {f : Forest} {ctx : List Kind} {s : Kind} (ha : At f ctx s)
    (hs : s.isScope = false) {scopes : List Kind} {st st' : CSt}
    (ht : traverse callees gs scopes f st = some st') :
    ∃ s1 s2, visitNode callees gs (scopes ++ scopesOf ctx) s1 s = some s2 ∧
      (∀ e ∈ s2.loops, e ∈ st'.loops) ∧ (∀ e ∈ s2.func, e ∈ st'.func) := by
  induction ha generalizing scopes st st' with
  | here k h b r =>
    obtain ⟨s1, s2, s3, h1, h2, h3, h4⟩ := traverse_node ht
    have : scopes ++ scopesOf [k] = scopes ++ scopesOf [] := by simp [scopesOf, hs]
    rw [this] at h1
    exact ⟨st, s1, h1,
      fun e he => (traverse_old _ h4).1 e ((traverse_old _ h3).1 e ((traverse_old _ h2).1 e he)),
      fun e he => (traverse_old _ h4).2 e ((traverse_old _ h3).2 e ((traverse_old _ h2).2 e he))⟩
  | header k b r _ ih =>
    obtain ⟨s1, s2, s3, h1, h2, h3, h4⟩ := traverse_node ht
    obtain ⟨a1, a2, h5, h6, h7⟩ := ih hs h2
    rw [scopesOf_cons]
    exact ⟨a1, a2, h5,
      fun e he => (traverse_old _ h4).1 e ((traverse_old _ h3).1 e (h6 e he)),
      fun e he => (traverse_old _ h4).2 e ((traverse_old _ h3).2 e (h7 e he))⟩
  | body k h r _ ih =>
    obtain ⟨s1, s2, s3, h1, h2, h3, h4⟩ := traverse_node ht
    obtain ⟨a1, a2, h5, h6, h7⟩ := ih hs h3
    rw [scopesOf_cons]
    exact ⟨a1, a2, h5, fun e he => (traverse_old _ h4).1 e (h6 e he),
      fun e he => (traverse_old _ h4).2 e (h7 e he)⟩
  | next k h b _ ih =>
    obtain ⟨s1, s2, s3, h1, h2, h3, h4⟩ := traverse_node ht
    exact ih hs h4

theorem traverse_from (hg : ∀ g ∈ gs, g.isGoto = true) (f : Forest) {scopes : List Kind}
    {st st' : CSt} (ht : traverse callees gs scopes f st = some st') :
    (∀ e ∈ st'.loops, e ∈ st.loops ∨
      ∃ ctx, At f ctx e.2.1 ∧ Origin callees (scopes ++ scopesOf ctx) e) ∧
    (∀ e ∈ st'.func, e ∈ st.func ∨ ((∃ ctx, At f ctx e.1) ∧ FuncOrigin callees e)) := by
  induction f generalizing scopes st st' with
  | nil =>
    simp only [traverse, Option.some.injEq] at ht
    subst ht
    exact ⟨fun _ h => Or.inl h, fun _ h => Or.inl h⟩
  | node k h b r hh hb hr =>
    obtain ⟨s1, s2, s3, h1, h2, h3, h4⟩ := traverse_node ht
    constructor
    · intro e he
      rcases (hr h4).1 e he with he | ⟨ctx, h5, h6⟩
      · rcases (hb h3).1 e he with he | ⟨ctx, h5, h6⟩
        · rcases (hh h2).1 e he with he | ⟨ctx, h5, h6⟩
          · rcases (visit_from hg h1).1 e he with he | ⟨h5, h6⟩
            · exact Or.inl he
            · refine Or.inr ⟨[], by rw [h5]; exact .here .., ?_⟩
              by_cases hk : k.isScope = true
              · rcases h6 with h6 | ⟨_, _, h6⟩
                · exact Or.inl h6
                · rw [h5] at h6
                  cases k <;> simp_all [Kind.isScope]
              · have : scopes ++ scopesOf [k] = scopes ++ scopesOf [] := by simp [scopesOf, hk]
                rwa [this] at h6
          · rw [← scopesOf_cons] at h6
            exact Or.inr ⟨_, .header _ _ _ h5, h6⟩
        · rw [← scopesOf_cons] at h6
          exact Or.inr ⟨_, .body _ _ _ h5, h6⟩
      · exact Or.inr ⟨_, .next _ _ _ h5, h6⟩
    · intro e he
      rcases (hr h4).2 e he with he | ⟨⟨ctx, h5⟩, h6⟩
      · rcases (hb h3).2 e he with he | ⟨⟨ctx, h5⟩, h6⟩
        · rcases (hh h2).2 e he with he | ⟨⟨ctx, h5⟩, h6⟩
          · rcases (visit_from hg h1).2 e he with he | ⟨h5, h6⟩
            · exact Or.inl he
            · exact Or.inr ⟨⟨[], by rw [h5]; exact .here ..⟩, h6⟩
          · exact Or.inr ⟨⟨_, .header _ _ _ h5⟩, h6⟩
        · exact Or.inr ⟨⟨_, .body _ _ _ h5⟩, h6⟩
      · exact Or.inr ⟨⟨_, .next _ _ _ h5⟩, h6⟩

theorem labels_goto (f : Forest) : ∀ g ∈ labels f, g.isGoto = true := by
  induction f with
  | nil => simp [labels]
  | node k h b r hh hb hr =>
    intro g hgm
    have hrest : g ∈ labels h ++ labels b ++ labels r → g.isGoto = true := by
      intro h1
      simp only [List.mem_append] at h1
      rcases h1 with (h1 | h1) | h1
      · exact hh g h1
      · exact hb g h1
      · exact hr g h1
    cases k with
    | gotoStmt id name =>
      simp only [labels, List.mem_cons] at hgm
      rcases hgm with rfl | hgm
      · rfl
      · exact hrest hgm
    | _ => exact hrest hgm

theorem control_from {f : Forest} {st : CSt} (hc : control callees f = some st) :
    (∀ e ∈ st.loops, ∃ ctx, At f ctx e.2.1 ∧ Origin callees (scopesOf ctx) e) ∧
    (∀ e ∈ st.func, (∃ ctx, At f ctx e.1) ∧ FuncOrigin callees e) := by
  obtain ⟨h1, h2⟩ := traverse_from (labels_goto f) f hc
  constructor
  · intro e he
    rcases h1 e he with h | h
    · simp at h
    · simpa using h
  · intro e he
    rcases h2 e he with h | h
    · simp at h
    · exact h

theorem isLoop_scope {L : Kind} (h : L.isLoop = true) : L.isScope = true := by
  cases L <;> simp_all [Kind.isLoop, Kind.isScope]

/-- The innermost statement a `break` may leave is a scope, so it is the innermost scope. -/
theorem last_scope {ctx : List Kind} {L : Kind} (hl : L.isScope = true)
    (h : (ctx.filter Kind.breakable).getLast? = some L) : (scopesOf ctx).getLast? = some L := by
  have h1 : scopesOf ctx = (ctx.filter Kind.breakable).filter Kind.isScope := by
    rw [List.filter_filter]
    unfold scopesOf
    congr 1
    funext k
    cases k <;> rfl
  obtain ⟨ys, h2⟩ := List.getLast?_eq_some_iff.1 h
  rw [h1, h2, List.filter_append]
  simp [hl]

/-! ### C120. Everything which leaves a loop is recorded -/

/-- Every `break`, `return` and `goto` which leaves a `for`, `while` or `do` is recorded as an exit
of this loop. -/
theorem exits_recorded {f : Forest} {st : CSt} (hc : control callees f = some st)
    {ctx : List Kind} {s L : Kind} (ha : At f ctx s) (hl : L.isLoop = true)
    (hx : Leaves f ctx L s) : ∃ fl, (L, s, fl) ∈ st.loops ∧ fl.exit = true := by
  have hs : s.isScope = false := by cases s <;> simp_all [Leaves, Kind.isScope]
  have hmem : L ∈ ctx := by
    cases s <;> simp only [Leaves] at hx
    · exact (List.mem_filter.1 (List.mem_of_getLast? hx)).1
    · exact hx
    · exact hx.1
  obtain ⟨s1, s2, h1, h2, _⟩ := traverse_at ha hs hc
  rw [List.nil_append] at h1
  have hsc : L ∈ scopesOf ctx := List.mem_filter.2 ⟨hmem, isLoop_scope hl⟩
  obtain ⟨fl, h3⟩ := visit_new (labels_goto f) h1 hsc hl (by
    cases s <;> simp only [Leaves] at hx ⊢
    exact last_scope (isLoop_scope hl) hx)
  refine ⟨fl, h2 _ h3, ?_⟩
  obtain ⟨ctx', _, h5⟩ := (control_from hc).1 _ (h2 _ h3)
  rcases h5 with h5 | ⟨_, _, h5⟩
  · cases L <;> simp_all [Kind.isLoop, Kind.isGoto]
  · cases s <;> simp_all [Leaves]

/-- Every `return` of a function is recorded as its exit. -/
theorem returns_recorded {f : Forest} {st : CSt} (hc : control callees f = some st)
    {ctx : List Kind} {id : Nat} (ha : At f ctx (.returnStmt id)) :
    ∃ fl, (.returnStmt id, fl) ∈ st.func ∧ fl.exit = true := by
  obtain ⟨s1, s2, h1, _, h2⟩ := traverse_at ha rfl hc
  simp only [visitNode, Option.some.injEq] at h1
  subst h1
  obtain ⟨fl, h3⟩ := mem_addFunc_new { exit := true } (.returnStmt id) s1
  rw [← scopes_func { exit := true } (.returnStmt id) ([] ++ scopesOf ctx)] at h3
  refine ⟨fl, h2 _ h3, ?_⟩
  have h4 := ((control_from hc).2 _ (h2 _ h3)).2
  simp only [FuncOrigin] at h4
  rw [h4]

/-! ### C121. Only what leaves a loop is recorded as an exit, jumps into a loop are recorded -/

/-- A statement which is recorded as an exit of a loop is inside this loop, and it is `break`,
`return` or `goto`. If it is not `goto` and it is not in a loop over a range, it leaves the loop. -/
theorem exits_precise_partial {f : Forest} {st : CSt} (hc : control callees f = some st)
    {L s : Kind} {fl : Flags} (h : (L, s, fl) ∈ st.loops) (hl : L.isLoop = true)
    (hx : fl.exit = true) : ∃ ctx, At f ctx s ∧ L ∈ ctx ∧
      (s.isGoto = true ∨ (∃ id, Kind.rangeFor id ∈ ctx) ∨ Leaves f ctx L s) := by
  obtain ⟨ctx, h1, h2⟩ := (control_from hc).1 _ h
  rcases h2 with h2 | ⟨h2, h3, h4⟩
  · cases L <;> simp_all [Kind.isLoop, Kind.isGoto]
  · have hm : L ∈ ctx := (List.mem_filter.1 h2).1
    refine ⟨ctx, h1, hm, ?_⟩
    cases s with
    | breakStmt id =>
      by_cases hr : ∃ id, Kind.rangeFor id ∈ ctx
      · exact Or.inr (Or.inl hr)
      · refine Or.inr (Or.inr ?_)
        have h5 : ctx.filter Kind.breakable = scopesOf ctx := by
          apply List.filter_congr
          intro k hk
          cases k <;> first | rfl | exact absurd ⟨_, hk⟩ hr
        simp only [Leaves, h5]
        exact h4.1
    | returnStmt id => exact Or.inr (Or.inr hm)
    | gotoStmt id n => exact Or.inl rfl
    | call id c =>
      simp only at h4
      rw [h4] at hx
      simp only [callFlags] at hx
      split at hx
      · split at hx <;> simp at hx
      · simp at hx
    | _ => simp at h4

/-- No jump into a loop is ever recorded. -/
theorem entry_never {f : Forest} {st : CSt} (hc : control callees f = some st) {L s : Kind}
    {fl : Flags} (h : (L, s, fl) ∈ st.loops) (hl : L.isLoop = true) : fl.entry = false := by
  obtain ⟨ctx, h1, h2⟩ := (control_from hc).1 _ h
  rcases h2 with h2 | ⟨h2, h3, h4⟩
  · cases L <;> simp_all [Kind.isLoop, Kind.isGoto]
  · cases s <;> simp only at h4
    · rw [h4.2]
    · rw [h4]
    · rw [h4]
    · rw [h4]
      simp only [callFlags]
      split
      · split <;> rfl
      · rfl

/-- A statement without parts. -/
def leaf (k : Kind) (r : Forest) : Forest := .node k .nil .nil r
/-- A statement with parts. -/
def withBody (k : Kind) (b r : Forest) : Forest := .node k .nil b r

/-- `goto m; while (...) { m: ...; }` -/
def jumpIn : Forest :=
  leaf (.gotoStmt 1 7) (withBody (.loop 2) (leaf (.label 3 7) .nil) .nil)

/-- A jump into a loop is not recorded. -/
theorem entry_fails : ∃ st ctx, control (fun _ => none) jumpIn = some st ∧
    At jumpIn ctx (.gotoStmt 1 7) ∧ Enters jumpIn ctx (.loop 2) (.gotoStmt 1 7) ∧
    ¬ ∃ fl, (.loop 2, .gotoStmt 1 7, fl) ∈ st.loops := by
  refine ⟨⟨[(.gotoStmt 1 7, {})], [(.gotoStmt 1 7, .gotoStmt 1 7, { entry := true })]⟩, [], by decide,
    .here .., ⟨by simp, [.loop 2], 3, .next _ _ _ (.body _ _ _ (.here ..)), by simp⟩,
    ?_⟩
  rintro ⟨fl, h⟩
  simp at h

/-- `while (...) { goto m; m: ...; }` -/
def jumpInside : Forest :=
  withBody (.loop 2) (leaf (.gotoStmt 1 7) (leaf (.label 3 7) .nil)) .nil

/-- A jump inside a loop is recorded as an exit. -/
theorem goto_exit_fails : ∃ st fl, control (fun _ => none) jumpInside = some st ∧
    LabelIn jumpInside (.loop 2) 7 ∧ (.loop 2, .gotoStmt 1 7, fl) ∈ st.loops ∧ fl.exit = true := by
  refine ⟨_, { exit := true }, rfl,
    ⟨[.loop 2], 3, .body _ _ _ (.next _ _ _ (.here ..)), by simp⟩, by decide, rfl⟩

/-- `while (...) { for (x : r) { break; } }` -/
def breakRange : Forest :=
  withBody (.loop 1) (withBody (.rangeFor 2) (leaf (.breakStmt 3) .nil) .nil) .nil

/-- A `break` of a loop over a range is recorded as an exit of the outer loop, where it does not
leave. -/
theorem break_range_fails : ∃ st fl, control (fun _ => none) breakRange = some st ∧
    (.loop 1, .breakStmt 3, fl) ∈ st.loops ∧ fl.exit = true ∧
    ∀ ctx, At breakRange ctx (.breakStmt 3) → ¬ Leaves breakRange ctx (.loop 1) (.breakStmt 3) := by
  refine ⟨_, { exit := true }, rfl, by decide, rfl, ?_⟩
  intro ctx ha
  cases ha with
  | header _ _ _ h => cases h
  | next _ _ _ h => cases h
  | body _ _ _ h =>
    cases h with
    | header _ _ _ h => cases h
    | next _ _ _ h => cases h
    | body _ _ _ h =>
      cases h with
      | header _ _ _ h => cases h
      | next _ _ _ h => cases h
      | body _ _ _ h => cases h
      | here => simp [Leaves, Kind.breakable]

/-! ### C122. The analysis does not fail -/

theorem traverse_none (f : Forest) (scopes : List Kind) (st : CSt) :
    traverse callees gs scopes f st = none ↔
      ∃ ctx id, At f ctx (.breakStmt id) ∧ scopes ++ scopesOf ctx = [] := by
  induction f generalizing scopes st with
  | nil =>
    constructor
    · intro h
      simp [traverse] at h
    · rintro ⟨ctx, id, h, _⟩
      cases h
  | node k h b r hh hb hr =>
    have he : (if k.isScope then scopes ++ [k] else scopes) = scopes ++ scopesOf [k] := by
      by_cases hk : k.isScope <;> simp [scopesOf, hk]
    simp only [traverse, he]
    have hv : visitNode callees gs (scopes ++ scopesOf [k]) st k = none ↔
        (∃ id, k = .breakStmt id) ∧ scopes = [] := by
      cases k <;> simp only [visitNode, scopesOf] <;> simp [Kind.isScope]
      cases hs : scopes.getLast? with
      | none => simpa using hs
      | some L =>
        simp only [reduceCtorEq, false_iff]
        rintro rfl
        simp at hs
    have key : (∃ ctx id, At (.node k h b r) ctx (.breakStmt id) ∧ scopes ++ scopesOf ctx = []) ↔
        ((∃ id, k = .breakStmt id) ∧ scopes = []) ∨
        (∃ ctx id, At h ctx (.breakStmt id) ∧ scopes ++ scopesOf [k] ++ scopesOf ctx = []) ∨
        (∃ ctx id, At b ctx (.breakStmt id) ∧ scopes ++ scopesOf [k] ++ scopesOf ctx = []) ∨
        (∃ ctx id, At r ctx (.breakStmt id) ∧ scopes ++ scopesOf ctx = []) := by
      constructor
      · rintro ⟨ctx, id, ha, h0⟩
        cases ha with
        | here => exact Or.inl ⟨⟨id, rfl⟩, by simpa [scopesOf] using h0⟩
        | header _ _ _ h1 =>
          rw [scopesOf_cons] at h0
          exact Or.inr (Or.inl ⟨_, _, h1, h0⟩)
        | body _ _ _ h1 =>
          rw [scopesOf_cons] at h0
          exact Or.inr (Or.inr (Or.inl ⟨_, _, h1, h0⟩))
        | next _ _ _ h1 => exact Or.inr (Or.inr (Or.inr ⟨_, _, h1, h0⟩))
      · rintro (⟨⟨id, rfl⟩, rfl⟩ | ⟨ctx, id, h1, h0⟩ | ⟨ctx, id, h1, h0⟩ | ⟨ctx, id, h1, h0⟩)
        · exact ⟨[], id, .here .., by simp [scopesOf]⟩
        · exact ⟨_, id, .header _ _ _ h1, by rw [scopesOf_cons]; exact h0⟩
        · exact ⟨_, id, .body _ _ _ h1, by rw [scopesOf_cons]; exact h0⟩
        · exact ⟨_, id, .next _ _ _ h1, h0⟩
    rw [key, ← hv]
    cases h1 : visitNode callees gs (scopes ++ scopesOf [k]) st k with
    | none => simp
    | some s1 =>
      simp only [Option.bind_some, reduceCtorEq, false_or]
      rw [← hh (scopes ++ scopesOf [k]) s1]
      cases h2 : traverse callees gs (scopes ++ scopesOf [k]) h s1 with
      | none => simp
      | some s2 =>
        simp only [Option.bind_some, reduceCtorEq, false_or]
        rw [← hb (scopes ++ scopesOf [k]) s2]
        cases h3 : traverse callees gs (scopes ++ scopesOf [k]) b s2 with
        | none => simp
        | some s3 =>
          simp only [Option.bind_some, reduceCtorEq, false_or]
          exact hr scopes s3

/-- The analysis fails if and only if there is a `break` outside `for`, `while`, `do` and `switch`:
in a correct program that is a `break` of a loop over a range. -/
theorem control_crash_iff (f : Forest) : control callees f = none ↔
    ∃ ctx id, At f ctx (.breakStmt id) ∧
      ∀ k ∈ ctx, k.isLoop = false ∧ ∀ id, k ≠ .switchStmt id := by
  rw [control, traverse_none]
  refine exists_congr fun ctx => exists_congr fun id => and_congr Iff.rfl ?_
  rw [List.nil_append, scopesOf, List.filter_eq_nil_iff]
  refine forall_congr' fun k => forall_congr' fun _ => ?_
  cases k <;> simp [Kind.isScope, Kind.isLoop]

/-- If each `break` is in a `for`, `while`, `do` or `switch`, the analysis does not fail. -/
theorem control_total_partial (f : Forest)
    (h : ∀ ctx id, At f ctx (.breakStmt id) →
      ∃ k ∈ ctx, k.isLoop = true ∨ ∃ id, k = .switchStmt id) :
    control callees f ≠ none := by
  intro hc
  obtain ⟨ctx, id, h1, h2⟩ := (control_crash_iff f).1 hc
  obtain ⟨k, h3, h4⟩ := h ctx id h1
  obtain ⟨h5, h6⟩ := h2 k h3
  rcases h4 with h4 | ⟨id', h4⟩
  · rw [h5] at h4
    cases h4
  · exact h6 id' h4

/-- `for (x : r) { break; }` -/
theorem control_crash_fails :
    control (fun _ => none) (withBody (.rangeFor 1) (leaf (.breakStmt 2) .nil) .nil) = none := by
  decide +kernel

/-! ### C123. Calls -/

/-- A call of a function of LLVM IR, and a call of an unknown expression, is recorded in the function
and in all the loops which contain it, with flags which cover what the function may do. -/
theorem calls_recorded_partial {f : Forest} {st : CSt} (hc : control callees f = some st)
    {ctx : List Kind} {id : Nat} {callee : Option Nat} (ha : At f ctx (.call id callee))
    (hk : ∀ d, callee = some d → callees d ≠ none) :
    (∃ fl, (.call id callee, fl) ∈ st.func ∧ Covers fl (callee.bind callees)) ∧
    ∀ L ∈ ctx, L.isLoop = true →
      ∃ fl, (L, .call id callee, fl) ∈ st.loops ∧ Covers fl (callee.bind callees) := by
  have hcov : Covers (callFlags callees callee) (callee.bind callees) := by
    cases callee with
    | none => simp [callFlags, Covers]
    | some d =>
      simp only [callFlags, Option.bind_some]
      cases hd : callees d with
      | none => exact absurd hd (hk d rfl)
      | some a => simp [Covers]
  obtain ⟨s1, s2, h1, h2, h3⟩ := traverse_at ha rfl hc
  rw [List.nil_append] at h1
  constructor
  · have h1' := h1
    simp only [visitNode, Option.some.injEq] at h1'
    obtain ⟨fl, h4⟩ := mem_addFunc_new (callFlags callees callee) (.call id callee)
      (addScopes (callFlags callees callee) (.call id callee) (scopesOf ctx) s1)
    rw [h1'] at h4
    refine ⟨fl, h3 _ h4, ?_⟩
    have h5 := ((control_from hc).2 _ (h3 _ h4)).2
    simp only [FuncOrigin] at h5
    rw [h5]
    exact hcov
  · intro L hL hl
    obtain ⟨fl, h4⟩ := visit_new (labels_goto f) h1 (List.mem_filter.2 ⟨hL, isLoop_scope hl⟩) hl
      trivial
    refine ⟨fl, h2 _ h4, ?_⟩
    obtain ⟨ctx', _, h5⟩ := (control_from hc).1 _ (h2 _ h4)
    rcases h5 with h5 | ⟨_, _, h5⟩
    · cases L <;> simp_all [Kind.isLoop, Kind.isGoto]
    · simp only at h5
      rw [h5]
      exact hcov

/-- A call of a variable which holds a pointer to a function is recorded as safe. -/
theorem calls_fails : ∃ st fl,
    control (fun _ => none) (withBody (.loop 1) (leaf (.call 2 (some 5)) .nil) .nil) = some st ∧
    (.loop 1, .call 2 (some 5), fl) ∈ st.loops ∧ ¬ Covers fl none :=
  ⟨_, {}, rfl, by decide, by simp [Covers]⟩

/-! ### Examples -/

/-- `while { switch { break; } if { break; } for { return; } goto out; f(); } out: ;` -/
def exitsSample : Forest :=
  withBody (.loop 1)
    (withBody (.switchStmt 2) (leaf (.breakStmt 3) .nil)
    (withBody (.other 4) (leaf (.breakStmt 5) .nil)
    (withBody (.forLoop 6) (leaf (.returnStmt 7) .nil)
    (leaf (.gotoStmt 8 9) (leaf (.call 10 (some 11)) .nil)))))
  (leaf (.label 12 9) .nil)

example : (control (fun _ => some ⟨true, false, false, true⟩) exitsSample).map
    (fun st => st.loops.map (fun e => (e.1, e.2.1, e.2.2.exit))) =
    some [(.loop 1, .breakStmt 5, true), (.loop 1, .returnStmt 7, true),
      (.forLoop 6, .returnStmt 7, true), (.gotoStmt 8 9, .gotoStmt 8 9, false),
      (.loop 1, .gotoStmt 8 9, true), (.loop 1, .call 10 (some 11), false)] := by
  decide +kernel

/-- The hypotheses of `exits_recorded` are met. -/
example : ∃ st, control (fun _ => none) exitsSample = some st ∧
    ∃ fl, (.loop 1, .breakStmt 5, fl) ∈ st.loops ∧ fl.exit = true :=
  ⟨_, rfl, exits_recorded (callees := fun _ => none) (f := exitsSample) rfl
    (ctx := [.loop 1, .other 4])
    (.body _ _ _ (.next _ _ _ (.body _ _ _ (.here ..)))) rfl (by simp [Leaves, Kind.breakable])⟩

/-- The hypotheses of `calls_recorded_partial` are met. -/
example : ∃ st, control (fun _ => some ⟨true, false, false, true⟩) exitsSample = some st ∧
    ∃ fl, (.loop 1, .call 10 (some 11), fl) ∈ st.loops ∧ fl.unwind = true := by
  refine ⟨_, rfl, ?_⟩
  obtain ⟨fl, h1, h2⟩ := (calls_recorded_partial (callees := fun _ => some ⟨true, false, false, true⟩)
    (f := exitsSample) rfl (ctx := [.loop 1]) (id := 10) (callee := some 11)
    (.body _ _ _ (.next _ _ _ (.next _ _ _ (.next _ _ _ (.next _ _ _ (.here ..))))))
    (by simp)).2 (.loop 1) (by simp) rfl
  refine ⟨fl, h1, ?_⟩
  simp only [Covers, Option.bind_some] at h2
  exact h2.2.1 (by simp)

end Tsar.SrcLoop
