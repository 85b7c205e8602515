import Verif.Matcher.Class

/-!
# Order of matching, absence of undefined behaviour
-/
namespace Tsar.Matcher

section
variable {asserts : Bool} {presumed : Nat → Place} {loops : List IRLoop}

/-- No loop of LLVM IR starts at the initialization of a `for`: there is a position of the loop
itself in its metadata (Clang attaches it to every explicit loop). -/
def Simple (presumed : Nat → Place) (stmts : List Stmt) (loops : List IRLoop) : Prop :=
  ∀ s ∈ stmts, ∀ p, s.initPlace presumed = some p → loopsAt loops p = []

/-- The map of loops after the visit of `pre`. -/
def Rel (loops : List IRLoop) (pre : List Stmt) (m : IRMap) : Prop :=
  ∀ p, m p = if loopsAt loops p = [] then none else
    some ⟨((loopsAt loops p).drop (stmtsAt pre p).length).reverse,
      decide (2 ≤ (loopsAt loops p).length)⟩

/-- The next statement takes a loop from an exhausted queue. -/
def Bad (asserts : Bool) (loops : List IRLoop) (pre : List Stmt) (s : Stmt) : Prop :=
  ∃ p, s.begin_ = .file p ∧ (if asserts then 1 else 2) ≤ (loopsAt loops p).length ∧
    (loopsAt loops p).length ≤ (stmtsAt pre p).length

theorem stmtsAt_snoc (pre : List Stmt) (s : Stmt) (p : Place) :
    stmtsAt (pre ++ [s]) p = if s.begin_ = .file p then stmtsAt pre p ++ [s] else stmtsAt pre p := by
  unfold stmtsAt
  by_cases h : s.begin_ = .file p <;> simp [List.filter_append, h]

theorem visitInit_simple {stmts : List Stmt} {loops : List IRLoop}
    (hsim : Simple presumed stmts loops) {pre : List Stmt} {st : St} (hr : Rel loops pre st.ir)
    {s : Stmt} (hs : s ∈ stmts) : visitInit asserts presumed st s = some none := by
  unfold visitInit
  split
  · rfl
  · next p hp =>
    have := hr p
    rw [if_pos (hsim s hs p hp)] at this
    rw [this]

/-- The result of a look-up. -/
theorem findIR_rel {loops : List IRLoop} {pre : List Stmt} {m : IRMap} (hr : Rel loops pre m)
    {s : Stmt} {p : Place} (hb : s.begin_ = .file p) :
    (Bad asserts loops pre s ∧ findIR asserts m (some p) = none) ∨
    (¬ Bad asserts loops pre s ∧ ∃ m', findIR asserts m (some p) =
      some ((loopsAt loops p)[(stmtsAt pre p).length]?, m') ∧ Rel loops (pre ++ [s]) m') := by
  have hbad : Bad asserts loops pre s ↔ (if asserts then 1 else 2) ≤ (loopsAt loops p).length ∧
      (loopsAt loops p).length ≤ (stmtsAt pre p).length := by
    constructor
    · rintro ⟨p', h1, h2⟩
      rw [hb] at h1
      injection h1 with h1
      exact h1 ▸ h2
    · exact fun h => ⟨p, hb, h⟩
  rw [hbad]
  set L := loopsAt loops p with hL
  set n := (stmtsAt pre p).length with hn
  have hother : ∀ p', p' ≠ p → stmtsAt (pre ++ [s]) p' = stmtsAt pre p' := by
    intro p' hp'
    rw [stmtsAt_snoc, if_neg]
    rw [hb]
    intro hc
    injection hc with hc
    exact hp' hc.symm
  have hthis : (stmtsAt (pre ++ [s]) p).length = n + 1 := by
    rw [stmtsAt_snoc, if_pos hb]
    simp [hn]
  have hmp := hr p
  unfold findIR
  by_cases h0 : L = []
  · right
    rw [← hL, h0] at hmp
    simp only [if_true] at hmp
    rw [h0]
    refine ⟨?_, m, by simp [hmp], ?_⟩
    · cases asserts <;> simp
    · intro p'
      by_cases hp' : p' = p
      · subst hp'
        rw [← hL, if_pos h0]
        exact hmp
      · rw [hother p' hp']
        exact hr p'
  · rw [← hL, if_neg h0] at hmp
    simp only [hmp]
    unfold pop
    simp only [List.getLast?_reverse, List.head?_drop]
    by_cases hlt : n < L.length
    · right
      rw [List.getElem?_eq_getElem hlt]
      refine ⟨by omega, _, rfl, ?_⟩
      intro p'
      by_cases hp' : p' = p
      · subst hp'
        rw [hthis, ← hL, if_neg h0]
        simp only [upd, if_true]
        simp only [List.dropLast_reverse, List.tail_drop, ← hn]
      · rw [hother p' hp']
        simp only [upd, if_neg hp']
        exact hr p'
    · have hnone : L[n]? = none := by simpa using hlt
      rw [hnone]
      have hpos : 0 < L.length := List.length_pos_iff.2 h0
      by_cases hc : (asserts || decide (2 ≤ L.length)) = true
      · left
        rw [if_pos hc]
        refine ⟨⟨?_, by omega⟩, rfl⟩
        cases asserts with
        | true => simp only [if_true]; omega
        | false => simpa using hc
      · right
        rw [if_neg hc]
        refine ⟨?_, m, rfl, ?_⟩
        · rintro ⟨h1, _⟩
          cases asserts with
          | true => simp at hc
          | false =>
            simp only [Bool.false_or, decide_eq_true_eq] at hc
            simp only [Bool.false_eq_true, if_false] at h1
            exact hc h1
        · intro p'
          by_cases hp' : p' = p
          · subst hp'
            rw [hthis, ← hL, if_neg h0, hmp]
            have h1 : L.drop n = [] := List.drop_eq_nil_of_le (by omega)
            have h2 : L.drop (n + 1) = [] := List.drop_eq_nil_of_le (by omega)
            rw [h1, h2]
          · rw [hother p' hp']
            exact hr p'

/-- A step of the traversal. -/
theorem step_rel {stmts : List Stmt} {loops : List IRLoop} (hsim : Simple presumed stmts loops)
    {pre : List Stmt} {st : St} (hr : Rel loops pre st.ir) {s : Stmt} (hs : s ∈ stmts) :
    (Bad asserts loops pre s ∧ visitExplicit asserts presumed st s = none) ∨
    (¬ Bad asserts loops pre s ∧ ∃ st', visitExplicit asserts presumed st s = some st' ∧
      Rel loops (pre ++ [s]) st'.ir ∧
      (∀ p, s.begin_ = .file p → s.isLoop → ∀ l,
        (loopsAt loops p)[(stmtsAt pre p).length]? = some l →
        st'.pairs = emplace st.pairs s l)) := by
  unfold visitExplicit
  have hne : (∀ p, s.begin_ ≠ .file p) → Rel loops (pre ++ [s]) st.ir ∧
      ¬ Bad asserts loops pre s := by
    intro h
    constructor
    · intro p
      rw [stmtsAt_snoc, if_neg (h p)]
      exact hr p
    · rintro ⟨p, hp, _⟩
      exact h p hp
  cases hb : s.begin_ with
  | inMacro raw =>
    right
    obtain ⟨h1, h2⟩ := hne (by simp [hb])
    refine ⟨h2, _, rfl, ?_, by simp⟩
    unfold visitFromMacro
    split <;> exact h1
  | unknown =>
    right
    obtain ⟨h1, h2⟩ := hne (by simp [hb])
    refine ⟨h2, ?_⟩
    simp only [visitInit_simple (asserts := asserts) hsim hr hs]
    unfold visitStart
    have hpl : s.place presumed = none := by simp [Stmt.place, hb, Pos.place]
    rw [hpl]
    simp only [findIR]
    split
    · exact ⟨_, rfl, h1, by simp⟩
    · exact ⟨_, rfl, h1, by simp⟩
  | file p =>
    simp only [visitInit_simple (asserts := asserts) hsim hr hs]
    unfold visitStart
    have hpl : s.place presumed = some p := by simp [Stmt.place, hb, Pos.place]
    rw [hpl]
    rcases findIR_rel (asserts := asserts) hr hb with ⟨h1, h2⟩ | ⟨h1, m', h2, h3⟩
    · left
      rw [h2]
      exact ⟨h1, rfl⟩
    · right
      refine ⟨h1, ?_⟩
      rw [h2]
      simp only [Pos.file.injEq]
      split
      · cases hc : (loopsAt loops p)[(stmtsAt pre p).length]? with
        | none =>
          refine ⟨_, rfl, h3, ?_⟩
          rintro p' rfl _ l hl
          rw [hc] at hl
          cases hl
        | some l =>
          refine ⟨_, rfl, h3, ?_⟩
          rintro p' rfl _ l' hl
          rw [hc] at hl
          injection hl with hl
          rw [hl]
      · next hl =>
        cases hc : (loopsAt loops p)[(stmtsAt pre p).length]? with
        | none => exact ⟨_, rfl, h3, fun _ _ h => absurd h hl⟩
        | some l =>
          dsimp only
          split
          · exact ⟨_, rfl, h3, fun _ _ h => absurd h hl⟩
          · exact ⟨_, rfl, h3, fun _ _ h => absurd h hl⟩

/-- Some statement takes a loop from an exhausted queue. -/
theorem bad_iff {loops : List IRLoop} : ∀ (ss pre : List Stmt),
    (∃ a s b, ss = a ++ s :: b ∧ Bad asserts loops (pre ++ a) s) ∨
      (∃ p, (if asserts then 1 else 2) ≤ (loopsAt loops p).length ∧
        (loopsAt loops p).length < (stmtsAt pre p).length) ↔
    ∃ p, (if asserts then 1 else 2) ≤ (loopsAt loops p).length ∧
      (loopsAt loops p).length < (stmtsAt (pre ++ ss) p).length := by
  intro ss
  induction ss with
  | nil =>
    intro pre
    simp
  | cons s ss ih =>
    intro pre
    have := ih (pre ++ [s])
    rw [show pre ++ s :: ss = pre ++ [s] ++ ss by simp, ← this]
    constructor
    · rintro (⟨a, s', b, h1, h2⟩ | ⟨p, h1, h2⟩)
      · cases a with
        | nil =>
          simp only [List.nil_append, List.cons.injEq] at h1
          obtain ⟨rfl, rfl⟩ := h1
          obtain ⟨p, h3, h4, h5⟩ := h2
          refine Or.inr ⟨p, h4, ?_⟩
          rw [stmtsAt_snoc, if_pos h3]
          simp only [List.append_nil] at h5
          simp only [List.length_append, List.length_cons, List.length_nil]
          omega
        | cons x a =>
          simp only [List.cons_append, List.cons.injEq] at h1
          obtain ⟨rfl, rfl⟩ := h1
          exact Or.inl ⟨a, s', b, rfl, by simpa using h2⟩
      · refine Or.inr ⟨p, h1, ?_⟩
        rw [stmtsAt_snoc]
        split
        · simp only [List.length_append, List.length_cons, List.length_nil]
          omega
        · exact h2
    · rintro (⟨a, s', b, h1, h2⟩ | ⟨p, h1, h2⟩)
      · exact Or.inl ⟨s :: a, s', b, by simp [h1], by simpa using h2⟩
      · rw [stmtsAt_snoc] at h2
        split at h2
        · next hb =>
          simp only [List.length_append, List.length_cons, List.length_nil] at h2
          by_cases hc : (loopsAt loops p).length < (stmtsAt pre p).length
          · exact Or.inr ⟨p, h1, hc⟩
          · exact Or.inl ⟨[], s, ss, rfl, p, hb, h1, by simp; omega⟩
        · exact Or.inr ⟨p, h1, h2⟩

theorem explicit_rel {stmts : List Stmt} {loops : List IRLoop} (hsim : Simple presumed stmts loops) :
    ∀ (ss pre : List Stmt) (st : St), Rel loops pre st.ir → (∀ s ∈ ss, s ∈ stmts) →
    ((∃ a s b, ss = a ++ s :: b ∧ Bad asserts loops (pre ++ a) s) ∧
      explicit asserts presumed st ss = none) ∨
    ((¬ ∃ a s b, ss = a ++ s :: b ∧ Bad asserts loops (pre ++ a) s) ∧
      ∃ st', explicit asserts presumed st ss = some st' ∧ Rel loops (pre ++ ss) st'.ir) := by
  intro ss
  induction ss with
  | nil =>
    intro pre st hr _
    right
    exact ⟨by simp, st, rfl, by simpa using hr⟩
  | cons s ss ih =>
    intro pre st hr hs
    simp only [explicit]
    rcases step_rel (asserts := asserts) hsim hr (hs s (by simp)) with ⟨h1, h2⟩ | ⟨h1, st', h2, h3, _⟩
    · left
      rw [h2]
      exact ⟨⟨[], s, ss, rfl, by simpa using h1⟩, rfl⟩
    · rw [h2]
      rcases ih (pre ++ [s]) st' h3 (fun x hx => hs x (by simp [hx])) with ⟨⟨a, x, b, h4, h5⟩, h6⟩ |
        ⟨h4, st'', h5, h6⟩
      · left
        exact ⟨⟨s :: a, x, b, by simp [h4], by simpa using h5⟩, h6⟩
      · right
        refine ⟨?_, st'', h5, by simpa using h6⟩
        rintro ⟨a, x, b, h7, h8⟩
        cases a with
        | nil =>
          simp only [List.nil_append, List.cons.injEq] at h7
          obtain ⟨rfl, rfl⟩ := h7
          exact h1 (by simpa using h8)
        | cons y a =>
          simp only [List.cons_append, List.cons.injEq] at h7
          obtain ⟨rfl, rfl⟩ := h7
          exact h4 ⟨a, x, b, rfl, by simpa using h8⟩

theorem Rel.init (loops : List IRLoop) : Rel loops [] (init loops).ir := by
  intro p
  show build loops p = _
  rw [build_eq]
  simp [stmtsAt]

/-! ### Pairs are never lost -/

theorem popPairs_mono : ∀ {z m : List (Stmt × IRLoop)} {e : Stmt × IRLoop}, e ∈ m →
    e ∈ popPairs m z
  | [], _, _, h => h
  | (s, l) :: r, m, e, h => by
    simp only [popPairs]
    exact popPairs_mono (subset_emplace h)

theorem explicit_mono : ∀ {ss : List Stmt} {st st' : St},
    explicit asserts presumed st ss = some st' → ∀ e ∈ st.pairs, e ∈ st'.pairs
  | [], st, st', h => by
    simp only [explicit, Option.some.injEq] at h
    subst h
    exact fun _ h => h
  | s :: ss, st, st', h => by
    simp only [explicit] at h
    split at h
    · simp at h
    · next st1 h1 =>
      intro e he
      refine explicit_mono h e ?_
      rcases visitExplicit_cases h1 with ⟨raw, hb, rfl⟩ | ⟨_, h2 | ⟨_, h2⟩⟩
      · unfold visitFromMacro
        split <;> exact he
      · obtain ⟨p, q, l, rest, _, _, _, _, hpairs, _⟩ := visitInit_cases h2
        rw [hpairs]
        exact subset_emplace he
      · obtain ⟨hmac, hc⟩ := visitStart_cases h2
        rcases hc with ⟨_, _, hpairs, _⟩ | ⟨p, q, l, rest, _, _, _, _, _, hc⟩
        · rw [hpairs]
          exact he
        · rcases hc with ⟨_, _, hpairs⟩ | ⟨_, hpairs, _⟩
          · rw [hpairs]
            exact subset_emplace he
          · rw [hpairs]
            exact he

theorem implicit_mono : ∀ {ss : List Stmt} {last : Option Stmt} {st st' : St},
    implicitFrom asserts presumed st last ss = some st' →
    (∀ e ∈ st.pairs, e ∈ st'.pairs) ∧ st'.ir = st.ir ∧ st'.macros = st.macros ∧
      st'.unmatched = st.unmatched
  | [], last, st, st', h => by
    simp only [implicitFrom, Option.some.injEq] at h
    subst h
    exact ⟨fun _ h => h, rfl, rfl, rfl⟩
  | s :: ss, last, st, st', h => by
    simp only [implicitFrom] at h
    split at h
    · simp at h
    · next st1 last1 h1 =>
      obtain ⟨hir, hmac, hun, hl1, hc⟩ := visitImplicit_cases h1
      obtain ⟨h2, h3, h4, h5⟩ := implicit_mono h
      refine ⟨fun e he => h2 e ?_, by rw [h3, hir], by rw [h4, hmac], by rw [h5, hun]⟩
      rcases hc with ⟨_, hpairs⟩ | ⟨lb, p, q, l, rest, hlb, _, _, _, _, _, hpairs⟩
      · rw [hpairs]
        exact he
      · rw [hpairs]
        exact subset_emplace he

theorem matchMacro_mono (st : St) (raw : Nat) :
    (∀ e ∈ st.pairs, e ∈ (matchMacro presumed st raw).pairs) ∧
    (∀ s ∈ st.unmatched, s ∈ (matchMacro presumed st raw).unmatched) := by
  unfold matchMacro
  split
  · exact ⟨fun _ h => h, fun _ h => h⟩
  · split
    · exact ⟨fun _ h => h, fun s h => by simp [h]⟩
    · split
      · exact ⟨fun _ h => h, fun s h => by simp [h]⟩
      · exact ⟨fun _ h => popPairs_mono h, fun _ h => h⟩

theorem matchInMacro_mono : ∀ (order : List Nat) (st : St),
    (∀ e ∈ st.pairs, e ∈ (matchInMacro presumed st order).pairs) ∧
    (∀ s ∈ st.unmatched, s ∈ (matchInMacro presumed st order).unmatched)
  | [], _ => ⟨fun _ h => h, fun _ h => h⟩
  | r :: rs, st => by
    simp only [matchInMacro]
    obtain ⟨h1, h2⟩ := matchInMacro_mono rs (matchMacro presumed st r)
    obtain ⟨h3, h4⟩ := matchMacro_mono (presumed := presumed) st r
    exact ⟨fun e he => h1 e (h3 e he), fun s hs => h2 s (h4 s hs)⟩

/-! ### The order -/

theorem explicit_order {stmts : List Stmt} {loops : List IRLoop}
    (hsim : Simple presumed stmts loops) {p : Place} {s : Stmt} {l : IRLoop} (hl : s.isLoop) :
    ∀ (ss pre : List Stmt) (st st' : St), Rel loops pre st.ir → (∀ s ∈ ss, s ∈ stmts) →
    Inv presumed stmts loops st → (∃ own, SOwned pre st own) → (pre ++ ss).Nodup →
    explicit asserts presumed st ss = some st' →
    ∀ i, (stmtsAt pre p).length ≤ i → (stmtsAt (pre ++ ss) p)[i]? = some s →
    (loopsAt loops p)[i]? = some l → (s, l) ∈ st'.pairs := by
  intro ss
  induction ss with
  | nil =>
    intro pre st st' _ _ _ _ _ _ i hi hs _
    rw [List.append_nil, List.getElem?_eq_none hi] at hs
    cases hs
  | cons x ss ih =>
    intro pre st st' hr hss hinv hown hn h i hi hs hli
    simp only [explicit] at h
    rcases step_rel (asserts := asserts) hsim hr (hss x (by simp)) with ⟨_, h2⟩ | ⟨_, st1, h2, h3, h4⟩
    · rw [h2] at h
      simp at h
    · rw [h2] at h
      simp only at h
      have hxp : x ∉ pre := by
        rw [List.nodup_append] at hn
        exact fun hc => hn.2.2 x hc x (by simp) rfl
      have hinv1 : Inv presumed stmts loops st1 :=
        Inv.explicit (ss := [x]) (asserts := asserts) hinv
          (by simpa using hss x (by simp)) (by simp [explicit, h2])
      have hown1 := SOwned.visit hinv hown hxp h2
      have hn' : (pre ++ [x] ++ ss).Nodup := by simpa using hn
      have hs' : (stmtsAt (pre ++ [x] ++ ss) p)[i]? = some s := by simpa using hs
      by_cases hc : (stmtsAt (pre ++ [x]) p).length ≤ i
      · exact ih (pre ++ [x]) st1 st' h3 (fun y hy => hss y (by simp [hy])) hinv1 hown1 hn' h i hc
          hs' hli
      · rw [stmtsAt_snoc] at hc
        split at hc
        · next hb =>
          simp only [List.length_append, List.length_cons, List.length_nil] at hc
          have hii : i = (stmtsAt pre p).length := by omega
          subst hii
          have hx : x = s := by
            have h5 : stmtsAt (pre ++ [x] ++ ss) p = stmtsAt pre p ++ x :: stmtsAt ss p := by
              simp [stmtsAt, List.filter_append, hb]
            rw [h5] at hs'
            simpa using hs'
          subst hx
          refine explicit_mono h _ ?_
          rw [h4 p hb hl l hli]
          obtain ⟨iown, hio⟩ := hinv.own
          obtain ⟨own, ho⟩ := hown
          have hmem : l ∈ (loopsAt loops p).drop (stmtsAt pre p).length := by
            have := List.mem_of_getElem? (l := (loopsAt loops p).drop (stmtsAt pre p).length)
              (i := 0) (a := l) (by simpa using hli)
            exact this
          have hne : loopsAt loops p ≠ [] := by
            rintro h0
            rw [h0] at hli
            simp at hli
          have hq := hr p
          rw [if_neg hne] at hq
          rw [emplace_new]
          · simp
          · intro e he
            exact ⟨ho.fresh hxp hl e he, hio.fresh hq (by simpa using hmem) e he⟩
        · exact absurd hi hc

/-! ### Macros -/

theorem visitExplicit_macros {st st' : St} {s : Stmt}
    (h : visitExplicit asserts presumed st s = some st') (raw : Nat) :
    st'.macros raw = if s.begin_ = .inMacro raw ∧ s.isLoop then
      some ((st.macros raw).getD [] ++ [s]) else st.macros raw := by
  rcases visitExplicit_cases h with ⟨raw', hb, rfl⟩ | ⟨hb, h2 | ⟨_, h2⟩⟩
  · unfold visitFromMacro
    by_cases hl : s.isLoop
    · rw [if_pos hl]
      simp only [pushStmt, upd, hb, Pos.inMacro.injEq, hl, and_true]
      by_cases hr : raw' = raw
      · simp [hr]
      · rw [if_neg hr, if_neg (Ne.symm hr)]
    · simp [hl]
  · obtain ⟨p, q, l, rest, _, _, _, _, _, _, hm, _⟩ := visitInit_cases h2
    rw [hm, if_neg (fun hc => hb raw hc.1)]
  · obtain ⟨hm, _⟩ := visitStart_cases h2
    rw [hm, if_neg (fun hc => hb raw hc.1)]

theorem macroAt_snoc (pre : List Stmt) (s : Stmt) (raw : Nat) :
    macroAt (pre ++ [s]) raw =
      if s.begin_ = .inMacro raw ∧ s.isLoop then macroAt pre raw ++ [s] else macroAt pre raw := by
  unfold macroAt
  by_cases h : s.begin_ = .inMacro raw ∧ s.isLoop
  · rw [if_pos h]
    simp [List.filter_append, h.1, h.2]
  · rw [if_neg h]
    rw [List.filter_append]
    have : [s].filter (fun s => decide (s.begin_ = .inMacro raw ∧ s.isLoop)) = [] := by
      simpa using h
    rw [this, List.append_nil]

theorem explicit_macros : ∀ {ss pre : List Stmt} {st st' : St} {raw : Nat},
    explicit asserts presumed st ss = some st' →
    (st.macros raw = if macroAt pre raw = [] then none else some (macroAt pre raw)) →
    st'.macros raw =
      if macroAt (pre ++ ss) raw = [] then none else some (macroAt (pre ++ ss) raw)
  | [], pre, st, st', raw, h, hm => by
    simp only [explicit, Option.some.injEq] at h
    subst h
    simpa using hm
  | s :: ss, pre, st, st', raw, h, hm => by
    simp only [explicit] at h
    split at h
    · simp at h
    · next st1 h1 =>
      have := explicit_macros (pre := pre ++ [s]) (raw := raw) h ?_
      · simpa using this
      · rw [visitExplicit_macros h1 raw, macroAt_snoc]
        split
        · have hne : macroAt pre raw ++ [s] ≠ [] := by simp
          rw [if_neg hne, hm]
          by_cases h0 : macroAt pre raw = []
          · rw [if_pos h0, h0]
            rfl
          · rw [if_neg h0]
            rfl
        · exact hm

theorem matchMacro_other {st : St} {raw raw' : Nat} {p : Place} (hne : raw' ≠ raw)
    (h : presumed raw' = p → st.macros raw' = none) :
    (matchMacro presumed st raw').macros raw = st.macros raw ∧
    (matchMacro presumed st raw').ir p = st.ir p := by
  unfold matchMacro
  split
  · exact ⟨rfl, rfl⟩
  · next q hq =>
    have hp : p ≠ presumed raw' := by
      intro hc
      have := h hc.symm
      rw [hq] at this
      cases this
    split
    · simp [upd, hne.symm]
    · split
      · simp [upd, hne.symm]
      · simp [upd, hne.symm, hp]

/-- The queue of the macro `raw` is evaluated as if there were no other macro. -/
theorem matchInMacro_at {stmts visited : List Stmt} {raw : Nat} {q : List Stmt} :
    ∀ {order : List Nat} {st : St}, Inv presumed stmts loops st → (∃ own, SOwned visited st own) →
    raw ∈ order → st.macros raw = some q →
    (∀ raw', raw' ≠ raw → presumed raw' = presumed raw → st.macros raw' = none) →
    ((∃ irq, st.ir (presumed raw) = some irq ∧ irq.items.length = q.length ∧
        ∀ e ∈ q.reverse.zip irq.items.reverse,
          e ∈ (matchInMacro presumed st order).pairs) ∨
      ((∀ irq, st.ir (presumed raw) = some irq → irq.items.length ≠ q.length) ∧
        ∀ s ∈ q, s ∈ (matchInMacro presumed st order).unmatched))
  | [], st, _, _, h, _, _ => by simp at h
  | r :: rs, st, hi, ho, hmem, hq, hother => by
    simp only [matchInMacro]
    by_cases hr : r = raw
    · subst hr
      obtain ⟨h1, h2⟩ := matchInMacro_mono (presumed := presumed) rs (matchMacro presumed st r)
      obtain ⟨own, ho⟩ := ho
      cases hir : st.ir (presumed r) with
      | none =>
        right
        refine ⟨by simp, fun s hs => h2 s ?_⟩
        simp only [matchMacro, hq, hir]
        simp [hs]
      | some irq =>
        by_cases hlen : irq.items.length = q.length
        · left
          refine ⟨irq, rfl, hlen, fun e he => h1 e ?_⟩
          simp only [matchMacro, hq, hir, hlen, ne_eq, not_true_eq_false, if_false]
          rw [popPairs_macro hi ho hq hir hlen]
          simp [he]
        · right
          refine ⟨?_, fun s hs => h2 s ?_⟩
          · intro irq' h3
            injection h3 with h3
            exact h3 ▸ hlen
          · simp only [matchMacro, hq, hir, ne_eq, hlen, not_false_eq_true, if_true]
            simp [hs]
    · obtain ⟨h1, h2⟩ := matchMacro_other (presumed := presumed) (st := st) (p := presumed raw) hr
        (hother r hr)
      have hmem' : raw ∈ rs := by
        rcases List.mem_cons.1 hmem with h | h
        · exact absurd h.symm hr
        · exact h
      have := matchInMacro_at (order := rs) (hi.matchMacro r) (SOwned.matchMacro hi ho r) hmem'
        (by rw [h1]; exact hq) ?_
      · rw [h2] at this
        exact this
      · intro raw' hn hp
        have h3 := hother raw' hn hp
        unfold matchMacro
        split
        · exact h3
        · next q' hq' =>
          have hne : raw' ≠ r := by
            rintro rfl
            rw [hq'] at h3
            cases h3
          split
          · simp [upd, hne, h3]
          · split
            · simp [upd, hne, h3]
            · simp [upd, hne, h3]

/-! ### Implicit loops -/

/-- Statements which are not loops at a place. -/
def plainAt (presumed : Nat → Place) (stmts : List Stmt) (p : Place) : List Stmt :=
  stmts.filter (fun s => ¬ s.isLoop ∧ s.place presumed = some p)

theorem plainAt_cons (s : Stmt) (ss : List Stmt) (p : Place) :
    plainAt presumed (s :: ss) p =
      if ¬ s.isLoop ∧ s.place presumed = some p then s :: plainAt presumed ss p
      else plainAt presumed ss p := by
  unfold plainAt
  rw [List.filter_cons]
  by_cases h : ¬ s.isLoop ∧ s.place presumed = some p
  · rw [if_pos h, if_pos (by simpa using h)]
  · rw [if_neg h, if_neg (by simpa using h)]

theorem implicit_total : ∀ (ss : List Stmt) (last : Option Stmt) (st : St),
    (∀ p q, st.implicit p = some q → (q.items ≠ [] ∧ (plainAt presumed ss p).length ≤ 1) ∨
      plainAt presumed ss p = []) →
    implicitFrom asserts presumed st last ss ≠ none := by
  intro ss
  induction ss with
  | nil => intro last st _; simp [implicitFrom]
  | cons s ss ih =>
    intro last st h
    have hmono : ∀ p, (plainAt presumed ss p).length ≤ (plainAt presumed (s :: ss) p).length ∧
        (plainAt presumed (s :: ss) p = [] → plainAt presumed ss p = []) := by
      intro p
      rw [plainAt_cons]
      split <;> simp
    have hkeep : ∀ p q, st.implicit p = some q →
        (q.items ≠ [] ∧ (plainAt presumed ss p).length ≤ 1) ∨ plainAt presumed ss p = [] := by
      intro p q hq
      rcases h p q hq with h | h
      · exact Or.inl ⟨h.1, Nat.le_trans (hmono p).1 h.2⟩
      · exact Or.inr ((hmono p).2 h)
    simp only [implicitFrom]
    unfold visitImplicit
    split
    · next heq =>
      split at heq
      · simp at heq
      · next hnl =>
        split at heq
        · simp at heq
        · split at heq
          · simp at heq
          · split at heq
            · next hf =>
              exfalso
              unfold findIR at hf
              split at hf
              · simp at hf
              · next p hp =>
                split at hf
                · simp at hf
                · next q hq =>
                  have hcons : plainAt presumed (s :: ss) p = s :: plainAt presumed ss p := by
                    rw [plainAt_cons, if_pos ⟨hnl, hp⟩]
                  rcases h p q hq with h1 | h1
                  · unfold pop at hf
                    split at hf
                    · next hg =>
                      rw [List.getLast?_eq_none_iff] at hg
                      exact h1.1 hg
                    · simp at hf
                  · rw [hcons] at h1
                    simp at h1
            · simp at heq
            · simp at heq
    · next st1 last1 heq =>
      apply ih
      have h1 : visitImplicit asserts presumed st last s = some (st1, last1) := by
        unfold visitImplicit
        exact heq
      obtain ⟨_, _, _, _, hc⟩ := visitImplicit_cases h1
      rcases hc with ⟨himp, _⟩ | ⟨lb, p, q, l, rest, hlb, hnl, hp, hq, hit, himp, _⟩
      · rw [himp]
        exact hkeep
      · intro p' q' hq'
        rw [himp] at hq'
        simp only [upd] at hq'
        split at hq'
        · next hpp =>
          subst hpp
          right
          have hcons : plainAt presumed (s :: ss) p' = s :: plainAt presumed ss p' := by
            rw [plainAt_cons, if_pos ⟨hnl, hp⟩]
          rcases h p' q hq with h2 | h2
          · rw [hcons] at h2
            simp only [List.length_cons] at h2
            exact List.length_eq_zero_iff.1 (by omega)
          · rw [hcons] at h2
            simp at h2
        · exact hkeep p' q' hq'

/-- The queues of implicit loops are not empty and are made of the loops of the function. -/
def ImpOk (loops : List IRLoop) (m : IRMap) : Prop :=
  ∀ p q, m p = some q → q.items ≠ [] ∧ ∀ l ∈ q.items, l ∈ loops ∧ l.header = some p

theorem explicit_imp {stmts : List Stmt} {loops : List IRLoop} (hsim : Simple presumed stmts loops) :
    ∀ (ss pre : List Stmt) (st st' : St), Rel loops pre st.ir → (∀ s ∈ ss, s ∈ stmts) →
    ImpOk loops st.implicit → explicit asserts presumed st ss = some st' →
    ImpOk loops st'.implicit := by
  intro ss
  induction ss with
  | nil =>
    intro pre st st' _ _ hi h
    simp only [explicit, Option.some.injEq] at h
    exact h ▸ hi
  | cons s ss ih =>
    intro pre st st' hr hs hi h
    simp only [explicit] at h
    rcases step_rel (asserts := asserts) hsim hr (hs s (by simp)) with ⟨_, h2⟩ | ⟨_, st1, h2, h3, _⟩
    · rw [h2] at h
      simp at h
    · rw [h2] at h
      refine ih (pre ++ [s]) st1 st' h3 (fun x hx => hs x (by simp [hx])) ?_ h
      rcases visitExplicit_cases h2 with ⟨raw, hb, rfl⟩ | ⟨_, h4 | ⟨_, h4⟩⟩
      · unfold visitFromMacro
        split <;> exact hi
      · obtain ⟨p, q, l, rest, _, _, _, _, _, himp, _⟩ := visitInit_cases h4
        rw [himp]
        exact hi
      · obtain ⟨_, hc⟩ := visitStart_cases h4
        rcases hc with ⟨_, himp, _⟩ | ⟨p, q, l, rest, _, hq, hit, _, _, hc⟩
        · rw [himp]
          exact hi
        · rcases hc with ⟨_, himp, _⟩ | ⟨_, _, ⟨_, himp⟩ | ⟨hd, hh, himp⟩⟩
          · rw [himp]
            exact hi
          · rw [himp]
            exact hi
          · rw [himp]
            have hl : l ∈ loops := by
              have h5 := hr p
              rw [hq] at h5
              split at h5
              · cases h5
              · injection h5 with h5
                have h6 : l ∈ q.items := by simp [hit]
                rw [h5] at h6
                simp only [List.mem_reverse] at h6
                exact (List.mem_filter.1 (List.mem_of_mem_drop h6)).1
            intro p' q' hq'
            simp only [pushIR, upd] at hq'
            split at hq'
            · next hpp =>
              injection hq' with hq'
              subst hq'
              refine ⟨by simp [Queue.add], fun x hx => ?_⟩
              simp only [Queue.add, List.mem_append, List.mem_singleton] at hx
              rcases hx with hx | hx
              · cases hc : st.implicit hd with
                | none => simp [hc] at hx
                | some q'' =>
                  rw [hc] at hx
                  rw [hpp]
                  exact (hi hd q'' hc).2 x hx
              · rw [hx, hpp]
                exact ⟨hl, hh⟩
            · exact hi p' q' hq'

end

end Tsar.Matcher
