import Verif.Matcher.Order

/-!
# Properties of the matcher of loops

The theorems are about the whole analysis of a function (`run`), for every list of statements in
the order of the traversal, every list of loops, every position of a macro and every order of
iteration over the hash table of macros. Statements and loops are pointers, so there are no
duplicates.
-/
namespace Tsar.Matcher

variable {asserts : Bool} {presumed : Nat → Place}

theorem Inv.reverseImplicit {stmts : List Stmt} {loops : List IRLoop} {st : St}
    (h : Inv presumed stmts loops st) :
    Inv presumed stmts loops { st with implicit := reverseIR st.implicit } := by
  obtain ⟨own, ho⟩ := h.own
  have hr : ∀ p q, reverseIR st.implicit p = some q → ∃ q', st.implicit p = some q' ∧
      q.items = q'.items.reverse := by
    intro p q hq
    unfold reverseIR at hq
    cases hc : st.implicit p with
    | none => simp [hc] at hq
    | some q' =>
      simp only [hc, Option.map_some, Option.some.injEq] at hq
      exact ⟨q', rfl, by rw [← hq]⟩
  refine ⟨⟨own, ho.ir, ?_, ho.pairs⟩, h.placed, ?_, h.pairs, h.oto, h.mac⟩
  · intro p q hq
    obtain ⟨q', h1, h2⟩ := hr p q hq
    rw [h2]
    exact ⟨List.nodup_reverse.2 (ho.imp p q' h1).1,
      fun l hl => (ho.imp p q' h1).2 l (List.mem_reverse.1 hl)⟩
  · intro p q hq l hl
    obtain ⟨q', h1, h2⟩ := hr p q hq
    rw [h2] at hl
    exact h.imp p q' h1 l (List.mem_reverse.1 hl)

theorem reverseMacros_some {m : MacroMap} {raw : Nat} {q : List Stmt}
    (h : reverseMacros m raw = some q) : ∃ q', m raw = some q' ∧ q = q'.reverse := by
  unfold reverseMacros at h
  cases hc : m raw with
  | none => simp [hc] at h
  | some q' =>
    simp only [hc, Option.map_some, Option.some.injEq] at h
    exact ⟨q', rfl, h.symm⟩

theorem Inv.reverseMac {stmts : List Stmt} {loops : List IRLoop} {st : St}
    (h : Inv presumed stmts loops st) :
    Inv presumed stmts loops { st with macros := reverseMacros st.macros } := by
  obtain ⟨own, ho⟩ := h.own
  refine ⟨⟨own, ho.ir, ho.imp, ho.pairs⟩, h.placed, h.imp, h.pairs, h.oto, ?_⟩
  intro raw q hq s hs
  obtain ⟨q', h1, rfl⟩ := reverseMacros_some hq
  exact h.mac raw q' h1 s (List.mem_reverse.1 hs)

theorem SOwned.reverseMac {visited : List Stmt} {st : St} (h : ∃ own, SOwned visited st own) :
    ∃ own, SOwned visited { st with macros := reverseMacros st.macros } own := by
  obtain ⟨own, h⟩ := h
  refine ⟨own, h.pairs, h.un, ?_, h.pair', h.un', ?_, h.seen⟩
  · intro raw q hq
    obtain ⟨q', h1, rfl⟩ := reverseMacros_some hq
    exact ⟨List.nodup_reverse.2 (h.mac raw q' h1).1,
      fun s hs => (h.mac raw q' h1).2 s (List.mem_reverse.1 hs)⟩
  · intro s raw hs
    obtain ⟨q, h1, h2⟩ := h.mac' s raw hs
    exact ⟨q.reverse, by simp [reverseMacros, h1], by simpa using h2⟩

/-- What the analysis consists of. -/
theorem run_cases {order : List Nat} {stmts : List Stmt} {loops : List IRLoop} {st : St}
    (h : run asserts presumed order stmts loops = some st) :
    ∃ st1 st2, explicit asserts presumed (init loops) stmts = some st1 ∧
      implicitFrom asserts presumed { st1 with implicit := reverseIR st1.implicit } none stmts =
        some st2 ∧
      st = matchInMacro presumed { st2 with macros := reverseMacros st2.macros } order := by
  unfold run at h
  split at h
  · simp at h
  · next st1 h1 =>
    split at h
    · simp at h
    · next st2 h2 =>
      simp only [Option.some.injEq] at h
      exact ⟨st1, st2, h1, h2, h.symm⟩

theorem SOwned.init (loops : List IRLoop) : ∃ own, SOwned [] (init loops) own :=
  ⟨fun _ => .away, by simp [Matcher.init], by simp [Matcher.init], by simp [Matcher.init], by simp,
    by simp, by simp, by simp⟩

theorem run_inv {order : List Nat} {stmts : List Stmt} {loops : List IRLoop} {st : St}
    (h : run asserts presumed order stmts loops = some st) (hn : loops.Nodup) :
    Inv presumed stmts loops st := by
  obtain ⟨st1, st2, h1, h2, rfl⟩ := run_cases h
  have i1 : Inv presumed stmts loops st1 := (Inv.init hn).explicit (fun _ h => h) h1
  have i2 : Inv presumed stmts loops st2 :=
    i1.reverseImplicit.implicitFrom (pre := []) (by simp) (by simp [lastLabel]) h2
  exact i2.reverseMac.matchInMacro

/-! ### C115. What is matched -/

/-- A loop of the source is matched only with a loop of this function which is at the same place. -/
theorem match_place {order : List Nat} {stmts : List Stmt} {loops : List IRLoop} {st : St}
    (h : run asserts presumed order stmts loops = some st) (hn : loops.Nodup) {s : Stmt} {l : IRLoop}
    (hp : (s, l) ∈ st.pairs) (hs : s.kind ≠ .label) :
    s ∈ stmts ∧ l ∈ loops ∧ s.isLoop ∧ SamePlace presumed stmts s l := by
  obtain ⟨h0, h1 | h1⟩ := (run_inv h hn).pairs (s, l) hp
  · exact ⟨h1.1, h0, h1.2.1, h1.2.2⟩
  · exact absurd h1.1 hs

/-- A statement is matched with at most one loop and a loop with at most one statement. -/
theorem match_one_to_one {order : List Nat} {stmts : List Stmt} {loops : List IRLoop} {st : St}
    (h : run asserts presumed order stmts loops = some st) (hn : loops.Nodup) {s s' : Stmt}
    {l l' : IRLoop} (hp : (s, l) ∈ st.pairs) (hp' : (s', l') ∈ st.pairs) : s = s' ↔ l = l' := by
  obtain ⟨h1, h2⟩ := (run_inv h hn).oto
  constructor
  · rintro rfl
    have := List.inj_on_of_nodup_map h1 hp hp' rfl
    exact congrArg Prod.snd this
  · rintro rfl
    have := List.inj_on_of_nodup_map h2 hp hp' rfl
    exact congrArg Prod.fst this

/-- Every `for`, `while` and `do` of a function is either matched or reported as not matched, and
never both; nothing but them is reported. -/
theorem loops_classified {order : List Nat} {stmts : List Stmt} {loops : List IRLoop} {st : St}
    (h : run asserts presumed order stmts loops = some st) (hn : loops.Nodup) (hsn : stmts.Nodup)
    (ho : ∀ s ∈ stmts, ∀ raw, s.begin_ = .inMacro raw → raw ∈ order) (s : Stmt) :
    ((s ∈ stmts ∧ s.isLoop) ↔ (((∃ l, (s, l) ∈ st.pairs) ∧ s.isLoop) ∨ s ∈ st.unmatched)) ∧
    ¬ ((∃ l, (s, l) ∈ st.pairs) ∧ s ∈ st.unmatched) := by
  obtain ⟨st1, st2, h1, h2, rfl⟩ := run_cases h
  have i1 : Inv presumed stmts loops st1 := (Inv.init hn).explicit (fun _ h => h) h1
  have i2 : Inv presumed stmts loops st2 :=
    i1.reverseImplicit.implicitFrom (pre := []) (by simp) (by simp [lastLabel]) h2
  have o1 : ∃ own, SOwned stmts st1 own := by
    have := SOwned.explicit (visited := []) (ss := stmts) (Inv.init hn (stmts := stmts)
      (presumed := presumed)) (SOwned.init loops) (fun _ h => h) (by simpa using hsn) h1
    simpa using this
  have o2 : ∃ own, SOwned stmts st2 own := by
    refine SOwned.implicitFrom (pre := []) ?_ (by simp [lastLabel]) h2
    obtain ⟨own, o⟩ := o1
    exact ⟨own, o.pairs, o.un, o.mac, o.pair', o.un', o.mac', o.seen⟩
  obtain ⟨own, o3⟩ := SOwned.matchInMacro (order := order) i2.reverseMac (SOwned.reverseMac o2)
  have hempty : ∀ raw, own s ≠ .mac raw := by
    intro raw hs
    obtain ⟨q, h3, h4⟩ := o3.mac' s raw hs
    have := matchInMacro_clears (presumed := presumed) order
      { st2 with macros := reverseMacros st2.macros } raw ?_
    · rcases this with h5 | h5
      · rw [h5] at h3
        cases h3
      · rw [h5] at h3
        injection h3 with h3
        rw [← h3] at h4
        simp at h4
    · by_cases hr : raw ∈ order
      · exact Or.inl hr
      · right
        cases hc : (reverseMacros st2.macros) raw with
        | none => exact Or.inl hc
        | some q' =>
          cases q' with
          | nil => exact Or.inr hc
          | cons x xs =>
            have := i2.reverseMac.mac raw _ hc x (by simp)
            exact absurd (ho x this.1 raw this.2.2) hr
  constructor
  · rw [← o3.seen s]
    constructor
    · intro hs
      cases hc : own s with
      | away => exact absurd hc hs
      | pair => exact Or.inl ⟨o3.pair' s hc, ((o3.seen s).1 hs).2⟩
      | un => exact Or.inr (o3.un' s hc)
      | mac raw => exact absurd hc (hempty raw)
    · rintro (⟨⟨l, hl⟩, hs⟩ | hs)
      · rw [o3.pairs (s, l) hl hs]
        simp
      · rw [o3.un s hs]
        simp
  · rintro ⟨⟨l, hl⟩, hs⟩
    have h3 := o3.un s hs
    have h4 := o3.pairs (s, l) hl ((o3.seen s).1 (by rw [h3]; simp)).2
    rw [h3] at h4
    cases h4

/-! ### C116. Nothing is matched wrong way round -/

/-- Suppose that loops of LLVM IR have the positions of loops and not of initializations. If several
loops of the source are at one place (a file is included several times), the first of them is
matched with the outermost loop of LLVM IR which starts there, the second with the next one, and so
on. In particular, if there is one statement and one loop at a place, they are matched. -/
theorem match_order {order : List Nat} {stmts : List Stmt} {loops : List IRLoop} {st : St}
    (h : run asserts presumed order stmts loops = some st) (hn : loops.Nodup) (hsn : stmts.Nodup)
    (hsim : ∀ s ∈ stmts, ∀ p, s.initPlace presumed = some p → loopsAt loops p = [])
    {p : Place} {i : Nat} {s : Stmt} {l : IRLoop} (hs : (stmtsAt stmts p)[i]? = some s)
    (hloop : s.isLoop) (hl : (loopsAt loops p)[i]? = some l) : (s, l) ∈ st.pairs := by
  obtain ⟨st1, st2, h1, h2, rfl⟩ := run_cases h
  have h3 := explicit_order (asserts := asserts) (presumed := presumed) hsim hloop (s := s) (l := l)
    (p := p) stmts [] (init loops) st1 (Rel.init loops) (fun _ h => h) (Inv.init hn)
    (SOwned.init loops) (by simpa using hsn) h1 i (by simp [stmtsAt]) (by simpa using hs) hl
  exact (matchInMacro_mono _ _).1 _ ((implicit_mono h2).1 _ h3)

/-- The same for loops from a macro, if no other statement or macro is at the place where it is
expanded: if there are as many loops in the macro as loops of LLVM IR, they are matched in order,
otherwise all of them are reported. -/
theorem match_macro_order {order : List Nat} {stmts : List Stmt} {loops : List IRLoop} {st : St}
    (h : run asserts presumed order stmts loops = some st) (hn : loops.Nodup) (hsn : stmts.Nodup)
    (hsim : ∀ s ∈ stmts, ∀ p, s.initPlace presumed = some p → loopsAt loops p = [])
    {raw : Nat} (ho : raw ∈ order) (hplain : stmtsAt stmts (presumed raw) = [])
    (hother : ∀ raw', raw' ≠ raw → presumed raw' = presumed raw → macroAt stmts raw' = []) :
    ((macroAt stmts raw).length = (loopsAt loops (presumed raw)).length →
      ∀ (i : Nat) s l, (macroAt stmts raw)[i]? = some s → (loopsAt loops (presumed raw))[i]? = some l →
        (s, l) ∈ st.pairs) ∧
    ((macroAt stmts raw).length ≠ (loopsAt loops (presumed raw)).length →
      ∀ s ∈ macroAt stmts raw, s ∈ st.unmatched) := by
  obtain ⟨st1, st2, h1, h2, rfl⟩ := run_cases h
  have i1 : Inv presumed stmts loops st1 := (Inv.init hn).explicit (fun _ h => h) h1
  have i2 : Inv presumed stmts loops st2 :=
    i1.reverseImplicit.implicitFrom (pre := []) (by simp) (by simp [lastLabel]) h2
  have o1 : ∃ own, SOwned stmts st1 own := by
    have := SOwned.explicit (visited := []) (ss := stmts) (Inv.init hn (stmts := stmts)
      (presumed := presumed)) (SOwned.init loops) (fun _ h => h) (by simpa using hsn) h1
    simpa using this
  have o2 : ∃ own, SOwned stmts st2 own := by
    refine SOwned.implicitFrom (pre := []) ?_ (by simp [lastLabel]) h2
    obtain ⟨own, o⟩ := o1
    exact ⟨own, o.pairs, o.un, o.mac, o.pair', o.un', o.mac', o.seen⟩
  obtain ⟨_, hir2, hmac2, _⟩ := implicit_mono h2
  have hmac : ∀ r, st2.macros r =
      if macroAt stmts r = [] then none else some (macroAt stmts r) := by
    intro r
    rw [hmac2]
    have := explicit_macros (pre := []) (raw := r) h1 (by simp [init, macroAt])
    simpa using this
  have hir : st2.ir (presumed raw) = if loopsAt loops (presumed raw) = [] then none else
      some ⟨(loopsAt loops (presumed raw)).reverse,
        decide (2 ≤ (loopsAt loops (presumed raw)).length)⟩ := by
    rw [hir2]
    rcases explicit_rel (asserts := asserts) (presumed := presumed) hsim stmts [] (init loops)
      (Rel.init loops) (fun _ h => h) with ⟨_, h3⟩ | ⟨_, st', h3, h4⟩
    · rw [h3] at h1
      cases h1
    · rw [h3] at h1
      injection h1 with h1
      subst h1
      have := h4 (presumed raw)
      simpa [hplain] using this
  by_cases hm : macroAt stmts raw = []
  · constructor
    · intro _ i s l hs
      simp [hm] at hs
    · intro _ s hs
      simp [hm] at hs
  · have hq : reverseMacros st2.macros raw = some (macroAt stmts raw).reverse := by
      simp [reverseMacros, hmac raw, hm]
    have := matchInMacro_at (order := order) i2.reverseMac (SOwned.reverseMac o2) ho hq ?_
    · rcases this with ⟨irq, h3, h4, h5⟩ | ⟨h3, h4⟩
      · have h3' : st2.ir (presumed raw) = some irq := h3
        rw [hir] at h3'
        split at h3'
        · cases h3'
        · injection h3' with h3'
          subst h3'
          simp only [List.length_reverse, List.reverse_reverse] at h4 h5
          constructor
          · intro _ i s l hs hl
            refine h5 (s, l) ?_
            apply List.mem_of_getElem? (i := i)
            rw [List.getElem?_zip_eq_some]
            exact ⟨hs, hl⟩
          · intro hc
            exact absurd h4.symm hc
      · constructor
        · intro hlen i s l hs hl
          exfalso
          have hne : loopsAt loops (presumed raw) ≠ [] := by
            intro h0
            simp [h0] at hl
          refine h3 ⟨(loopsAt loops (presumed raw)).reverse,
              decide (2 ≤ (loopsAt loops (presumed raw)).length)⟩ ?_ ?_
          · exact hir.trans (if_neg hne)
          · simp [hlen]
        · intro _ s hs
          exact h4 s (by simpa using hs)
    · intro raw' hne hp
      simp [reverseMacros, hmac raw', hother raw' hne hp]

/-! ### C117. Absence of undefined behaviour -/

/-- Exactly when the traversal for explicit loops takes the last element of an empty queue (for loops
which have the positions of loops): more statements begin at a place than loops of LLVM IR start
there, and there is at least one of them (at least two, if there are no assertions). -/
theorem explicit_crash_iff {stmts : List Stmt} {loops : List IRLoop}
    (hsim : ∀ s ∈ stmts, ∀ p, s.initPlace presumed = some p → loopsAt loops p = []) :
    explicit asserts presumed (init loops) stmts = none ↔
      ∃ p, (if asserts then 1 else 2) ≤ (loopsAt loops p).length ∧
        (loopsAt loops p).length < (stmtsAt stmts p).length := by
  have h0 := bad_iff (asserts := asserts) (loops := loops) stmts []
  have h1 : ¬ ∃ p, (if asserts then 1 else 2) ≤ (loopsAt loops p).length ∧
      (loopsAt loops p).length < (stmtsAt [] p).length := by
    rintro ⟨p, _, h⟩
    simp [stmtsAt] at h
  rw [or_iff_left h1] at h0
  rw [List.nil_append] at h0
  rw [← h0]
  rcases explicit_rel (asserts := asserts) (presumed := presumed) hsim stmts [] (init loops)
    (Rel.init loops) (fun _ h => h) with ⟨h2, h3⟩ | ⟨h2, st', h3, _⟩
  · exact iff_of_true h3 h2
  · rw [h3]
    exact iff_of_false (by simp) h2

/-- Where at most as many statements begin as loops start, and where at most one statement which is
not a loop begins at the header of a loop, nothing is undefined. -/
theorem run_total_partial {order : List Nat} {stmts : List Stmt} {loops : List IRLoop}
    (hsim : ∀ s ∈ stmts, ∀ p, s.initPlace presumed = some p → loopsAt loops p = [])
    (hst : ∀ p, loopsAt loops p ≠ [] → (stmtsAt stmts p).length ≤ (loopsAt loops p).length)
    (hhd : ∀ l ∈ loops, ∀ p, l.header = some p →
      (stmts.filter (fun s => ¬ s.isLoop ∧ s.place presumed = some p)).length ≤ 1) :
    run asserts presumed order stmts loops ≠ none := by
  unfold run
  rcases explicit_rel (asserts := asserts) (presumed := presumed) hsim stmts [] (init loops)
    (Rel.init loops) (fun _ h => h) with ⟨_, h3⟩ | ⟨_, st', h3, _⟩
  · obtain ⟨p, h4, h5⟩ := (explicit_crash_iff hsim).1 h3
    have : loopsAt loops p ≠ [] := by
      intro h0
      rw [h0] at h4
      cases asserts <;> simp at h4
    have := hst p this
    omega
  · rw [h3]
    simp only
    have himp : ImpOk loops st'.implicit :=
      explicit_imp hsim stmts [] (init loops) st' (Rel.init loops) (fun _ h => h)
        (by intro p q hq; simp [init] at hq) h3
    have := implicit_total (asserts := asserts) (presumed := presumed) stmts none
      { st' with implicit := reverseIR st'.implicit } ?_
    · split
      · next h4 => exact absurd h4 this
      · simp
    · intro p q hq
      simp only [reverseIR] at hq
      cases hc : st'.implicit p with
      | none => simp [hc] at hq
      | some q' =>
        simp only [hc, Option.map_some, Option.some.injEq] at hq
        obtain ⟨h5, h6⟩ := himp p q' hc
        left
        subst hq
        refine ⟨by simpa using h5, ?_⟩
        obtain ⟨l, hl⟩ := List.exists_mem_of_ne_nil _ h5
        exact hhd l (h6 l hl).1 p (h6 l hl).2

/-- The analysis of a correct program is undefined: a loop starts at an expression, and there is
another expression which begins at the same place (`x` and `x = y` in `x = y; l: …; goto l;`). -/
theorem expr_crash_fails :
    run true id [] [⟨0, .other, .file 1⟩, ⟨1, .other, .file 1⟩, ⟨2, .label, .file 2⟩,
      ⟨3, .other, .file 3⟩] [⟨0, some 1, some 3⟩] = none := by
  decide +kernel

/-- The analysis of a `for` with a position of the initialization only is undefined: the `for` takes
the loop and leaves an empty queue for the initialization. -/
theorem init_crash_fails :
    run true id [] [⟨0, .forLoop (some (.file 2)), .file 1⟩, ⟨1, .other, .file 2⟩]
      [⟨0, some 2, some 1⟩] = none := by
  decide +kernel

/-- The same without assertions: a file with a loop is included three times and one of the loops has
been removed from LLVM IR. -/
theorem release_crash_fails :
    run false id [] [⟨0, .loop, .file 1⟩, ⟨1, .loop, .file 1⟩, ⟨2, .loop, .file 1⟩]
      [⟨0, some 1, some 1⟩, ⟨1, some 1, some 1⟩] = none := by
  decide +kernel

/-! ### C118. Labels -/

/-- A label is matched only with a loop of this function such that the terminator of its header is
at a statement after the label, and there is no other label between them. -/
theorem match_label_partial {order : List Nat} {stmts : List Stmt} {loops : List IRLoop} {st : St}
    (h : run asserts presumed order stmts loops = some st) (hn : loops.Nodup) {s : Stmt} {l : IRLoop}
    (hp : (s, l) ∈ st.pairs) (hs : s.kind = .label) :
    l ∈ loops ∧ ∃ before x after, stmts = before ++ x :: after ∧ lastLabel before = some s ∧
      ¬ x.isLoop ∧ l.header ≠ none ∧ x.place presumed = l.header := by
  obtain ⟨h0, h1 | h1⟩ := (run_inv h hn).pairs (s, l) hp
  · have := h1.2.1
    simp [Stmt.isLoop, hs] at this
  · exact ⟨h0, h1.2⟩

/-- A loop over a range of C++ is matched with a label which is somewhere before it. -/
theorem match_label_fails :
    ∃ (stmts : List Stmt) (loops : List IRLoop) (st : St) (lb r x : Stmt) (l : IRLoop),
      stmts = [lb, x, r] ∧ loops = [l] ∧ lb.kind = .label ∧ r.kind = .rangeFor ∧ x.kind = .other ∧
      l.start = r.place id ∧ l.header = r.place id ∧ x.place id ≠ r.place id ∧
      run true id [] stmts loops = some st ∧ (lb, l) ∈ st.pairs := by
  refine ⟨[⟨0, .label, .file 1⟩, ⟨1, .other, .file 2⟩, ⟨2, .rangeFor, .file 5⟩],
    [⟨0, some 5, some 5⟩], _, ⟨0, .label, .file 1⟩, ⟨2, .rangeFor, .file 5⟩, ⟨1, .other, .file 2⟩,
    ⟨0, some 5, some 5⟩, rfl, rfl, rfl, rfl, rfl, rfl, rfl, by decide, rfl, ?_⟩
  decide +kernel

/-! ### Examples: the hypotheses are met -/

/-- A function with an included loop (twice at the place 1), a `for` with the position of the
initialization (places 3 and 4; it is included twice too), a macro with two loops which is expanded
at 7, a loop with `goto` (9-11) and a loop which has been removed from LLVM IR (13). -/
def sampleStmts : List Stmt :=
  [⟨0, .loop, .file 1⟩, ⟨1, .loop, .file 1⟩,
   ⟨2, .forLoop (some (.file 4)), .file 3⟩, ⟨3, .forLoop (some (.file 4)), .file 3⟩,
   ⟨4, .loop, .inMacro 70⟩, ⟨5, .other, .inMacro 70⟩, ⟨6, .forLoop none, .inMacro 70⟩,
   ⟨7, .label, .file 9⟩, ⟨8, .other, .file 10⟩, ⟨9, .other, .file 11⟩,
   ⟨10, .loop, .file 13⟩]

/-- The loops of LLVM IR of this function. -/
def sampleLoops : List IRLoop :=
  [⟨0, some 1, some 1⟩, ⟨1, some 1, some 1⟩, ⟨2, some 4, some 3⟩, ⟨3, some 4, some 3⟩,
   ⟨4, some 7, some 7⟩, ⟨5, some 7, some 7⟩, ⟨6, some 10, some 11⟩]

/-- The place of an expansion. -/
def samplePresumed (raw : Nat) : Place := raw / 10

/-- The numbers of statements and loops which are matched, and of the statements which are not. -/
example : (run true samplePresumed [70] sampleStmts sampleLoops).map
    (fun st => (st.pairs.map (fun e => (e.1.id, e.2.id)), st.unmatched.map (·.id))) =
    some ([(0, 0), (1, 1), (2, 2), (3, 3), (7, 6), (4, 4), (6, 5)], [10]) := by
  decide +kernel

example : sampleLoops.Nodup ∧ sampleStmts.Nodup ∧
    ∀ s ∈ sampleStmts, ∀ raw, s.begin_ = .inMacro raw → raw ∈ [70] := by
  refine ⟨by decide, by decide, ?_⟩
  intro s hs raw hr
  simp only [sampleStmts, List.mem_cons, List.not_mem_nil, or_false] at hs
  rcases hs with rfl | rfl | rfl | rfl | rfl | rfl | rfl | rfl | rfl | rfl | rfl <;>
    simp_all

/-- A function where loops have their own positions. -/
def plainStmts : List Stmt :=
  [⟨0, .loop, .file 1⟩, ⟨1, .loop, .file 1⟩, ⟨2, .forLoop (some (.file 4)), .file 3⟩,
   ⟨12, .other, .file 4⟩, ⟨4, .loop, .inMacro 70⟩, ⟨6, .forLoop none, .inMacro 70⟩,
   ⟨7, .label, .file 9⟩, ⟨8, .other, .file 10⟩, ⟨9, .other, .file 11⟩]

/-- Its loops. -/
def plainLoops : List IRLoop :=
  [⟨0, some 1, some 1⟩, ⟨1, some 1, some 1⟩, ⟨2, some 3, some 3⟩, ⟨4, some 7, some 7⟩,
   ⟨5, some 7, some 7⟩, ⟨6, some 10, some 11⟩]

theorem plain_simple : ∀ s ∈ plainStmts, ∀ p, s.initPlace samplePresumed = some p →
    loopsAt plainLoops p = [] := by
  intro s hs p hp
  simp only [plainStmts, List.mem_cons, List.not_mem_nil, or_false] at hs
  rcases hs with rfl | rfl | rfl | rfl | rfl | rfl | rfl | rfl | rfl <;>
    simp_all [Stmt.initPlace, Pos.place]
  subst hp
  decide

/-- The hypotheses of `run_total_partial`, `match_order` and `match_macro_order` are met. -/
example : ∃ st, run true samplePresumed [70] plainStmts plainLoops = some st ∧
    (⟨1, .loop, .file 1⟩, ⟨1, some 1, some 1⟩) ∈ st.pairs ∧
    (⟨6, .forLoop none, .inMacro 70⟩, ⟨5, some 7, some 7⟩) ∈ st.pairs := by
  have h : run true samplePresumed [70] plainStmts plainLoops ≠ none := by
    refine run_total_partial plain_simple ?_ ?_
    · intro p hp
      have h1 : p = 1 ∨ p = 3 ∨ p = 7 ∨ p = 10 := by
        by_contra hc
        push Not at hc
        apply hp
        simp [loopsAt, plainLoops, hc.1.symm, hc.2.1.symm, hc.2.2.1.symm, hc.2.2.2.symm]
      rcases h1 with rfl | rfl | rfl | rfl <;> decide
    · intro l hl p hp
      simp only [plainLoops, List.mem_cons, List.not_mem_nil, or_false] at hl
      rcases hl with rfl | rfl | rfl | rfl | rfl | rfl <;>
        (simp only [Option.some.injEq] at hp; subst hp; decide)
  obtain ⟨st, hst⟩ := Option.ne_none_iff_exists'.1 h
  refine ⟨st, hst, ?_, ?_⟩
  · exact match_order hst (by decide) (by decide) plain_simple (p := 1) (i := 1) (by decide)
      (by decide) (by decide)
  · refine (match_macro_order hst (by decide) (by decide) plain_simple (raw := 70) (by simp)
      (by decide) ?_).1 (by decide) 1 _ _ (by decide) (by decide)
    intro raw' hne _
    simp only [macroAt, plainStmts, List.filter_eq_nil_iff, List.mem_cons, List.not_mem_nil,
      or_false]
    rintro s (rfl | rfl | rfl | rfl | rfl | rfl | rfl | rfl | rfl) <;>
      simp [Stmt.isLoop, hne.symm]

end Tsar.Matcher
