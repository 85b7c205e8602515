import Verif.Loop.Props

/-!
# Cases of the reversal: satisfied hypotheses and failures of the full property (C43)
-/

namespace Tsar.Loop

/-- `for (int i = 1; i < 10; i += 4)` without constants of the analysis. -/
def exUp : Header := ⟨.signed 31, 1, .lt, false, 10, .compound true 4⟩
/-- `for (int i = 9; i >= 1; i = i + -(3))` is how the reversal of the next loop looks like; the
source loop is `for (int i = 9; 2 <= i; i = i - 3)`. -/
def exDown : Header := ⟨.signed 31, 9, .le, true, 2, .assignSub false 3⟩

theorem exUp_runs : Runs exUp 1 [1, 5, 9] 13 :=
  .step (by decide) (j := 5) (by rfl) (.step (by decide) (j := 9) (by rfl)
    (.step (by decide) (j := 13) (by rfl) (.stop (by decide))))

theorem exDown_runs : Runs exDown 9 [9, 6, 3] 0 :=
  .step (by decide) (j := 6) (by rfl) (.step (by decide) (j := 3) (by rfl)
    (.step (by decide) (j := 0) (by rfl) (.stop (by decide))))

/-- The hypotheses of `reverse_partial` are met by a loop with three iterations. -/
example : ∃ h' f', transformLoop exUp ⟨none, none, none⟩ = some h' ∧
    Runs h' h'.init [9, 5, 1] f' := by
  refine ⟨⟨.signed 31, 9, .ge, false, 1, .compound false 4⟩, ?_⟩
  obtain ⟨f', hf⟩ := reverse_partial (h := exUp)
    (h' := ⟨.signed 31, 9, .ge, false, 1, .compound false 4⟩) (c := ⟨none, none, none⟩)
    (l := [1, 5, 9]) (f := 13) trivial (by decide) (by decide) (by decide) (by decide)
    (Or.inl (by decide)) ⟨by simp, by simp, by simp⟩ (by rfl) exUp_runs (by decide) (by decide)
    (Or.inl (by simp))
  exact ⟨f', by rfl, hf⟩

/-- The same for a loop which runs downwards, with the constants of the analysis. -/
example : ∃ h' f', transformLoop exDown ⟨some 9, some (-3), some 0⟩ = some h' ∧
    h'.init = 3 ∧ Runs h' 3 [3, 6, 9] f' := by
  refine ⟨⟨.signed 31, 3, .ge, true, 9, .assignSub true 3⟩, ?_⟩
  obtain ⟨f', hf⟩ := reverse_partial (h := exDown)
    (h' := ⟨.signed 31, 3, .ge, true, 9, .assignSub true 3⟩) (c := ⟨some 9, some (-3), some 0⟩)
    (l := [9, 6, 3]) (f := 0) rfl (by decide) (by decide) (by decide) (by decide)
    (Or.inr (by decide)) ⟨by simp [exDown], by rintro v h; simp at h; subst h; rfl,
      by rintro v h; simp at h; subst h; rfl⟩ (by rfl) exDown_runs (by decide) (by decide)
    (Or.inl (by simp))
  exact ⟨f', by rfl, rfl, hf⟩

/-- The full property C43 is false: a loop which executes no iteration is replaced by a loop which
executes one.  The loop is `for (i = 0; i < n; i += 2)` with `n = 0`. -/
theorem reverse_empty_fails : ∃ h h' : Header, h.Source ∧ h.Consistent ∧ 0 < h.stepText ∧
    transformLoop h ⟨none, none, none⟩ = some h' ∧ Runs h h.init [] 0 ∧
    Runs h' h'.init [0] (-2) ∧ ¬ Reverses h' h := by
  refine ⟨⟨.signed 31, 0, .lt, false, 0, .compound true 2⟩,
    ⟨.signed 31, 0, .ge, false, 0, .compound false 2⟩, trivial, Or.inl (by decide), by decide,
    by rfl, .stop (by decide), .step (by decide) (j := -2) (by rfl) (.stop (by decide)), ?_⟩
  intro hr
  obtain ⟨f', hf⟩ := hr [] 0 (.stop (by decide))
  cases hf with
  | stop hn => exact hn (by decide)

/-- A step text which is negative: `for (i = 10; i > n; i += s)` with `n = 0` and `s = -2`
executes 10, 8, 6, 4, 2, and its replacement starts at 0. -/
theorem reverse_negative_step_fails : ∃ h h' : Header, h.Source ∧ h.Consistent ∧
    coherent none none (h.inc.toOp true) h.op h.onRight = true ∧
    transformLoop h ⟨none, none, none⟩ = some h' ∧ Runs h h.init [10, 8, 6, 4, 2] 0 ∧
    ¬ Reverses h' h := by
  have hrun : Runs ⟨.signed 31, 10, .gt, false, 0, .compound true (-2)⟩ 10 [10, 8, 6, 4, 2] 0 :=
    .step (by decide) (j := 8) (by rfl) (.step (by decide) (j := 6) (by rfl)
      (.step (by decide) (j := 4) (by rfl) (.step (by decide) (j := 2) (by rfl)
        (.step (by decide) (j := 0) (by rfl) (.stop (by decide))))))
  refine ⟨⟨.signed 31, 10, .gt, false, 0, .compound true (-2)⟩,
    ⟨.signed 31, 0, .le, false, 10, .compound false (-2)⟩, trivial, Or.inr (by decide),
    by rfl, by rfl, hrun, ?_⟩
  intro hr
  obtain ⟨f', hf⟩ := hr _ 0 hrun
  cases hf

/-- An unsigned loop from zero, `for (unsigned i = 0; i < 3; ++i)`, is replaced by a loop which
never stops, also when the constants of the analysis are known. -/
theorem reverse_unsigned_fails : ∃ (h h' : Header) (c : Consts), h.Source ∧ h.Consistent ∧
    Runs h h.init [0, 1, 2] 3 ∧ c.Describes h [0, 1, 2] ∧ c.fin.isSome ∧ c.step.isSome ∧
    transformLoop h c = some h' ∧ ∀ l f, ¬ Runs h' h'.init l f := by
  refine ⟨⟨.unsigned 32, 0, .lt, false, 3, .unary true⟩,
    ⟨.unsigned 32, 2, .ge, false, 0, .unary false⟩, ⟨some 0, some 1, some 3⟩, trivial,
    Or.inl (by decide), ?_, ?_, rfl, rfl, by rfl, ?_⟩
  · exact .step (by decide) (j := 1) (by rfl) (.step (by decide) (j := 2) (by rfl)
      (.step (by decide) (j := 3) (by rfl) (.stop (by decide))))
  · refine ⟨by simp, by rintro v h; simp at h; subst h; rfl, by rintro v h; simp at h; subst h; rfl⟩
  · have key : ∀ i l f, 0 ≤ i →
        ¬ Runs ⟨.unsigned 32, 2, .ge, false, 0, .unary false⟩ i l f := by
      intro i l f hi hr
      induction hr with
      | stop hn => exact hn (by simpa [Header.test, Cmp.holds] using hi)
      | @step i j f l _ hn _ ih =>
        apply ih
        simp only [Header.next, Ty.arith, Option.some.injEq] at hn
        rw [← hn]
        exact Int.emod_nonneg _ (by decide)
    intro l f
    exact key 2 l f (by decide)

/-! ## The choice of loops (C44) -/

/-- Loop number `k` is named by the clause: by the name of its induction variable (the outermost
loop with such name), or by its number counted from one. -/
def Requested (loops names : List String) (numbers : List ℕ) (k : ℕ) : Prop :=
  (∃ nm ∈ names, loops[k]? = some nm ∧ ∀ j < k, loops[j]? ≠ some nm) ∨
    (k < loops.length ∧ k + 1 ∈ numbers)

theorem mem_setBits {bits : List Bool} {k : ℕ} :
    k ∈ setBits bits ↔ bits.getD k false = true := by
  unfold setBits
  simp only [List.mem_filter, List.mem_range, and_iff_right_iff_imp]
  intro h
  by_contra hk
  rw [List.getD_eq_getElem?_getD, List.getElem?_eq_none (by omega)] at h
  exact absurd h (by decide)

theorem mem_mark {bits : List Bool} {idx k : ℕ} :
    k ∈ setBits (mark bits idx) ↔ (k ∈ setBits bits ∧ k < idx) ∨ k = idx := by
  rw [mem_setBits, mem_setBits]
  unfold mark
  have hlen : (bits.take idx ++ List.replicate (idx - bits.length) false).length = idx := by
    simp only [List.length_append, List.length_take, List.length_replicate]
    omega
  rw [List.getD_eq_getElem?_getD, List.getElem?_append, hlen]
  by_cases hk : k < idx
  · rw [if_pos hk, List.getElem?_append]
    by_cases hb : k < bits.length
    · rw [if_pos (by simp; omega), List.getElem?_take, if_pos hk,
        List.getD_eq_getElem?_getD]
      constructor
      · intro h; exact Or.inl ⟨h, hk⟩
      · rintro (⟨h, _⟩ | h)
        · exact h
        · omega
    · rw [if_neg (by simp; omega), List.getElem?_replicate,
        List.getD_eq_getElem?_getD, List.getElem?_eq_none (by omega)]
      constructor
      · intro h; split at h <;> simp at h
      · rintro (⟨h, _⟩ | h)
        · exact absurd h (by decide)
        · omega
  · rw [if_neg hk]
    by_cases he : k = idx
    · subst he; simp
    · rw [List.getElem?_eq_none (by simp; omega)]
      simp [hk, he]

/-- A position is selected exactly when it occurs in the clause and is followed by greater
positions only. -/
theorem mem_foldl {ps : List ℕ} {bits : List Bool} {k : ℕ} :
    k ∈ setBits (ps.foldl mark bits) ↔
      (k ∈ setBits bits ∧ ∀ p ∈ ps, k < p) ∨
        ∃ xs ys, ps = xs ++ k :: ys ∧ ∀ y ∈ ys, k < y := by
  induction ps generalizing bits with
  | nil => simp
  | cons p ps ih =>
    rw [List.foldl_cons, ih, mem_mark]
    constructor
    · rintro (⟨⟨h1, h2⟩ | rfl, h3⟩ | ⟨xs, ys, rfl, h⟩)
      · exact Or.inl ⟨h1, by simpa using ⟨h2, h3⟩⟩
      · exact Or.inr ⟨[], ps, rfl, h3⟩
      · exact Or.inr ⟨p :: xs, ys, rfl, h⟩
    · rintro (⟨h1, h2⟩ | ⟨xs, ys, he, h⟩)
      · simp only [List.mem_cons, forall_eq_or_imp] at h2
        exact Or.inl ⟨Or.inl ⟨h1, h2.1⟩, h2.2⟩
      · cases xs with
        | nil =>
          simp only [List.nil_append, List.cons.injEq] at he
          obtain ⟨rfl, rfl⟩ := he
          exact Or.inl ⟨Or.inr rfl, h⟩
        | cons x xs =>
          simp only [List.cons_append, List.cons.injEq] at he
          obtain ⟨rfl, rfl⟩ := he
          exact Or.inr ⟨xs, ys, rfl, h⟩

theorem findName_eq {loops : List String} {nm : String} {k : ℕ} :
    findName loops nm = some k ↔ loops[k]? = some nm ∧ ∀ j < k, loops[j]? ≠ some nm := by
  unfold findName
  rw [List.findIdx?_eq_some_iff_getElem]
  constructor
  · rintro ⟨h, h1, h2⟩
    refine ⟨by rw [List.getElem?_eq_getElem h]; simpa using h1, fun j hj => ?_⟩
    have := h2 j hj
    rw [List.getElem?_eq_getElem (by omega)]
    simpa using this
  · rintro ⟨h1, h2⟩
    obtain ⟨hk, he⟩ := List.getElem?_eq_some_iff.1 h1
    refine ⟨hk, by simpa using he, fun j hj => ?_⟩
    have := h2 j hj
    rw [List.getElem?_eq_getElem (by omega)] at this
    simpa using this

theorem findNumber_eq {loops : List String} {n k : ℕ} (hn : n < 2 ^ 64)
    (hl : loops.length < 2 ^ 64) :
    findNumber loops n = some k ↔ k < loops.length ∧ n = k + 1 := by
  unfold findNumber
  dsimp only
  cases n with
  | zero =>
    rw [Nat.zero_add, Nat.mod_eq_of_lt (by omega), if_neg (by omega)]
    simp
  | succ n =>
    rw [show n + 1 + (2 ^ 64 - 1) = n + 2 ^ 64 by omega, Nat.add_mod_right,
      Nat.mod_eq_of_lt (by omega)]
    split
    · simp only [Option.some.injEq]; omega
    · simp only [reduceCtorEq, false_iff]; omega

theorem mem_positions {loops names : List String} {numbers : List ℕ} {k : ℕ}
    (hn : ∀ n ∈ numbers, n < 2 ^ 64) (hl : loops.length < 2 ^ 64) :
    k ∈ names.filterMap (findName loops) ++ numbers.filterMap (findNumber loops) ↔
      Requested loops names numbers k := by
  unfold Requested
  rw [List.mem_append, List.mem_filterMap, List.mem_filterMap]
  apply or_congr
  · exact exists_congr fun nm => and_congr_right fun _ => findName_eq
  · constructor
    · rintro ⟨n, h1, h2⟩
      obtain ⟨h3, rfl⟩ := (findNumber_eq (hn n h1) hl).1 h2
      exact ⟨h3, h1⟩
    · rintro ⟨h1, h2⟩
      exact ⟨k + 1, h2, (findNumber_eq (hn _ h2) hl).2 ⟨h1, rfl⟩⟩

/-- **C44**, "and no other": only loops named in the clause are reversed, each of them exists. -/
theorem selected_requested {loops names : List String} {numbers : List ℕ} {k : ℕ}
    (hn : ∀ n ∈ numbers, n < 2 ^ 64) (hl : loops.length < 2 ^ 64)
    (h : k ∈ setBits (toTransform loops names numbers)) :
    Requested loops names numbers k ∧ k < loops.length := by
  have hr : Requested loops names numbers k := by
    rw [← mem_positions hn hl]
    unfold toTransform at h
    rcases mem_foldl.1 h with ⟨h, _⟩ | ⟨xs, ys, he, _⟩
    · exact absurd h (by simp [setBits])
    · rw [he]; simp
  refine ⟨hr, ?_⟩
  rcases hr with ⟨_, _, h, _⟩ | ⟨h, _⟩
  · exact (List.getElem?_eq_some_iff.1 h).1
  · exact h

/-- **C44.**  All loops named in the clause are reversed if they are named in the order of the
nest: numbers strictly increase and names are absent.  Missing: any other order
(`selected_fails`). -/
theorem selected_numbers_partial {loops : List String} {numbers : List ℕ}
    (hn : ∀ n ∈ numbers, n < 2 ^ 64) (hl : loops.length < 2 ^ 64)
    (hs : numbers.Pairwise (· < ·)) (k : ℕ) :
    k ∈ setBits (toTransform loops [] numbers) ↔ Requested loops [] numbers k := by
  refine ⟨fun h => (selected_requested hn hl h).1, fun h => ?_⟩
  rw [← mem_positions hn hl] at h
  unfold toTransform
  rw [mem_foldl]
  right
  obtain ⟨xs, ys, he⟩ := List.append_of_mem h
  refine ⟨xs, ys, he, ?_⟩
  have hp : (numbers.filterMap (findNumber loops)).Pairwise (· < ·) := by
    rw [List.pairwise_filterMap]
    refine hs.imp_of_mem ?_
    intro a b ha hb hab i hi j hj
    obtain ⟨_, rfl⟩ := (findNumber_eq (hn a ha) hl).1 hi
    obtain ⟨_, rfl⟩ := (findNumber_eq (hn b hb) hl).1 hj
    omega
  simp only [List.filterMap_nil, List.nil_append] at he
  rw [he, List.pairwise_append, List.pairwise_cons] at hp
  exact hp.2.1.1

/-- **C44** for names: each named loop is reversed if the names are listed in the order of the
nest. -/
theorem selected_names_partial {loops names : List String} (hl : loops.length < 2 ^ 64)
    (hs : names.Pairwise fun a b => ∀ i j : ℕ, loops[i]? = some a → (∀ m < i, loops[m]? ≠ some a) →
      loops[j]? = some b → (∀ m < j, loops[m]? ≠ some b) → i < j) (k : ℕ) :
    k ∈ setBits (toTransform loops names []) ↔ Requested loops names [] k := by
  have hn : ∀ n ∈ ([] : List ℕ), n < 2 ^ 64 := by simp
  refine ⟨fun h => (selected_requested hn hl h).1, fun h => ?_⟩
  rw [← mem_positions hn hl] at h
  unfold toTransform
  rw [mem_foldl]
  right
  obtain ⟨xs, ys, he⟩ := List.append_of_mem h
  refine ⟨xs, ys, he, ?_⟩
  have hp : (names.filterMap (findName loops)).Pairwise (· < ·) := by
    rw [List.pairwise_filterMap]
    refine hs.imp ?_
    intro a b hab i hi j hj
    obtain ⟨h1, h2⟩ := findName_eq.1 hi
    obtain ⟨h3, h4⟩ := findName_eq.1 hj
    exact hab i j h1 h2 h3 h4
  simp only [List.filterMap_nil, List.append_nil] at he
  rw [he, List.pairwise_append, List.pairwise_cons] at hp
  exact hp.2.1.1

example : setBits (toTransform ["i", "j", "k"] [] [1, 3]) = [0, 2] := by rfl
example : setBits (toTransform ["i", "j", "k"] ["i", "k"] []) = [0, 2] := by rfl

/-- The full property C44 is false: `reverse(2) reverse(1)` on a nest of two loops reverses the outer loop
only. -/
theorem selected_fails : Requested ["i", "j"] [] [2, 1] 1 ∧
    1 ∉ setBits (toTransform ["i", "j"] [] [2, 1]) := by
  exact ⟨Or.inr ⟨by decide, by decide⟩, by decide⟩

/-! ## Coherence (C63) -/

/-- **C63.**  An accepted loop with a constant step moves its induction variable towards the
bound. -/
theorem coherent_consistent {h : Header} (hs : h.Source) {start fin : Option ℤ}
    (hc : coherent start fin (h.inc.toOp true) h.op h.onRight = true) : h.Consistent := by
  obtain ⟨ty, init, op, onRight, bound, inc⟩ := h
  simp only [Header.Source] at hs
  have key : ∀ {inc' : Bool}, coherentDir inc' start fin op onRight = true →
      ((Header.mk ty init op onRight bound inc).Less ↔ inc' = true) := by
    intro inc' hd
    unfold coherentDir at hd
    simp only [Bool.and_eq_true] at hd
    obtain ⟨_, hd⟩ := hd
    unfold Header.Less
    cases inc' <;> cases op <;> cases onRight <;> simp_all
  unfold Header.Consistent
  cases inc with
  | unary up =>
    have := key (inc' := up) hc
    cases up <;> simp_all [Header.delta]
  | compound add s =>
    simp only [Inc.toOp, if_true, coherent] at hc
    split at hc
    · exact absurd hc (by decide)
    · have := key hc
      rw [this]
      cases add <;> simp_all [Header.delta] <;> omega
  | assignAdd neg s =>
    simp only [Inc.toOp, if_true, coherent] at hc
    split at hc
    · exact absurd hc (by decide)
    · have := key hc
      rw [this]
      simp_all [Header.delta]
      omega
  | assignSub neg s =>
    simp only [Inc.toOp, if_true, coherent] at hc
    split at hc
    · exact absurd hc (by decide)
    · have := key hc
      rw [this]
      simp_all [Header.delta]
      omega

/-- A header whose increment moves towards the bound stops, unless a value overflows. -/
theorem consistent_terminates {h : Header} (hs : h.Source) (hc : h.Consistent)
    (hin : ∀ i, h.ty.has i → h.test i → h.ty.has (i + h.delta)) (hi : h.ty.has h.init) :
    ∃ l f, Runs h h.init l f := by
  have key : ∀ (n : ℕ) (i : ℤ), h.ty.has i →
      (if h.Less then h.edge - i else i - h.edge) < n → ∃ l f, Runs h i l f := by
    intro n
    induction n with
    | zero =>
      intro i hi hn
      refine ⟨[], i, .stop ?_⟩
      rw [edge_eq] at hn
      by_cases hL : h.Less
      · rw [test_less hL]
        simp only [if_pos hL] at hn
        push_cast at hn
        omega
      · rw [test_greater hL]
        simp only [if_neg hL] at hn
        push_cast at hn
        omega
    | succ n ih =>
      intro i hi hn
      by_cases ht : h.test i
      · have hd := hin i hi ht
        obtain ⟨l, f, hr⟩ := ih (i + h.delta) hd (by
          rcases hc with ⟨hL, hd⟩ | ⟨hL, hd⟩
          · rw [if_pos hL] at hn ⊢; push_cast at hn; omega
          · rw [if_neg hL] at hn ⊢; push_cast at hn; omega)
        exact ⟨i :: l, f, .step ht (by rw [next_source hs, Ty.arith_of_has hd]) hr⟩
      · exact ⟨[], i, .stop ht⟩
  obtain ⟨n, hn⟩ : ∃ n : ℕ, (if h.Less then h.edge - h.init else h.init - h.edge) < n :=
    ⟨((if h.Less then h.edge - h.init else h.init - h.edge) + 1).toNat, by omega⟩
  exact key n _ hi hn

/-- **C63.**  An accepted loop with a constant step stops, unless a value overflows. -/
theorem coherent_terminates {h : Header} (hs : h.Source) {start fin : Option ℤ}
    (hc : coherent start fin (h.inc.toOp true) h.op h.onRight = true)
    (hin : ∀ i, h.ty.has i → h.test i → h.ty.has (i + h.delta)) (hi : h.ty.has h.init) :
    ∃ l f, Runs h h.init l f :=
  consistent_terminates hs (coherent_consistent hs hc) hin hi

/-- The constants seen by `coherent` are those of the header. -/
def ConstsOf (h : Header) (start fin : Option ℤ) : Prop :=
  (∀ v, start = some v → v = h.init) ∧ (∀ v, fin = some v → v = h.bound)

/-- **C63.**  A rejected loop with a strict condition really conflicts: the increment does not move
the variable towards the bound, or no iteration is executed.  Missing: the conditions `<=` and
`>=` (`coherent_fails`). -/
theorem coherent_rejects_partial {h : Header} (hs : h.Source) {start fin : Option ℤ}
    (hk : ConstsOf h start fin) {isConst : Bool} (hstrict : h.op = .lt ∨ h.op = .gt)
    (hc : coherent start fin (h.inc.toOp isConst) h.op h.onRight = false) :
    ¬ h.Consistent ∨ Runs h h.init [] h.init := by
  by_cases hcon : h.Consistent
  swap
  · exact Or.inl hcon
  right
  refine .stop ?_
  obtain ⟨hk1, hk2⟩ := hk
  obtain ⟨ty, init, op, onRight, bound, inc⟩ := h
  simp only [Header.Source] at hs
  have key : ∀ {up : Bool}, (up = true ↔ (Header.mk ty init op onRight bound inc).Less) →
      coherentDir up start fin op onRight = false →
      ¬ (Header.mk ty init op onRight bound inc).test init := by
    intro up hup hd
    unfold coherentDir at hd
    unfold Header.Less at hup
    unfold Header.test
    cases start with
    | none =>
      exfalso
      clear hk1 hk2 hcon hs
      cases up <;> cases op <;> cases onRight <;> simp_all
    | some a =>
      cases fin with
      | none =>
        exfalso
        clear hk1 hk2 hcon hs
        cases up <;> cases op <;> cases onRight <;> simp_all
      | some b =>
        have ha := hk1 a rfl
        have hb := hk2 b rfl
        dsimp only at ha hb
        subst ha hb
        clear hk1 hk2 hcon hs
        cases up <;> cases op <;> cases onRight <;> simp_all [Cmp.holds]
  have hlt : ∀ {up : Bool} {d : ℤ}, d = (Header.mk ty init op onRight bound inc).delta →
      (up = true ↔ 0 < d) → d ≠ 0 →
      (up = true ↔ (Header.mk ty init op onRight bound inc).Less) := by
    intro up d hd hup h0
    rcases hcon with ⟨h1, h2⟩ | ⟨h1, h2⟩
    · rw [← hd] at h2; simp [h1, hup, h2]
    · rw [← hd] at h2; simp [h1, hup]; omega
  have hne : (Header.mk ty init op onRight bound inc).delta ≠ 0 := by
    rcases hcon with ⟨_, h2⟩ | ⟨_, h2⟩ <;> omega
  cases inc with
  | unary up =>
    refine key (up := up) (hlt rfl ?_ hne) hc
    cases up <;> simp [Header.delta]
  | compound add s =>
    cases isConst with
    | false => simp [Inc.toOp, coherent] at hc
    | true =>
      simp only [Inc.toOp, if_true, coherent] at hc
      split at hc
      · rename_i h0; subst h0; simp [Header.delta] at hne
      · refine key (hlt rfl ?_ hne) hc
        cases add <;> simp [Header.delta]
  | assignAdd neg s =>
    cases isConst with
    | false => simp [Inc.toOp, coherent] at hc
    | true =>
      simp only [Inc.toOp, if_true, coherent] at hc
      split at hc
      · rename_i h0; subst h0; simp [Header.delta] at hne
      · refine key (hlt rfl ?_ hne) hc
        simp [Header.delta]
  | assignSub neg s =>
    cases isConst with
    | false => simp [Inc.toOp, coherent] at hc
    | true =>
      simp only [Inc.toOp, if_true, coherent] at hc
      split at hc
      · rename_i h0; subst h0; simp [Header.delta] at hne
      · refine key (hlt rfl ?_ hne) hc
        simp [Header.delta]

/-- `for (i = 0; i <= 0; ++i)` executes one iteration and is rejected as conflicting. -/
theorem coherent_fails : ∃ h : Header, h.Source ∧ h.Consistent ∧
    ConstsOf h (some h.init) (some h.bound) ∧
    coherent (some h.init) (some h.bound) (h.inc.toOp true) h.op h.onRight = false ∧
    Runs h h.init [0] 1 := by
  refine ⟨⟨.signed 31, 0, .le, false, 0, .unary true⟩, trivial, Or.inl (by decide),
    ⟨by simp, by simp⟩, by rfl, ?_⟩
  exact .step (by decide) (j := 1) (by rfl) (.stop (by decide))

example : coherent (some 1) none (exUp.inc.toOp true) exUp.op exUp.onRight = true := by rfl
example : coherent (some 12) (some 10) (exUp.inc.toOp true) exUp.op exUp.onRight = false := by rfl

/-! ## The predicate (C62) -/

/-- **C62.**  The stored predicate relates the induction variable and the bound as the condition
does, if the bound is the second operand of the comparison.  Missing: the other position, where
the stored predicate is always wrong (`predicate_left_fails`). -/
theorem predicate_right_partial {w : ℕ} (p : Pred) (i e : BitVec w) :
    (reportedPredicate p false).holds i e ↔ p.holds i e := Iff.rfl

/-- For each predicate there are values of the variable and of the bound such that the condition
`bound p variable` and the stored predicate `variable q bound` differ. -/
theorem predicate_left_fails (p : Pred) :
    ∃ i e : BitVec 32, ¬ ((reportedPredicate p true).holds i e ↔ p.holds e i) := by
  cases p <;> exact ⟨1#32, 1#32, by decide⟩

end Tsar.Loop
