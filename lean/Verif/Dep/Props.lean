import Verif.Dep.Model

/-!
# Loop-carried dependencies: specification and theorems

Property C32.
-/

set_option linter.unusedSectionVars false

namespace Tsar
namespace Dep

/-! ## Specification -/

/-- An iteration vector: the number of an iteration of each loop in a nest, levels are numbered from 1. -/
abbrev Iter := Nat → Int

/-- The kind of a dependence between two accesses to the same memory in order of their execution
(`true` is a write). -/
def orderKind (first second : Bool) : Option Kind :=
  match first, second with
  | true, false => some .flow
  | false, true => some .anti
  | true, true => some .output
  | false, false => none

/-- The difference between iterations of a destination and a source agrees with a direction. -/
def Dir.admits (d : Dir) (x : Int) : Prop :=
  (0 < x ∧ d.lt = true) ∨ (x = 0 ∧ d.eq = true) ∨ (x < 0 ∧ d.gt = true)

/-- Iterations of two accesses belong to one iteration of loops at levels less than `depth`. -/
def SameOuter (depth : Nat) (i j : Iter) : Prop := ∀ l, 1 ≤ l → l < depth → i l = j l

/-- The contract of a dependence test for pairs of iterations (of the source and of the destination) in
which the same memory is accessed. Results are valid for levels which are greater than the number of
confused levels and for iterations which are equal at confused levels. -/
def Describes {D : Type} (d : Dependence D) (conflict : Iter → Iter → Prop) : Prop :=
  d.confused = false → ∀ i j, conflict i j → SameOuter (d.confusedLevels + 1) i j →
    ∀ l, d.confusedLevels < l → l ≤ d.levels → (d.dir l).admits (j l - i l)

variable {D E : Type} [DecidableEq E]

/-- A dependence of the specified kind is recorded for a location. -/
def Recorded (deps : Deps D E) (e : E) (k : Kind) : Prop := ∃ m, deps e = some m ∧ m.dptr k = true

/-! ## Lemmas -/

theorem recorded_update_self (se : SE D) (deps : Deps D E) (e : E) (ks : Kind → Bool) (fu : Bool)
    (di : Option (DistInfo D)) (k : Kind) (hk : ks k = true) :
    Recorded (updateDependence se e ks fu di deps) e k := by
  refine ⟨_, by simp [updateDependence]; rfl, ?_⟩
  simp [Imp.update, hk]

theorem recorded_update_mono (se : SE D) (deps : Deps D E) (e x : E) (ks : Kind → Bool) (fu : Bool)
    (di : Option (DistInfo D)) (k : Kind) (h : Recorded deps x k) :
    Recorded (updateDependence se e ks fu di deps) x k := by
  obtain ⟨m, hm, hk⟩ := h
  by_cases hx : x = e
  · subst hx
    refine ⟨_, by simp [updateDependence]; rfl, ?_⟩
    simp [Imp.update, hm, hk]
  · exact ⟨m, by simp [updateDependence, hx, hm], hk⟩

theorem recorded_insert_mono (se : SE D) (d : Dependence D) (src dst : E) (depth : Nat) (deps : Deps D E)
    (x : E) (k : Kind) (h : Recorded deps x k) :
    Recorded (insertDependence se d src dst depth deps) x k := by
  unfold insertDependence
  split
  · exact recorded_update_mono _ _ _ _ _ _ _ _ (recorded_update_mono _ _ _ _ _ _ _ _ h)
  · split
    · exact h
    · split
      · exact h
      · exact recorded_update_mono _ _ _ _ _ _ _ _ (recorded_update_mono _ _ _ _ _ _ _ _ h)

theorem recorded_both (se : SE D) (deps : Deps D E) (src dst : E) (ks : Kind → Bool) (fu : Bool)
    (di di' : Option (DistInfo D)) (k : Kind) (hk : ks k = true) :
    Recorded (updateDependence se dst ks fu di (updateDependence se src ks fu di' deps)) src k ∧
    Recorded (updateDependence se dst ks fu di (updateDependence se src ks fu di' deps)) dst k :=
  ⟨recorded_update_mono _ _ _ _ _ _ _ _ (recorded_update_self _ _ _ _ _ _ _ hk),
    recorded_update_self _ _ _ _ _ _ _ hk⟩

/-- The outer check accepts dependencies with an instance inside of one iteration of outer loops. -/
theorem outerOK_of {d : Dependence D} {conflict : Iter → Iter → Prop} (hd : Describes d conflict)
    (hc : d.confused = false) {depth : Nat} (hlev : depth ≤ d.levels) (hcl : d.confusedLevels < depth)
    (hconf : 0 < d.confusedLevels → (d.dir d.confusedLevels).eq = true)
    {i j : Iter} (hij : conflict i j) (hout : SameOuter depth i j) : outerOK d depth = true := by
  have key : ∀ x : Dir, x.eq = true → (x = .EQ ∨ x = .ALL ∨ x = .LE ∨ x = .GE) := by
    intro x hx
    obtain ⟨a, b, c⟩ := x
    cases hx
    cases a <;> cases c <;> decide
  have conv : ∀ l, max d.confusedLevels 1 ≤ l → l < depth → (d.dir l).eq = true := by
    intro l h1 h2
    by_cases hl : l = d.confusedLevels
    · subst hl
      exact hconf (by omega)
    · have hlt : d.confusedLevels < l := by omega
      have := hd hc i j hij (fun m h3 h4 => hout m h3 (by omega)) l hlt (by omega)
      rw [hout l (by omega) h2, Int.sub_self] at this
      rcases this with ⟨h, -⟩ | ⟨-, h⟩ | ⟨h, -⟩
      · omega
      · exact h
      · omega
  unfold outerOK
  simp only [List.all_eq_true, List.mem_range'_1]
  intro l hl
  have hk := key _ (conv l (by split at hl <;> omega) (by split at hl <;> omega))
  rcases hk with h | h | h | h <;> simp [h]

/-! ## C32 -/

/-- The direction at the level of a loop admits iterations of a carried dependence. -/
theorem describes_at {d : Dependence D} {conflict : Iter → Iter → Prop} (hd : Describes d conflict)
    (hc : d.confused = false) {depth : Nat} (hlev : depth ≤ d.levels) (hcl : d.confusedLevels < depth)
    {i j : Iter} (hij : conflict i j) (hout : SameOuter depth i j) :
    (d.dir depth).admits (j depth - i depth) :=
  hd hc i j hij (fun m h3 h4 => hout m h3 (by omega)) depth hcl hlev

/-- Kinds which are chosen for a carried dependence. -/
theorem classify_kind {d : Dependence D} {depth : Nat} (hne : d.dir depth ≠ .NE)
    {x : Int} (hx : (d.dir depth).admits x) {k : Kind}
    (h : (0 < x ∧ orderKind d.srcW d.dstW = some k) ∨ (x < 0 ∧ orderKind d.dstW d.srcW = some k)) :
    ∃ ks tr, classify d depth = some (ks, tr) ∧ ks k = true := by
  unfold classify
  generalize hdir : d.dir depth = r at *
  obtain ⟨a, b, c⟩ := r
  have hneg : ¬ (a = true ∧ b = false ∧ c = true) := by
    rintro ⟨rfl, rfl, rfl⟩; exact hne rfl
  generalize hs : d.srcW = s at *
  generalize ht : d.dstW = t at *
  simp only [Dependence.isOutput, Dependence.isFlow, Dependence.isAnti, hs, ht]
  rcases h with ⟨hp, hk⟩ | ⟨hp, hk⟩
  · have ha : a = true := by
      rcases hx with ⟨-, h⟩ | ⟨h, -⟩ | ⟨h, -⟩
      · exact h
      · omega
      · omega
    subst ha
    cases s <;> cases t <;> simp only [orderKind, reduceCtorEq, Option.some.injEq] at hk <;> subst hk <;>
      cases b <;> cases c <;>
      simp_all [Dir.EQ, Dir.GT, Dir.GE, Dir.ALL, Dir.LT, Dir.LE]
  · have hc : c = true := by
      rcases hx with ⟨h, -⟩ | ⟨h, -⟩ | ⟨-, h⟩
      · omega
      · omega
      · exact h
    subst hc
    cases s <;> cases t <;> simp only [orderKind, reduceCtorEq, Option.some.injEq] at hk <;> subst hk <;>
      cases a <;> cases b <;>
      simp_all [Dir.EQ, Dir.GT, Dir.GE, Dir.ALL, Dir.LT, Dir.LE]

/-- **C32 (partial).** If two accesses conflict in different iterations of a loop (and in one iteration of
outer loops), the kind of this dependence is recorded for both locations. What is missing: the direction `NE`,
see `insert_ne_fails`; directions of outer confused levels which are invalid, see `insert_confused_fails`. -/
theorem insert_kind_partial (se : SE D) (d : Dependence D) (conflict : Iter → Iter → Prop)
    (hd : Describes d conflict) (src dst : E) (depth : Nat) (hlev : depth ≤ d.levels) (deps : Deps D E)
    (hne : d.dir depth ≠ .NE) (hconf : 0 < d.confusedLevels → (d.dir d.confusedLevels).eq = true)
    (i j : Iter) (hij : conflict i j) (hout : SameOuter depth i j) (k : Kind)
    (hk : (i depth < j depth ∧ orderKind d.srcW d.dstW = some k) ∨
      (j depth < i depth ∧ orderKind d.dstW d.srcW = some k)) :
    Recorded (insertDependence se d src dst depth deps) src k ∧
    Recorded (insertDependence se d src dst depth deps) dst k := by
  unfold insertDependence
  by_cases hcf : d.confused || decide (d.confusedLevels ≥ depth)
  · rw [if_pos hcf]
    exact recorded_both _ _ _ _ _ _ _ _ _ rfl
  · rw [if_neg hcf]
    simp only [Bool.or_eq_true, decide_eq_true_eq, not_or, Bool.not_eq_true] at hcf
    obtain ⟨hc, hcl⟩ := hcf
    have hcl : d.confusedLevels < depth := by omega
    rw [outerOK_of hd hc hlev hcl hconf hij hout]
    obtain ⟨ks, tr, he, hks⟩ := classify_kind hne (describes_at hd hc hlev hcl hij hout) (k := k) (by
      rcases hk with ⟨h, hk⟩ | ⟨h, hk⟩
      · exact .inl ⟨by omega, hk⟩
      · exact .inr ⟨by omega, hk⟩)
    simp only [Bool.not_true, Bool.false_eq_true, if_false, he]
    exact recorded_both _ _ _ _ _ _ _ _ _ hks

/-! ### Failures -/

/-- A flow dependence of the specified direction in a single loop. -/
def one (r : Dir) : Dependence D := ⟨false, 0, true, false, 1, fun _ => r, fun _ => none⟩

/-- **C32 (negation).** If the direction is "not equal", a read in a later iteration may obtain a value
which is written in an earlier one, but the flow dependence is not recorded. -/
theorem insert_ne_fails (se : SE D) : ∃ (d : Dependence D) (conflict : Iter → Iter → Prop) (i j : Iter),
    Describes d conflict ∧ conflict i j ∧ i 1 < j 1 ∧ orderKind d.srcW d.dstW = some .flow ∧
    ¬ Recorded (insertDependence se d () () 1 (fun _ => none)) () .flow := by
  refine ⟨one .NE, fun i j => i 1 ≠ j 1, fun _ => 0, fun _ => 1, ?_, ?_, ?_, rfl, ?_⟩
  · intro _ i j hij _ l h1 h2
    have : l = 1 := by simp only [one] at h1 h2; omega
    subst this
    change (Dir.NE).admits (j 1 - i 1)
    have : i 1 ≠ j 1 := hij
    rcases Int.lt_trichotomy (i 1) (j 1) with h | h | h
    · exact .inl ⟨by omega, rfl⟩
    · exact absurd h this
    · exact .inr (.inr ⟨by omega, rfl⟩)
  · decide
  · decide
  · rintro ⟨m, hm, hk⟩
    have hm := Option.some.inj hm
    subst hm
    exact absurd hk (by simp [Imp.update, updateDependence, Imp.init])

/-- **C32 (negation).** Results for confused levels are invalid (see the documentation of
`getConfusedLevels`), but the direction at the innermost of them is considered: a dependence carried by the
second loop of a nest is not recorded. -/
theorem insert_confused_fails (se : SE D) : ∃ (d : Dependence D) (conflict : Iter → Iter → Prop) (i j : Iter),
    Describes d conflict ∧ conflict i j ∧ SameOuter 2 i j ∧ i 2 < j 2 ∧
    orderKind d.srcW d.dstW = some .flow ∧ d.confusedLevels = 1 ∧ d.dir 2 = .LT ∧
    ¬ Recorded (insertDependence se d () () 2 (fun _ => none)) () .flow := by
  refine ⟨⟨false, 1, true, false, 2, fun _ => .LT, fun _ => none⟩, fun i j => i 1 = j 1 ∧ i 2 < j 2,
    fun _ => 0, fun l => if l = 2 then 1 else 0, ?_, by decide, ?_, by decide, rfl, rfl, rfl, ?_⟩
  · intro _ i j hij _ l h1 h2
    have : l = 2 := by simp only at h1 h2; omega
    subst this
    exact .inl ⟨by have := hij.2; omega, rfl⟩
  · intro l h1 h2
    simp only [show l ≠ 2 by omega, if_false]
  · rintro ⟨m, hm, -⟩
    revert hm
    simp [insertDependence, outerOK, Dir.LT, Dir.EQ, Dir.ALL, Dir.LE, Dir.GE]

/-! ### Non-vacuity -/

/-- `A[i][j] = ... A[i][j - 1]`: the dependence is carried by the second loop. -/
example : ∃ conflict : Iter → Iter → Prop,
    Describes (⟨false, 0, true, false, 2, fun l => if l = 2 then .LT else .EQ, fun _ => none⟩ : Dependence Unit)
      conflict ∧ conflict (fun _ => 3) (fun l => if l = 2 then 4 else 3) ∧
    SameOuter 2 (fun _ => 3) (fun l => if l = 2 then 4 else 3) := by
  refine ⟨fun i j => i 1 = j 1 ∧ j 2 = i 2 + 1, ?_, by decide, ?_⟩
  · intro _ i j hij _ l h1 h2
    simp only at h1 h2
    have : l = 1 ∨ l = 2 := by omega
    rcases this with rfl | rfl
    · exact .inr (.inl ⟨by have := hij.1; omega, rfl⟩)
    · exact .inl ⟨by have := hij.2; omega, rfl⟩
  · intro l h1 h2
    simp only [show l ≠ 2 by omega, if_false]

/-! ## All pairs of instructions of a loop -/

/-- Semantics of instructions: an instruction reads or writes a byte in an iteration, a location covers a
byte in some iteration. -/
structure Sem (I L : Type) where
  reads : I → Iter → Nat → Prop
  writes : I → Iter → Nat → Prop
  covers : L → Nat → Prop

variable {I L : Type}

/-- An instruction accesses a byte. -/
def Sem.accesses (S : Sem I L) (x : I) (i : Iter) (a : Nat) : Prop := S.reads x i a ∨ S.writes x i a

/-- Contracts of LLVM and of the dependence test, `depth` is a level of the analysed loop. -/
structure Sound (P : Prog I L E D) (S : Sem I L) (depth : Nat) : Prop where
  nomem : ∀ x i a, P.nomem x = true → ¬ S.accesses x i a
  marker : ∀ x i a, P.marker x = true → ¬ S.accesses x i a
  load : ∀ x l i a, P.ls x = some (l, false) → ¬ S.writes x i a
  store : ∀ x l i a, P.ls x = some (l, true) → ¬ S.reads x i a
  loc : ∀ x l w i a, P.ls x = some (l, w) → S.accesses x i a → S.covers l a
  locs : ∀ x l w, P.ls x = some (l, w) → l ∈ P.memLocs x
  modref : ∀ x l i a, P.modref x l = false → S.covers l a → ¬ S.accesses x i a
  depends : ∀ x y l l' w w' d c, P.ls x = some (l, w) → P.ls y = some (l', w') → P.depends x y = (some d, c) →
    d.srcW = w ∧ d.dstW = w' ∧ depth ≤ d.levels ∧
    Describes d (fun i j => ∃ a, S.accesses x i a ∧ S.accesses y j a)
  independent : ∀ x y l l' w w' c, P.ls x = some (l, w) → P.ls y = some (l', w') → P.depends x y = (none, c) →
    c < depth → ∀ i j a, SameOuter depth i j → S.accesses x i a → ¬ S.accesses y j a

/-- A test never returns the direction `NE` for the analysed loop, and directions at confused levels do
not exclude equal iterations (otherwise, see `insert_ne_fails` and `insert_confused_fails`). -/
def Regular (P : Prog I L E D) (depth : Nat) : Prop :=
  ∀ x y d c, P.depends x y = (some d, c) →
    d.dir depth ≠ .NE ∧ (0 < d.confusedLevels → (d.dir d.confusedLevels).eq = true)

theorem recorded_foldl_mono {α : Type} (f : Deps D E → α → Deps D E) (x : E) (k : Kind)
    (hf : ∀ deps a, Recorded deps x k → Recorded (f deps a) x k) (l : List α) (deps : Deps D E)
    (h : Recorded deps x k) : Recorded (l.foldl f deps) x k := by
  induction l generalizing deps with
  | nil => exact h
  | cons a l ih => exact ih _ (hf _ _ h)

theorem recorded_foldl_mem {α : Type} (f : Deps D E → α → Deps D E) (x : E) (k : Kind)
    (hf : ∀ deps a, Recorded deps x k → Recorded (f deps a) x k) (l : List α) (deps : Deps D E) (a : α)
    (ha : a ∈ l) (h : ∀ deps, Recorded (f deps a) x k) : Recorded (l.foldl f deps) x k := by
  induction l generalizing deps with
  | nil => simp at ha
  | cons b l ih =>
    rw [List.foldl_cons]
    rcases List.mem_cons.1 ha with rfl | ha
    · exact recorded_foldl_mono f x k hf l _ (h _)
    · exact ih _ ha

theorem collectPair_mono (se : SE D) (P : Prog I L E D) (depth : Nat) (src dst : I) (deps : Deps D E) (x : E)
    (k : Kind) (h : Recorded deps x k) : Recorded (collectPair se P depth src dst deps) x k := by
  unfold collectPair
  split
  · exact h
  · split
    · split
      · exact h
      · refine recorded_foldl_mono _ x k ?_ _ _ h
        intro deps l h
        split
        · exact recorded_update_mono _ _ _ _ _ _ _ _ h
        · exact h
    · split
      · split
        · exact h
        · exact recorded_update_mono _ _ _ _ _ _ _ _ h
      · split
        · exact h
        · split
          · exact recorded_insert_mono _ _ _ _ _ _ _ _ h
          · split
            · exact recorded_update_mono _ _ _ _ _ _ _ _ (recorded_update_mono _ _ _ _ _ _ _ _ h)
            · exact h

theorem collect_mono (se : SE D) (P : Prog I L E D) (depth : Nat) (l : List I) (deps : Deps D E) (x : E)
    (k : Kind) (h : Recorded deps x k) : Recorded (collect se P depth l deps) x k := by
  induction l generalizing deps with
  | nil => exact h
  | cons y ys ih =>
    rw [collect]
    exact ih _ (recorded_foldl_mono _ x k (fun deps z h => collectPair_mono se P depth y z deps x k h) _ _ h)

/-- A pair of instructions is visited. -/
theorem collect_pair {se : SE D} {P : Prog I L E D} {depth : Nat} {l : List I} {x y : I} {e : E} {k : Kind}
    (deps : Deps D E) (hx : x ∈ l) (hy : y ∈ l)
    (h1 : ∀ deps, Recorded (collectPair se P depth x y deps) e k)
    (h2 : ∀ deps, Recorded (collectPair se P depth y x deps) e k) : Recorded (collect se P depth l deps) e k := by
  induction l generalizing deps with
  | nil => simp at hx
  | cons z zs ih =>
    rw [collect]
    have mono := fun u => fun deps v h => collectPair_mono se P depth u v deps e k h
    rcases List.mem_cons.1 hx with rfl | hx'
    · refine collect_mono _ _ _ _ _ _ _ ?_
      exact recorded_foldl_mem _ e k (mono _) _ _ y hy h1
    · rcases List.mem_cons.1 hy with rfl | hy'
      · refine collect_mono _ _ _ _ _ _ _ ?_
        exact recorded_foldl_mem _ e k (mono _) _ _ x hx h2
      · exact ih _ hx' hy'

/-- An access of an instruction (`true` is a write). -/
def Sem.does (S : Sem I L) (x : I) (i : Iter) (a : Nat) (w : Bool) : Prop :=
  if w then S.writes x i a else S.reads x i a

theorem does_accesses {S : Sem I L} {x : I} {i : Iter} {a : Nat} {w : Bool} (h : S.does x i a w) :
    S.accesses x i a := by
  cases w
  · exact .inl h
  · exact .inr h

theorem does_ls {P : Prog I L E D} {S : Sem I L} {depth : Nat} (hs : Sound P S depth) {x : I} {l : L} {w w' : Bool}
    {i : Iter} {a : Nat} (hl : P.ls x = some (l, w)) (h : S.does x i a w') : w = w' := by
  cases w <;> cases w' <;> first | rfl | skip
  · exact absurd h (hs.load x l i a hl)
  · exact absurd h (hs.store x l i a hl)

/-- **C32 (partial).** Two loads or stores of a loop access the same byte in different iterations of the
loop (and in one iteration of outer loops), `i` is an earlier iteration. The kind of this dependence is
recorded for both locations, wherever the instructions are placed. -/
theorem collect_kind_partial (se : SE D) (P : Prog I L E D) (S : Sem I L) (depth : Nat) (hs : Sound P S depth)
    (hreg : Regular P depth) (insts : List I) (deps : Deps D E) (x y : I) (hx : x ∈ insts) (hy : y ∈ insts)
    (l l' : L) (w w' : Bool) (hlx : P.ls x = some (l, w)) (hly : P.ls y = some (l', w'))
    (i j : Iter) (a : Nat) (hout : SameOuter depth i j) (hlt : i depth < j depth)
    (hax : S.does x i a w) (hay : S.does y j a w') (k : Kind) (hk : orderKind w w' = some k) :
    Recorded (collect se P depth insts deps) (P.find l) k ∧
    Recorded (collect se P depth insts deps) (P.find l') k := by
  have hnx : P.nomem x = false := by
    cases h : P.nomem x with
    | false => rfl
    | true => exact absurd (does_accesses hax) (hs.nomem x i a h)
  have hny : P.nomem y = false := by
    cases h : P.nomem y with
    | false => rfl
    | true => exact absurd (does_accesses hay) (hs.nomem y j a h)
  have hww : (!w && !w') = false := by
    cases w <;> cases w' <;> simp [orderKind] at hk ⊢
  have hww' : (!w' && !w) = false := by
    cases w <;> cases w' <;> simp [orderKind] at hk ⊢
  have hout' : SameOuter depth j i := fun m h1 h2 => (hout m h1 h2).symm
  have fwd : ∀ deps, Recorded (collectPair se P depth x y deps) (P.find l) k ∧
      Recorded (collectPair se P depth x y deps) (P.find l') k := by
    intro deps
    unfold collectPair
    simp only [hnx, hlx, hly, hww, Bool.false_eq_true, if_false]
    rcases hd : P.depends x y with ⟨_ | d, c⟩
    · simp only
      by_cases hc : depth ≤ c
      · rw [if_pos hc]
        exact recorded_both _ _ _ _ _ _ _ _ _ rfl
      · exact absurd (does_accesses hay) (hs.independent x y l l' w w' c hlx hly hd (by omega) i j a hout
          (does_accesses hax))
    · obtain ⟨h1, h2, h3, h4⟩ := hs.depends x y l l' w w' d c hlx hly hd
      obtain ⟨h5, h6⟩ := hreg x y d c hd
      exact insert_kind_partial se d _ h4 _ _ depth h3 deps h5 h6 i j
        ⟨a, does_accesses hax, does_accesses hay⟩ hout k (.inl ⟨hlt, by rw [h1, h2, hk]⟩)
  have bwd : ∀ deps, Recorded (collectPair se P depth y x deps) (P.find l) k ∧
      Recorded (collectPair se P depth y x deps) (P.find l') k := by
    intro deps
    unfold collectPair
    simp only [hny, hlx, hly, hww', Bool.false_eq_true, if_false]
    rcases hd : P.depends y x with ⟨_ | d, c⟩
    · simp only
      by_cases hc : depth ≤ c
      · rw [if_pos hc]
        exact (recorded_both _ _ _ _ _ _ _ _ _ rfl).symm
      · exact absurd (does_accesses hax) (hs.independent y x l' l w' w c hly hlx hd (by omega) j i a hout'
          (does_accesses hay))
    · obtain ⟨h1, h2, h3, h4⟩ := hs.depends y x l' l w' w d c hly hlx hd
      obtain ⟨h5, h6⟩ := hreg y x d c hd
      exact (insert_kind_partial se d _ h4 _ _ depth h3 deps h5 h6 j i
        ⟨a, does_accesses hay, does_accesses hax⟩ hout' k (.inr ⟨hlt, by rw [h1, h2, hk]⟩)).symm
  exact ⟨collect_pair deps hx hy (fun d => (fwd d).1) (fun d => (bwd d).1),
    collect_pair deps hx hy (fun d => (fwd d).2) (fun d => (bwd d).2)⟩

/-- **C32.** A load or store and another instruction (a call) access the same byte: all kinds are recorded
for the location of the load or store. -/
theorem collect_unknown (se : SE D) (P : Prog I L E D) (S : Sem I L) (depth : Nat) (hs : Sound P S depth)
    (insts : List I) (deps : Deps D E) (x y : I) (hx : x ∈ insts) (hy : y ∈ insts) (l : L) (w : Bool)
    (hlx : P.ls x = some (l, w)) (hly : P.ls y = none) (i j : Iter) (a : Nat)
    (hax : S.accesses x i a) (hay : S.accesses y j a) (k : Kind) :
    Recorded (collect se P depth insts deps) (P.find l) k := by
  have no : ∀ {z m}, S.accesses z m a → P.nomem z = false ∧ P.marker z = false := by
    intro z m hz
    constructor
    · cases h : P.nomem z with
      | false => rfl
      | true => exact absurd hz (hs.nomem z m a h)
    · cases h : P.marker z with
      | false => rfl
      | true => exact absurd hz (hs.marker z m a h)
  have hcov : S.covers l a := hs.loc x l w i a hlx hax
  have mr : ∀ {z m}, S.accesses z m a → P.modref z l = true := by
    intro z m hz
    cases h : P.modref z l with
    | true => rfl
    | false => exact absurd hz (hs.modref z l m a h hcov)
  obtain ⟨hnx, hmx⟩ := no hax
  obtain ⟨hny, hmy⟩ := no hay
  refine collect_pair deps hx hy ?_ ?_
  · intro deps
    unfold collectPair
    simp only [hnx, hlx, hly, hny, hmy, mr hay, Bool.not_true, Bool.or_self, Bool.false_eq_true, if_false]
    exact recorded_update_self _ _ _ _ _ _ _ rfl
  · intro deps
    unfold collectPair
    simp only [hnx, hly, hny, hmy, hmx, Bool.or_self, Bool.false_eq_true, if_false]
    refine recorded_foldl_mem _ _ _ ?_ _ _ l (List.mem_append.2 (.inr (hs.locs x l w hlx))) ?_
    · intro deps l h
      split
      · exact recorded_update_mono _ _ _ _ _ _ _ _ h
      · exact h
    · intro deps
      simp only [mr hax, mr hay, Bool.and_self, if_true]
      exact recorded_update_self _ _ _ _ _ _ _ rfl

/-- **C32.** Two instructions which are not loads or stores access the same byte in a known location of one
of them: all kinds are recorded for this location. -/
theorem collect_calls (se : SE D) (P : Prog I L E D) (S : Sem I L) (depth : Nat) (hs : Sound P S depth)
    (insts : List I) (deps : Deps D E) (x y : I) (hx : x ∈ insts) (hy : y ∈ insts)
    (hlx : P.ls x = none) (hly : P.ls y = none) (i j : Iter) (a : Nat)
    (hax : S.accesses x i a) (hay : S.accesses y j a) (l : L) (hl : l ∈ P.memLocs x) (hcov : S.covers l a)
    (k : Kind) : Recorded (collect se P depth insts deps) (P.find l) k := by
  have no : ∀ {z m}, S.accesses z m a → P.nomem z = false ∧ P.marker z = false := by
    intro z m hz
    constructor
    · cases h : P.nomem z with
      | false => rfl
      | true => exact absurd hz (hs.nomem z m a h)
    · cases h : P.marker z with
      | false => rfl
      | true => exact absurd hz (hs.marker z m a h)
  have mr : ∀ {z m}, S.accesses z m a → P.modref z l = true := by
    intro z m hz
    cases h : P.modref z l with
    | true => rfl
    | false => exact absurd hz (hs.modref z l m a h hcov)
  obtain ⟨hnx, hmx⟩ := no hax
  obtain ⟨hny, hmy⟩ := no hay
  have mono : ∀ (u v : I) (deps : Deps D E) (l' : L), Recorded deps (P.find l) k →
      Recorded (if P.modref u l' && P.modref v l' then
        updateDependence se (P.find l') allKinds true none deps else deps) (P.find l) k := by
    intro u v deps l' h
    split
    · exact recorded_update_mono _ _ _ _ _ _ _ _ h
    · exact h
  refine collect_pair deps hx hy ?_ ?_
  · intro deps
    unfold collectPair
    simp only [hnx, hlx, hny, hmx, hmy, Bool.or_self, Bool.false_eq_true, if_false]
    refine recorded_foldl_mem _ _ _ (mono x y) _ _ l (List.mem_append.2 (.inl hl)) ?_
    intro deps
    simp only [mr hax, mr hay, Bool.and_self, if_true]
    exact recorded_update_self _ _ _ _ _ _ _ rfl
  · intro deps
    unfold collectPair
    simp only [hnx, hly, hny, hmx, hmy, Bool.or_self, Bool.false_eq_true, if_false]
    refine recorded_foldl_mem _ _ _ (mono y x) _ _ l (List.mem_append.2 (.inr hl)) ?_
    intro deps
    simp only [mr hax, mr hay, Bool.and_self, if_true]
    exact recorded_update_self _ _ _ _ _ _ _ rfl

/-! ### Non-vacuity -/

/-- `A[i] = A[i - 1]`: `true` is the store, `false` is the load. -/
def exProg : Prog Bool Unit Unit Unit where
  nomem _ := false
  marker _ := false
  ls x := some ((), x)
  memLocs _ := [()]
  modref _ _ := true
  find _ := ()
  depends x y := (some ⟨false, 0, x, y, 1,
    fun _ => if x = y then .EQ else if x then .LT else .GT, fun _ => none⟩, 0)

/-- Bytes which are accessed by the store and by the load. -/
def exSem : Sem Bool Unit where
  reads x i a := x = false ∧ (a : Int) = i 1 - 1
  writes x i a := x = true ∧ (a : Int) = i 1
  covers _ _ := True

theorem exSound : Sound exProg exSem 1 where
  nomem := by simp [exProg]
  marker := by simp [exProg]
  load := by
    intro x l i a h h'
    simp only [exProg, Option.some.injEq, Prod.mk.injEq] at h
    simp only [exSem] at h'
    rw [h.2] at h'; exact absurd h'.1 (by decide)
  store := by
    intro x l i a h h'
    simp only [exProg, Option.some.injEq, Prod.mk.injEq] at h
    simp only [exSem] at h'
    rw [h.2] at h'; exact absurd h'.1 (by decide)
  loc := by intros; trivial
  locs := by intro x l w _; exact List.mem_singleton.2 rfl
  modref := by simp [exProg]
  independent := by simp [exProg]
  depends := by
    intro x y l l' w w' d c hx hy hd
    simp only [exProg, Option.some.injEq, Prod.mk.injEq] at hx hy hd
    obtain ⟨rfl, -⟩ := hd
    refine ⟨hx.2, hy.2, Nat.le_refl _, ?_⟩
    rintro - i j ⟨a, h1, h2⟩ - l h3 h4
    have : l = 1 := by simp only at h3 h4; omega
    subst this
    simp only [Sem.accesses, exSem] at h1 h2
    cases x <;> cases y <;> simp at h1 h2 ⊢
    · exact .inr (.inl ⟨by omega, rfl⟩)
    · exact .inr (.inr ⟨by omega, rfl⟩)
    · exact .inl ⟨by omega, rfl⟩
    · exact .inr (.inl ⟨by omega, rfl⟩)

theorem exRegular : Regular exProg 1 := by
  intro x y d c hd
  simp only [exProg, Option.some.injEq, Prod.mk.injEq] at hd
  obtain ⟨rfl, -⟩ := hd
  refine ⟨?_, by simp⟩
  cases x <;> cases y <;> decide

/-- The flow dependence is recorded, whatever order of instructions is. -/
example (se : SE Unit) (insts : List Bool) (h1 : true ∈ insts) (h2 : false ∈ insts) :
    Recorded (collect se exProg 1 insts (fun _ => none)) () .flow :=
  (collect_kind_partial se exProg exSem 1 exSound exRegular insts _ true false h1 h2 () () true false rfl rfl
    (fun _ => 4) (fun _ => 5) 4 (fun _ _ _ => by omega) (by decide) (by simp [Sem.does, exSem])
    (by simp [Sem.does, exSem]) .flow rfl).1

end Dep
end Tsar
