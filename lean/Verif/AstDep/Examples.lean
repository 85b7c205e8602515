import Verif.AstDep.Clauses

/-!
# Examples for C99 and C100, and cases in which the code is wrong
-/

set_option linter.unusedSectionVars false

namespace Tsar
namespace AstDep

open BitTrait Parallel

/-- Variables. -/
inductive Var where
  | i | t | s | a | b | x | p
  deriving DecidableEq, Repr

/-- Cells of memory. -/
inductive Cell where
  | i | t | s | x
  | a (j : Nat)
  | b (j : Nat)
  deriving DecidableEq, Repr

/-- Operations on integers, neutral values of `max` and `min` do not exist and these operations are not used. -/
def exOps : Ops Int where
  ap := fun k x y => match k with
    | .mult => x * y
    | .max => max x y
    | .min => min x y
    | _ => x + y
  unit := fun k => match k with
    | .mult => 1
    | _ => 0

/-- Names. -/
def exName : Var → String
  | .i => "i" | .t => "t" | .s => "s" | .a => "a" | .b => "b" | .x => "x" | .p => "p"

/-- A location which is a whole variable. -/
def exVar (w : Var) (loc : Bool) : Desc Var := .est (some ⟨some w, false, loc⟩) [] true false

/-- What is known about variables, `d` describes the location 6. -/
def exCtx (d : Desc Var) : Ctx Nat Nat Var where
  name := exName
  ty := fun w => match w with
    | .a | .b => .arr .other
    | .p => .ptr .other
    | _ => .other
  const := fun _ => false
  desc := fun m => match m with
    | 1 => exVar .i true
    | 2 => exVar .t true
    | 3 => exVar .s true
    | 4 => exVar .a false
    | 5 => exVar .b false
    | 6 => d
    | 7 => exVar .p true
    | _ => .unknown false false
  flowDist := fun _ => []
  antiDist := fun _ => []
  unreachable := fun n n' => decide (n ≠ n')
  behind := 1

/-- Traits. -/
def exDptr (deps : List DepTrait) : Dptr :=
  ⟨fun u => [.explicitAccess, .noRedundant, .directAccess].contains u, fun t => deps.contains t⟩

/-- A node with a single location. -/
def exEntry (n : Nat) (deps : List DepTrait) (k : Option RedKind) : Entry Nat Nat Unit :=
  ⟨n, exDptr deps, [⟨n, n, exDptr deps, none, none, none, k, none⟩]⟩

/-- The top level node. -/
def exTop : Entry Nat Nat Unit := ⟨0, ⟨fun _ => false, fun t => decide (t = .noAccess)⟩, []⟩

/-- A loop without other obstacles. -/
def exInfo (ds : List (Entry Nat Nat Unit)) : LoopInfo Nat Nat Unit := ⟨true, true, true, true, false, [], some ds⟩

/-! ## A loop which is parallelized correctly

`for (i = 0; i < n; ++i) { t = a[i]; s += t; b[i] = t; }` -/

/-- Traits of the loop. -/
def exDeps : List (Entry Nat Nat Unit) :=
  [exTop, exEntry 1 [.induction] none, exEntry 2 [.priv] none, exEntry 3 [.reduction] (some .add),
    exEntry 4 [.readonly] none, exEntry 5 [.shared] none]

/-- The alias tree. -/
def exTree : Tree Nat := .node 0 [.node 1 [], .node 2 [], .node 3 [], .node 4 [], .node 5 []]

/-- The source code. -/
def exSrc : Src Var := ⟨some .i, [], [.i, .t, .a, .s, .b], []⟩

/-- The loop. -/
def exLoop (n : Nat) : Loop Cell Int where
  n := n
  hdr := fun l => match l with
    | .i => some fun k => k
    | _ => none
  body := fun k =>
    .read true (.a k) fun v => .write true .t v (.read true .t fun u =>
      .update true .s .add u (.write true (.b k) u .done))

/-- Variables which own cells. -/
def exView : View Cell Var where
  owner := fun l => match l with
    | .i => some .i
    | .t => some .t
    | .s => some .s
    | .x => some .x
    | .a _ => some .a
    | .b _ => some .b
  vis := fun x => [Var.i, .t, .s, .a, .b, .x].find? fun w => decide (exName w = x)
  auto := fun w => decide (w ≠ .x)

/-- Cells of locations. -/
def exCell (m : Nat) (l : Cell) : Prop :=
  match m, l with
  | 1, .i | 2, .t | 3, .s | 4, .a _ | 5, .b _ | 6, .x => True
  | _, _ => False

/-- Values of the temporary variable and of the loop variable are not used after the loop. -/
def exObserved (l : Cell) : Prop := l ≠ .i ∧ l ≠ .t

/-- The state of the analysis. -/
def exState : St Nat Nat Unit Var := (evaluateDependency (exCtx (exVar .x true)) .no exTree exDeps exSrc).2

theorem ex_evaluate : evaluateDependency (exCtx (exVar .x true)) .no exTree exDeps exSrc = (true, exState) :=
  Prod.ext (by decide +kernel) rfl

theorem ex_coverage : coverage false exTree exDeps = [1, 2, 3, 4, 5] := by decide +kernel

theorem ex_acts (n i : Nat) (σ : Cell → Int) : (exLoop n).acts exOps σ i =
    [.rd true (.a i) ((exLoop n).start exOps σ i (.a i)), .wr true .t ((exLoop n).start exOps σ i (.a i)),
      .rd true .t ((exLoop n).start exOps σ i (.a i)), .up true .s .add ((exLoop n).start exOps σ i (.a i)),
      .wr true (.b i) ((exLoop n).start exOps σ i (.a i))] := rfl

theorem exWhole {d : Desc Var} {m : Nat} {w : Var} (h : Whole (exCtx d) m w) :
    (m = 1 ∧ w = .i) ∨ (m = 2 ∧ w = .t) ∨ (m = 3 ∧ w = .s) ∨ (m = 4 ∧ w = .a) ∨ (m = 5 ∧ w = .b) ∨
    (m = 6 ∧ ∃ v e s t, d = .est (some v) e s t ∧ v.ast = some w ∧
      (e = [] ∨ (s = false ∧ ∃ o z, e = [.fragment o z]))) ∨ (m = 7 ∧ w = .p) := by
  obtain ⟨v, e, s, t, h1, h2, h3⟩ := h
  simp only [exCtx] at h1
  split at h1 <;> try (simp only [exVar, Desc.est.injEq, Option.some.injEq] at h1; obtain ⟨rfl, -⟩ := h1; cases h2)
  · simp
  · simp
  · simp
  · simp
  · simp
  · right; right; right; right; right; left
    exact ⟨rfl, v, e, s, t, h1, h2, h3⟩
  · simp
  · cases h1

theorem exRight (n : Nat) (σ : Cell → Int) :
    Right exOps (exLoop n) σ (exCtx (exVar .x true)) exView exCell exObserved exTree exDeps where
  sees := by
    intro i _ l hh ⟨a, ha, hal⟩
    rw [ex_acts] at ha
    rw [ex_coverage]
    subst hal
    simp only [List.mem_cons, List.not_mem_nil, or_false] at ha
    rcases ha with rfl | rfl | rfl | rfl | rfl
    · exact ⟨exEntry 4 [.readonly] none, by simp [exDeps], by decide, _, List.mem_cons_self, trivial⟩
    · exact ⟨exEntry 2 [.priv] none, by simp [exDeps], by decide, _, List.mem_cons_self, trivial⟩
    · exact ⟨exEntry 2 [.priv] none, by simp [exDeps], by decide, _, List.mem_cons_self, trivial⟩
    · exact ⟨exEntry 3 [.reduction] (some .add), by simp [exDeps], by decide, _, List.mem_cons_self, trivial⟩
    · exact ⟨exEntry 5 [.shared] none, by simp [exDeps], by decide, _, List.mem_cons_self, trivial⟩
  legal := by
    intro E hE _
    have hL : ∀ t n k, Legal (exEntry n [t] k).dptr := fun t n k => by
      refine ⟨⟨t, by simp [exEntry, exDptr]⟩, ?_⟩
      have : ∃ u ∈ DepTrait.unions, t ∈ u := by cases t <;> decide
      obtain ⟨u, hu, ht⟩ := this
      refine ⟨u, hu, fun b hb => ?_⟩
      have : b = t := by simpa [exEntry, exDptr] using hb
      exact this ▸ ht
    simp only [exDeps, List.mem_cons, List.not_mem_nil, or_false] at hE
    rcases hE with rfl | rfl | rfl | rfl | rfl | rfl
    · exact ⟨⟨.noAccess, rfl⟩, [.noAccess], by decide, fun b hb => by simpa [exTop] using hb⟩
    all_goals exact hL _ _ _
  means := by
    intro E hE hcov e he l hl
    simp only [exDeps, List.mem_cons, List.not_mem_nil, or_false] at hE
    rcases hE with rfl | rfl | rfl | rfl | rfl | rfl
    · cases he
    all_goals
      simp only [exEntry, List.mem_cons, List.not_mem_nil, or_false] at he
      subst he
    · refine ⟨fun h => ?_, fun h => ?_, fun h => ?_, fun h => ?_, fun h => ?_, fun h => ?_⟩ <;>
        simp [exEntry, exDptr] at h
    · have : l = .t := by cases l <;> first | rfl | exact hl.elim
      subst this
      refine ⟨fun h => ?_, fun h => ?_, fun h => ?_, fun _ _ => ⟨?_, fun h => h.2 rfl⟩, fun h => ?_, fun h => ?_⟩
      · simp [exEntry, exDptr] at h
      · simp [exEntry, exDptr] at h
      · simp [exEntry, exDptr] at h
      · intro i _ p a q hpq hal
        rw [ex_acts] at hpq
        rcases p with _ | ⟨p0, _ | ⟨p1, p⟩⟩
        · simp only [List.nil_append, List.cons.injEq] at hpq
          rw [← hpq.1] at hal
          cases hal
        · simp only [List.cons_append, List.nil_append, List.cons.injEq] at hpq
          right
          rw [← hpq.2.1]
          rfl
        · simp only [List.cons_append, List.cons.injEq] at hpq
          left
          exact ⟨p1, by simp, by rw [← hpq.2.1]; rfl⟩
      · simp [exEntry, exDptr] at h
      · simp [exEntry, exDptr] at h
    · have : l = .s := by cases l <;> first | rfl | exact hl.elim
      subst this
      refine ⟨fun h => ?_, fun h => ?_, fun h => ?_, fun h => ?_, fun _ k hk => ?_, fun h => ?_⟩
      · simp [exEntry, exDptr] at h
      · simp [exEntry, exDptr] at h
      · simp [exEntry, exDptr] at h
      · simp [exEntry, exDptr] at h
      · cases hk
        intro i _ a ha hal
        rw [ex_acts] at ha
        simp only [List.mem_cons, List.not_mem_nil, or_false] at ha
        rcases ha with rfl | rfl | rfl | rfl | rfl <;> cases hal
        exact ⟨true, _, rfl⟩
      · simp [exEntry, exDptr] at h
    · have : ∃ j, l = .a j := by
        cases l <;> first | exact ⟨_, rfl⟩ | exact hl.elim
      obtain ⟨j, rfl⟩ := this
      refine ⟨fun h => ?_, fun _ => ?_, fun h => ?_, fun h => ?_, fun h => ?_, fun h => ?_⟩
      · simp [exEntry, exDptr] at h
      · rintro i _ ⟨a, ha, hal, hc⟩
        rw [ex_acts] at ha
        simp only [List.mem_cons, List.not_mem_nil, or_false] at ha
        rcases ha with rfl | rfl | rfl | rfl | rfl <;> first | cases hal | skip
        exact hc
      all_goals simp [exEntry, exDptr] at h
    · have : ∃ j, l = .b j := by
        cases l <;> first | exact ⟨_, rfl⟩ | exact hl.elim
      obtain ⟨j, rfl⟩ := this
      refine ⟨fun h => ?_, fun h => ?_, fun _ => ?_, fun h => ?_, fun h => ?_, fun h => ?_⟩
      · simp [exEntry, exDptr] at h
      · simp [exEntry, exDptr] at h
      · rintro i k _ _ hik ⟨a, ha, hal, -⟩ ⟨a', ha', hal'⟩
        rw [ex_acts] at ha ha'
        simp only [List.mem_cons, List.not_mem_nil, or_false] at ha ha'
        rcases ha with rfl | rfl | rfl | rfl | rfl <;> cases hal
        rcases ha' with rfl | rfl | rfl | rfl | rfl <;> cases hal'
        exact hik rfl
      all_goals simp [exEntry, exDptr] at h
  attached := by
    intro E hE e he
    simp only [exDeps, List.mem_cons, List.not_mem_nil, or_false] at hE
    rcases hE with rfl | rfl | rfl | rfl | rfl | rfl
    · cases he
    all_goals
      simp only [exEntry, List.mem_cons, List.not_mem_nil, or_false] at he
      subst he
      exact ⟨fun h => (by cases h), fun h => (by cases h)⟩
  whole := by
    intro m w h l
    rcases exWhole h with ⟨rfl, rfl⟩ | ⟨rfl, rfl⟩ | ⟨rfl, rfl⟩ | ⟨rfl, rfl⟩ | ⟨rfl, rfl⟩ |
      ⟨rfl, v, e, s, t, h1, h2, -⟩ | ⟨rfl, rfl⟩
    · cases l <;> simp [exCell, exView]
    · cases l <;> simp [exCell, exView]
    · cases l <;> simp [exCell, exView]
    · cases l <;> simp [exCell, exView]
    · cases l <;> simp [exCell, exView]
    · cases h1
      cases h2
      cases l <;> simp [exCell, exView]
    · cases l <;> simp [exCell, exView]
  outside := by
    intro E hE hc e he w hw l ho i _ a ha _ hd
    rw [ex_acts] at ha
    simp only [List.mem_cons, List.not_mem_nil, or_false] at ha
    rcases ha with rfl | rfl | rfl | rfl | rfl <;> cases hd

theorem exSource (n : Nat) (σ : Cell → Int) :
    Source exOps (exLoop n) σ (exCtx (exVar .x true)) exView exObserved exSrc where
  header := by intro l; cases l <;> simp [exLoop, exView, exSrc]
  loopVar := by
    intro l hl
    have : l = .i := by cases l <;> first | rfl | exact (hl rfl).elim
    subst this
    constructor
    · rintro i _ ⟨a, ha, hal, -⟩
      rw [ex_acts] at ha
      simp only [List.mem_cons, List.not_mem_nil, or_false] at ha
      rcases ha with rfl | rfl | rfl | rfl | rfl <;> cases hal
    · intro i _ a ha hal
      rw [ex_acts] at ha
      simp only [List.mem_cons, List.not_mem_nil, or_false] at ha
      rcases ha with rfl | rfl | rfl | rfl | rfl <;> cases hal
  declared := by intro l w _ hw; simp [exSrc] at hw
  visible := by
    have : ∀ w ∈ exSrc.refs, exView.vis (exName w) = some w := by decide +kernel
    exact fun w hw _ => this w hw

theorem exPlain (n : Nat) : Plain (exLoop n) (exCtx (exVar .x true)) exView exObserved exSrc exTree exDeps where
  unused := by
    intro l hl
    have : l = .i := by cases l <;> first | rfl | exact (hl rfl).elim
    subst this
    exact fun h => h.1 rfl
  auto := by intro w hw; simp [exSrc] at hw
  last := by
    intro E hE _ _
    simp only [exDeps, List.mem_cons, List.not_mem_nil, or_false] at hE
    rcases hE with rfl | rfl | rfl | rfl | rfl | rfl <;> decide
  known := by
    intro E hE _ _ e he hh
    have : ∃ w b, (exCtx (exVar .x true)).desc e.mem = exVar w b := by
      simp only [exDeps, List.mem_cons, List.not_mem_nil, or_false] at hE
      rcases hE with rfl | rfl | rfl | rfl | rfl | rfl
      · cases he
      all_goals
        simp only [exEntry, List.mem_cons, List.not_mem_nil, or_false] at he
        subst he
        exact ⟨_, _, rfl⟩
    obtain ⟨w, b, h⟩ := this
    rcases hh with ⟨x, hx⟩ | ⟨x, y, z, hx⟩ | ⟨v, x, y, z, hx, hv, -⟩
    · rw [h] at hx; cases hx
    · rw [h] at hx; cases hx
    · rw [h] at hx; cases hx; cases hv
  inner := by intro E _ _ _ e _ w _ hw; simp [exSrc] at hw

/-- Clauses of the example: `private(t) reduction(+:s)`. -/
example : (exploit (exCtx (exVar .x true)) exState).map (fun cl => (cl.priv, cl.first, cl.last, redKinds.map cl.red)) =
    some (["t"], [], [], [["s"], [], [], [], [], [], []]) := by decide +kernel

theorem ex_verdict : verdict false exTree (exInfo exDeps) = .parallel false := by decide +kernel

/-- The sum is the same in any parallel execution for any number of iterations. -/
example (n : Nat) (σ τ : Cell → Int) (cl : Clauses) (hx : exploit (exCtx (exVar .x true)) exState = some cl)
    (h : RunsParallel exOps (exLoop n) (treat (exCtx (exVar .x true)) exSrc exView (exLoop n) cl) σ τ) :
    τ .s = (exLoop n).seq exOps σ n .s ∧ ∀ j, τ (.b j) = (exLoop n).seq exOps σ n (.b j) := by
  have hC : ∀ k, cl.red k ≠ [] → Combines exOps k := by
    intro k hk
    obtain ⟨-, -, -, -, -, x4⟩ := exploit_some hx
    have : ∀ k ∈ redKinds, exState.lists (.red k) = [] ∨ k = .add := by decide +kernel
    have hno : exState.lists (.red .noReduction) = [] := by decide +kernel
    have hk' : k = .add := by
      by_cases hn : k = .noReduction
      · subst hn
        rw [x4, hno] at hk
        exact (hk rfl).elim
      · rcases this k (mem_redKinds hn) with h | h
        · rw [x4, h] at hk
          exact (hk rfl).elim
        · exact h
    subst hk'
    exact ⟨fun x y z => Int.add_assoc x y z, fun x y => Int.add_comm x y, fun x => Int.add_zero x⟩
  exact ⟨parallel_loop_partial ex_verdict rfl ex_evaluate hx (exRight n σ) (exSource n σ) (exPlain n) hC h
      ⟨fun e => (by cases e), fun e => (by cases e)⟩,
    fun j => parallel_loop_partial ex_verdict rfl ex_evaluate hx (exRight n σ) (exSource n σ) (exPlain n) hC h
      ⟨fun e => (by cases e), fun e => (by cases e)⟩⟩

/-- C99 for the example: the reduction variable is referenced and it is in the list for a reason. -/
example : (Var.s, 3) ∈ exState.lists (.red .add) ∧ (Var.t, 2) ∈ exState.lists .priv ∧
    Var.b ∈ exSrc.refs ∧ Var.b ∉ exSrc.init ++ exSrc.decls := by
  refine ⟨by decide +kernel, by decide +kernel, by decide, by decide⟩

/-! ## Wrong cases

`for (i = 0; i < 2; ++i) { x = i; b[i] = x; }` -/

/-- The loop. -/
def badLoop : Loop Cell Int where
  n := 2
  hdr := fun l => match l with
    | .i => some fun k => k
    | _ => none
  body := fun k => .write true .x k (.read true .x fun u => .write true (.b k) u .done)

/-- Traits of the loop, `deps` are traits of the location 6 which contains `x`. -/
def badDeps (deps : List DepTrait) : List (Entry Nat Nat Unit) :=
  [exTop, exEntry 1 [.induction] none, exEntry 5 [.shared] none, exEntry 6 deps none]

/-- The alias tree. -/
def badTree : Tree Nat := .node 0 [.node 1 [], .node 5 [], .node 6 []]

theorem bad_acts (i : Nat) (σ : Cell → Int) : badLoop.acts exOps σ i =
    [.wr true .x i, .rd true .x i, .wr true (.b i) i] := rfl

theorem bad_coverage (deps : List DepTrait) : coverage false badTree (badDeps deps) = [1, 5, 6] := by
  unfold coverage
  have : dptrOf (badDeps deps) 0 = some exTop.dptr := rfl
  simp [badTree, accessCover, accessCoverL, dptrOf, find, badDeps, exTop, exEntry, exDptr, Tree.root]

theorem bad_writeFirst (σ : Cell → Int) : WriteFirst exOps badLoop σ .x := by
  intro i _ p a q hpq hal
  rw [bad_acts] at hpq
  rcases p with _ | ⟨p0, p⟩
  · simp only [List.nil_append, List.cons.injEq] at hpq
    right
    rw [← hpq.1]
    rfl
  · simp only [List.cons_append, List.cons.injEq] at hpq
    left
    exact ⟨p0, by simp, by rw [← hpq.1]; rfl⟩

theorem bad_last (σ : Cell → Int) : LastAssigns exOps badLoop σ .x := by
  intro i _
  rw [bad_acts]
  exact ⟨_, List.mem_cons_self, rfl⟩

/-- Results of the analysis are right for the wrong cases if it is so for the location 6. -/
theorem badRight (σ : Cell → Int) (d : Desc Var) (v : View Cell Var) (observed : Cell → Prop) (deps : List DepTrait)
    (hl : Legal (exDptr deps)) (hm : Means exOps badLoop σ (observed .x) (exDptr deps)
      (⟨6, 6, exDptr deps, none, none, none, none, none⟩ : Elem Nat Nat Unit) .x)
    (hw : ∀ m w, Whole (exCtx d) m w → ∀ l, exCell m l ↔ v.owner l = some w) :
    Right exOps badLoop σ (exCtx d) v exCell observed badTree (badDeps deps) where
  sees := by
    intro i _ l hh ⟨a, ha, hal⟩
    rw [bad_acts] at ha
    rw [bad_coverage]
    subst hal
    simp only [List.mem_cons, List.not_mem_nil, or_false] at ha
    rcases ha with rfl | rfl | rfl
    · exact ⟨exEntry 6 deps none, by simp [badDeps], by simp [exEntry], _, List.mem_cons_self, trivial⟩
    · exact ⟨exEntry 6 deps none, by simp [badDeps], by simp [exEntry], _, List.mem_cons_self, trivial⟩
    · exact ⟨exEntry 5 [.shared] none, by simp [badDeps], by simp [exEntry], _, List.mem_cons_self, trivial⟩
  legal := by
    intro E hE _
    simp only [badDeps, List.mem_cons, List.not_mem_nil, or_false] at hE
    rcases hE with rfl | rfl | rfl | rfl
    · exact ⟨⟨.noAccess, rfl⟩, [.noAccess], by decide, fun b hb => by simpa [exTop] using hb⟩
    · exact ⟨⟨.induction, rfl⟩, [.induction], by decide, fun b hb => by simpa [exEntry, exDptr] using hb⟩
    · exact ⟨⟨.shared, rfl⟩, [.priv, .shared], by decide, fun b hb => by
        have : b = .shared := by simpa [exEntry, exDptr] using hb
        simp [this]⟩
    · exact hl
  means := by
    intro E hE hcov e he l hcell
    simp only [badDeps, List.mem_cons, List.not_mem_nil, or_false] at hE
    rcases hE with rfl | rfl | rfl | rfl
    · cases he
    all_goals
      simp only [exEntry, List.mem_cons, List.not_mem_nil, or_false] at he
      subst he
    · refine ⟨fun h => ?_, fun h => ?_, fun h => ?_, fun h => ?_, fun h => ?_, fun h => ?_⟩ <;>
        simp [exEntry, exDptr] at h
    · have : ∃ j, l = .b j := by
        cases l <;> first | exact ⟨_, rfl⟩ | exact hcell.elim
      obtain ⟨j, rfl⟩ := this
      refine ⟨fun h => ?_, fun h => ?_, fun _ => ?_, fun h => ?_, fun h => ?_, fun h => ?_⟩
      · simp [exEntry, exDptr] at h
      · simp [exEntry, exDptr] at h
      · rintro i k _ _ hik ⟨a, ha, hal, -⟩ ⟨a', ha', hal'⟩
        rw [bad_acts] at ha ha'
        simp only [List.mem_cons, List.not_mem_nil, or_false] at ha ha'
        rcases ha with rfl | rfl | rfl <;> cases hal
        rcases ha' with rfl | rfl | rfl <;> cases hal'
        exact hik rfl
      all_goals simp [exEntry, exDptr] at h
    · have : l = .x := by cases l <;> first | rfl | exact hcell.elim
      subst this
      exact hm
  attached := by
    intro E hE e he
    simp only [badDeps, List.mem_cons, List.not_mem_nil, or_false] at hE
    rcases hE with rfl | rfl | rfl | rfl
    · cases he
    all_goals
      simp only [exEntry, List.mem_cons, List.not_mem_nil, or_false] at he
      subst he
      exact ⟨fun h => (by cases h), fun h => (by cases h)⟩
  whole := hw
  outside := by
    intro E hE hc e he w hw l ho i _ a ha _ hd
    rw [bad_acts] at ha
    simp only [List.mem_cons, List.not_mem_nil, or_false] at ha
    rcases ha with rfl | rfl | rfl <;> cases hd

/-- If `x` is shared then an iteration may use a value which is assigned by another iteration. -/
theorem race (cls : Cell → Cls) (hi : cls .i = .loopVar) (hs : ∀ l, l ≠ .i → cls l = .shared) (σ : Cell → Int) :
    ∃ τ, RunsParallel exOps badLoop cls σ τ ∧ τ (.b 0) = 1 ∧ badLoop.seq exOps σ 2 (.b 0) = 0 := by
  have hx : cls .x = .shared := hs .x (by decide)
  have hb : ∀ j, cls (.b j) = .shared := fun j => hs (.b j) (by simp)
  have hlook : ∀ (σ' mine : Cell → Int), look cls σ' mine true .x = σ' .x := fun σ' mine => by
    simp [look, hx]
  -- a thread before its iteration and at each point of it
  let m : Nat → Cell → Int := fun k => upd σ .i k
  let t0 : Nat → Thread Cell Int := fun k => ⟨[], none, [k], σ⟩
  let t1 : Nat → Thread Cell Int := fun k => ⟨[], some (k, badLoop.body k), [], m k⟩
  let t2 : Nat → Thread Cell Int := fun k => ⟨[], some (k, .read true .x fun u => .write true (.b k) u .done), [], m k⟩
  let t3 : Nat → Int → Thread Cell Int := fun k v => ⟨[], some (k, .write true (.b k) v .done), [], m k⟩
  let t4 : Nat → Thread Cell Int := fun k => ⟨[], some (k, .done), [], m k⟩
  let t5 : Nat → Thread Cell Int := fun k => ⟨[k], none, [], m k⟩
  have begin' : ∀ k σ' la log, Step1 exOps badLoop cls σ' la log (t0 k) σ' la log (t1 k) := fun k σ' la log => by
    refine Step1.begin (fun l f hf => ?_) (fun l hl _ => ?_)
    · cases l <;> first | (cases hf; rfl) | cases hf
    · cases l <;> first | rfl | cases hl
  have write' : ∀ k σ' la log, Step1 exOps badLoop cls σ' la log (t1 k) (upd σ' .x k) la
      (logAt log k (.wr true .x k)) (t2 k) := fun k σ' la log => Step1.writeShared (Or.inl hx)
  have read' : ∀ k σ' la log, Step1 exOps badLoop cls σ' la log (t2 k) σ' la
      (logAt log k (.rd true .x (look cls σ' (m k) true .x))) (t3 k (look cls σ' (m k) true .x)) :=
    fun k σ' la log => Step1.read
  have store' : ∀ k v σ' la log, Step1 exOps badLoop cls σ' la log (t3 k v) (upd σ' (.b k) v) la
      (logAt log k (.wr true (.b k) v)) (t4 k) := fun k v σ' la log => Step1.writeShared (Or.inl (hb k))
  have finish' : ∀ k σ' la log, Step1 exOps badLoop cls σ' la log (t4 k) σ'
      (if k + 1 = badLoop.n then m k else la) log (t5 k) := fun k σ' la log => Step1.finish
  have left : ∀ {σ₁ la₁ log₁ t σ₂ la₂ log₂ t'} (u : Thread Cell Int),
      Step1 exOps badLoop cls σ₁ la₁ log₁ t σ₂ la₂ log₂ t' →
      Step exOps badLoop cls ⟨σ₁, la₁, log₁, [t, u]⟩ ⟨σ₂, la₂, log₂, [t', u]⟩ := fun u h =>
    Step.mk (a := []) (b := [u]) h
  have right : ∀ {σ₁ la₁ log₁ t σ₂ la₂ log₂ t'} (u : Thread Cell Int),
      Step1 exOps badLoop cls σ₁ la₁ log₁ t σ₂ la₂ log₂ t' →
      Step exOps badLoop cls ⟨σ₁, la₁, log₁, [u, t]⟩ ⟨σ₂, la₂, log₂, [u, t']⟩ := fun u h =>
    Step.mk (a := [u]) (b := []) h
  let w1 : Cell → Int := upd (upd σ .x (0 : Nat)) .x (1 : Nat)
  have hl0 : look cls w1 (m 0) true .x = 1 := by rw [hlook]; rfl
  have hl1 : look cls (upd w1 (.b 0) 1) (m 1) true .x = 1 := by rw [hlook]; rfl
  have r0 := read' 0 w1 σ
  have r1 := read' 1 (upd w1 (.b 0) 1) σ
  rw [hl0] at r0
  rw [hl1] at r1
  refine ⟨upd (upd w1 (.b 0) 1) (.b 1) 1, ⟨⟨σ, σ, fun _ => [], [t0 0, t0 1]⟩, _, ?_,
    ((((((((((Steps.refl.tail (left _ (begin' 0 _ _ _))).tail (left _ (write' 0 _ _ _))).tail
      (right _ (begin' 1 _ _ _))).tail (right _ (write' 1 _ _ _))).tail (left _ (r0 _))).tail
      (left _ (store' 0 1 _ _ _))).tail (right _ (r1 _))).tail (right _ (store' 1 1 _ _ _))).tail
      (left _ (finish' 0 _ _ _))).tail (right _ (finish' 1 _ _ _))), ?_, ?_⟩, rfl, rfl⟩
  · refine ⟨rfl, fun _ => rfl, fun t ht => ?_, ?_⟩
    · simp only [List.mem_cons, List.not_mem_nil, or_false] at ht
      have hf : ∀ k, Fresh exOps cls σ (t0 k) := fun k => by
        refine ⟨rfl, rfl, fun l la h => ?_, fun l k h => ?_⟩
        · by_cases e : l = .i
          · simp [e, hi] at h
          · simp [hs l e] at h
        · by_cases e : l = .i
          · simp [e, hi] at h
          · simp [hs l e] at h
      rcases ht with rfl | rfl <;> exact hf _
    · exact List.Perm.refl _
  · intro t ht
    simp only [List.mem_cons, List.not_mem_nil, or_false] at ht
    rcases ht with rfl | rfl <;> exact ⟨rfl, rfl⟩
  · intro l
    by_cases e : l = .i
    · rw [e, hi]; trivial
    · rw [hs l e]

/-- The source code of the wrong cases: `decls` are declared in the body. -/
def badSrc (refs decls : List Var) : Src Var := ⟨some .i, [], .i :: .b :: refs, decls⟩

theorem badSource (σ : Cell → Int) (d : Desc Var) (observed : Cell → Prop) (refs decls : List Var)
    (owner : Option Var) (auto : Var → Bool)
    (hr : ∀ w ∈ refs, exView.vis (exName w) = some w ∨ w ∈ decls) (ho : owner ≠ some .i)
    (hd : ∀ w ∈ decls, owner = some w → auto w = false) (hn : Var.i ∉ decls ∧ Var.b ∉ decls ∧ Var.t ∉ decls ∧
      Var.s ∉ decls ∧ Var.a ∉ decls) :
    Source exOps badLoop σ (exCtx d)
      ⟨fun l => if l = .x then owner else exView.owner l, exView.vis, auto⟩ observed (badSrc refs decls) where
  header := by
    intro l
    cases l <;> simp [badLoop, badSrc, exView]
    intro h
    exact ho h
  loopVar := by
    intro l hl
    have : l = .i := by cases l <;> first | rfl | exact (hl rfl).elim
    subst this
    constructor
    · rintro i _ ⟨a, ha, hal, -⟩
      rw [bad_acts] at ha
      simp only [List.mem_cons, List.not_mem_nil, or_false] at ha
      rcases ha with rfl | rfl | rfl <;> cases hal
    · intro i _ a ha hal
      rw [bad_acts] at ha
      simp only [List.mem_cons, List.not_mem_nil, or_false] at ha
      rcases ha with rfl | rfl | rfl <;> cases hal
  declared := by
    intro l w hw hdecl hauto _
    have hdecl : w ∈ decls := by simpa [badSrc] using hdecl
    cases l with
    | x =>
      have := hd w hdecl (by simpa using hw)
      simp only at hauto
      rw [this] at hauto
      cases hauto
    | i => simp [exView] at hw; subst hw; exact (hn.1 hdecl).elim
    | t => simp [exView] at hw; subst hw; exact (hn.2.2.1 hdecl).elim
    | s => simp [exView] at hw; subst hw; exact (hn.2.2.2.1 hdecl).elim
    | a j => simp [exView] at hw; subst hw; exact (hn.2.2.2.2 hdecl).elim
    | b j => simp [exView] at hw; subst hw; exact (hn.2.1 hdecl).elim
  visible := by
    intro w hw hnd
    have hnd : w ∉ decls := by simpa [badSrc] using hnd
    simp only [badSrc, List.mem_cons] at hw
    rcases hw with rfl | rfl | hw
    · show exView.vis (exName .i) = _; decide +kernel
    · show exView.vis (exName .b) = _; decide +kernel
    · exact (hr w hw).resolve_right hnd

/-- The analysis succeeds, and a directive which is inserted makes the loop wrong: a value which is used after the
loop may be different. -/
def WrongDirective (d : Desc Var) (v : View Cell Var) (observed : Cell → Prop) (deps : List DepTrait)
    (r : Src Var) : Prop :=
  verdict false badTree (exInfo (badDeps deps)) = .parallel false ∧
  ∃ s cl, evaluateDependency (exCtx d) .no badTree (badDeps deps) r = (true, s) ∧ exploit (exCtx d) s = some cl ∧
    ∀ σ, Right exOps badLoop σ (exCtx d) v exCell observed badTree (badDeps deps) ∧
      Source exOps badLoop σ (exCtx d) v observed r ∧
      ∃ τ, RunsParallel exOps badLoop (treat (exCtx d) r v badLoop cl) σ τ ∧
        ∃ l, observed l ∧ τ l ≠ badLoop.seq exOps σ 2 l

/-- If there are no clauses then `x` is shared. -/
theorem wrong_directive {d : Desc Var} {v : View Cell Var} {observed : Cell → Prop} {deps : List DepTrait}
    {r : Src Var} (hv : verdict false badTree (exInfo (badDeps deps)) = .parallel false)
    (he : (evaluateDependency (exCtx d) .no badTree (badDeps deps) r).1 = true)
    (hx : (exploit (exCtx d) (evaluateDependency (exCtx d) .no badTree (badDeps deps) r).2).map
      (fun cl => (cl.priv, cl.first, cl.last, redKinds.map cl.red)) = some ([], [], [], [[], [], [], [], [], [], []]))
    (hR : ∀ σ, Right exOps badLoop σ (exCtx d) v exCell observed badTree (badDeps deps))
    (hS : ∀ σ, Source exOps badLoop σ (exCtx d) v observed r)
    (hd : ∀ l w, l ≠ .i → v.owner l = some w → w ∈ r.init ++ r.decls → v.auto w = false)
    (ho : observed (.b 0)) : WrongDirective d v observed deps r := by
  obtain ⟨cl, hcl, hc⟩ := Option.map_eq_some_iff.1 hx
  simp only [Prod.mk.injEq] at hc
  obtain ⟨h1, h2, h3, h4⟩ := hc
  have h4 : ∀ k ∈ redKinds, cl.red k = [] := by
    simp only [redKinds, List.map_cons, List.map_nil, List.cons.injEq, and_true] at h4
    intro k hk
    simp only [redKinds, List.mem_cons, List.not_mem_nil, or_false] at hk
    rcases hk with rfl | rfl | rfl | rfl | rfl | rfl | rfl
    · exact h4.1
    · exact h4.2.1
    · exact h4.2.2.1
    · exact h4.2.2.2.1
    · exact h4.2.2.2.2.1
    · exact h4.2.2.2.2.2.1
    · exact h4.2.2.2.2.2.2
  have hsh : ∀ x, cl.treat x = .shared := by
    intro x
    unfold Clauses.treat
    rw [h1, h2, h3, if_neg (by simp)]
    have : redKinds.find? (fun k => (cl.red k).contains x) = none := by
      rw [List.find?_eq_none]
      intro k hk
      rw [h4 k hk]
      simp
    rw [this]
    rfl
  refine ⟨hv, _, cl, Prod.ext he rfl, hcl, fun σ => ⟨hR σ, hS σ, ?_⟩⟩
  obtain ⟨τ, h1, h2, h3⟩ := race (treat (exCtx d) r v badLoop cl) rfl (fun l hl => by
    have hn : badLoop.hdr l = none := by cases l <;> first | rfl | exact (hl rfl).elim
    unfold treat
    rw [hn, if_neg (by simp)]
    split
    · rfl
    · rename_i w hw
      split
      · rename_i hdec
        rw [hd l w hl hw (by simpa using hdec)]
        rfl
      · split
        · rfl
        · exact hsh _) σ
  exact ⟨τ, h1, .b 0, ho, by rw [h2, h3]; decide⟩

/-- C100 fails for a location which is assigned by the last incomplete iteration only: it is neither listed in a
clause nor reported (ASTDependenceAnalysis.cpp:254-275 do not test `LastPrivate`), so it remains shared although each
iteration assigns it. The location `*p` is accessed in the loop without a use of a name of `p`, for example in a
called function. -/
theorem last_private_fails : WrongDirective (.est (some ⟨some .p, false, true⟩) [.deref] false false)
    ⟨fun l => if l = .x then none else exView.owner l, exView.vis, fun _ => true⟩ (fun l => l ≠ .i)
    [.lastPrivate] (badSrc [] []) ∧ ∀ σ, WriteFirst exOps badLoop σ .x ∧ LastAssigns exOps badLoop σ .x := by
  refine ⟨wrong_directive (by decide +kernel) (by decide +kernel) (by decide +kernel)
    (fun σ => badRight σ _ _ _ _ ?_ ?_ ?_) (fun σ => badSource σ _ _ _ _ _ _ ?_ ?_ ?_ ?_) ?_ ?_,
    fun σ => ⟨bad_writeFirst σ, bad_last σ⟩⟩
  · exact ⟨⟨.lastPrivate, rfl⟩, [.lastPrivate, .firstPrivate, .shared], by decide, fun b hb => by
      have : b = .lastPrivate := by simpa [exDptr] using hb
      simp [this]⟩
  · refine ⟨fun h => ?_, fun h => ?_, fun h => ?_, fun h => ?_, fun h => ?_, fun h => ?_⟩ <;> simp [exDptr] at h
  · intro m w h l
    rcases exWhole h with ⟨rfl, rfl⟩ | ⟨rfl, rfl⟩ | ⟨rfl, rfl⟩ | ⟨rfl, rfl⟩ | ⟨rfl, rfl⟩ |
      ⟨rfl, v, e, s, t, h1, h2, h3⟩ | ⟨rfl, rfl⟩
    case inr.inr.inr.inr.inr.inl =>
      cases h1
      rcases h3 with h3 | ⟨-, o, z, h3⟩ <;> cases h3
    all_goals cases l <;> simp [exCell, exView]
  · intro w hw; cases hw
  · simp
  · intro w hw; cases hw
  · simp
  · intro l w _ _ h; cases h
  · intro e; cases e

/-- C100 fails for a location which is accessed with the help of a variable from the body of the loop: `*p` is treated
as a local variable (VariableCollector.cpp:237-241), so nothing is inserted for it, but it is memory outside of the
loop. -/
theorem inner_variable_fails : WrongDirective (.est (some ⟨some .p, false, true⟩) [.deref] false false)
    ⟨fun l => if l = .x then none else exView.owner l, exView.vis, fun _ => true⟩ (fun l => l ≠ .i ∧ l ≠ .x)
    [.priv] (badSrc [.p] [.p]) := by
  refine wrong_directive (by decide +kernel) (by decide +kernel) (by decide +kernel)
    (fun σ => badRight σ _ _ _ _ ?_ ?_ ?_) (fun σ => badSource σ _ _ _ _ _ _ ?_ ?_ ?_ ?_) ?_ ?_
  · exact ⟨⟨.priv, rfl⟩, [.priv, .shared], by decide, fun b hb => by
      have : b = .priv := by simpa [exDptr] using hb
      simp [this]⟩
  · refine ⟨fun h => ?_, fun h => ?_, fun h => ?_, fun _ _ => ⟨bad_writeFirst σ, fun h => h.2 rfl⟩, fun h => ?_,
      fun h => ?_⟩ <;> simp [exDptr] at h
  · intro m w h l
    rcases exWhole h with ⟨rfl, rfl⟩ | ⟨rfl, rfl⟩ | ⟨rfl, rfl⟩ | ⟨rfl, rfl⟩ | ⟨rfl, rfl⟩ |
      ⟨rfl, v, e, s, t, h1, h2, h3⟩ | ⟨rfl, rfl⟩
    case inr.inr.inr.inr.inr.inl =>
      cases h1
      rcases h3 with h3 | ⟨-, o, z, h3⟩ <;> cases h3
    all_goals cases l <;> simp [exCell, exView]
  · intro w hw; exact Or.inr hw
  · simp
  · intro w _ h; cases h
  · decide
  · intro l w _ h hw
    have hw : w = .p := by simpa [badSrc] using hw
    subst hw
    cases l <;> simp [exView] at h
  · exact ⟨fun e => (by cases e), fun e => (by cases e)⟩

/-- C100 fails for a static variable which is declared in the loop: it is treated as a local variable
(VariableCollector.cpp:68-74), nothing is inserted for it, and all threads share it. -/
theorem static_variable_fails : WrongDirective (exVar .x false)
    ⟨fun l => if l = .x then some .x else exView.owner l, exView.vis, fun w => decide (w ≠ .x)⟩ (fun l => l ≠ .i)
    [.secondToLastPrivate] (badSrc [.x] [.x]) := by
  refine wrong_directive (by decide +kernel) (by decide +kernel) (by decide +kernel)
    (fun σ => badRight σ _ _ _ _ ?_ ?_ ?_) (fun σ => badSource σ _ _ _ _ _ _ ?_ ?_ ?_ ?_) ?_ ?_
  · exact ⟨⟨.secondToLastPrivate, rfl⟩, [.secondToLastPrivate, .firstPrivate, .shared], by decide, fun b hb => by
      have : b = .secondToLastPrivate := by simpa [exDptr] using hb
      simp [this]⟩
  · refine ⟨fun h => ?_, fun h => ?_, fun h => ?_, fun h => ?_, fun h => ?_, fun _ _ =>
      Or.inr ⟨bad_writeFirst σ, fun _ => bad_last σ, fun h => ?_⟩⟩ <;> simp [exDptr] at h
  · intro m w h l
    rcases exWhole h with ⟨rfl, rfl⟩ | ⟨rfl, rfl⟩ | ⟨rfl, rfl⟩ | ⟨rfl, rfl⟩ | ⟨rfl, rfl⟩ |
      ⟨rfl, v, e, s, t, h1, h2, -⟩ | ⟨rfl, rfl⟩
    case inr.inr.inr.inr.inr.inl =>
      cases h1
      cases h2
      cases l <;> simp [exCell, exView]
    all_goals cases l <;> simp [exCell, exView]
  · intro w hw; exact Or.inr hw
  · simp
  · intro w hw _
    rw [List.mem_singleton.1 hw]
    rfl
  · decide
  · intro l w _ h hw
    have hw : w = .x := by simpa [badSrc] using hw
    subst hw
    rfl
  · intro e; cases e

/-- C100 fails for a location without a known variable: it is accepted as a private one without a clause
(VariableCollector.cpp:254-256). -/
theorem hidden_variable_fails : WrongDirective (.unknown true false)
    ⟨fun l => if l = .x then none else exView.owner l, exView.vis, fun _ => true⟩ (fun l => l ≠ .i ∧ l ≠ .x)
    [.priv] (badSrc [] []) := by
  refine wrong_directive (by decide +kernel) (by decide +kernel) (by decide +kernel)
    (fun σ => badRight σ _ _ _ _ ?_ ?_ ?_) (fun σ => badSource σ _ _ _ _ _ _ ?_ ?_ ?_ ?_) ?_ ?_
  · exact ⟨⟨.priv, rfl⟩, [.priv, .shared], by decide, fun b hb => by
      have : b = .priv := by simpa [exDptr] using hb
      simp [this]⟩
  · refine ⟨fun h => ?_, fun h => ?_, fun h => ?_, fun _ _ => ⟨bad_writeFirst σ, fun h => h.2 rfl⟩, fun h => ?_,
      fun h => ?_⟩ <;> simp [exDptr] at h
  · intro m w h l
    rcases exWhole h with ⟨rfl, rfl⟩ | ⟨rfl, rfl⟩ | ⟨rfl, rfl⟩ | ⟨rfl, rfl⟩ | ⟨rfl, rfl⟩ |
      ⟨rfl, v, e, s, t, h1, h2, h3⟩ | ⟨rfl, rfl⟩
    case inr.inr.inr.inr.inr.inl => cases h1
    all_goals cases l <;> simp [exCell, exView]
  · intro w hw; cases hw
  · simp
  · intro w hw; cases hw
  · simp
  · intro l w _ _ h; cases h
  · exact ⟨fun e => (by cases e), fun e => (by cases e)⟩

/-- C100 fails for the loop variable if its value is used after the loop: the value is not specified after a parallel
loop (see TODO at OpenMPAutoPar.cpp:564). -/
theorem loop_variable_fails (n : Nat) (σ τ : Cell → Int) (cl : Clauses)
    (h : RunsParallel exOps (exLoop n) (treat (exCtx (exVar .x true)) exSrc exView (exLoop n) cl) σ τ) :
    ∃ τ', RunsParallel exOps (exLoop n) (treat (exCtx (exVar .x true)) exSrc exView (exLoop n) cl) σ τ' ∧
      τ' .i ≠ (exLoop n).seq exOps σ n .i := by
  obtain ⟨T, U, h1, h2, h3, h4⟩ := h
  refine ⟨upd τ .i ((exLoop n).seq exOps σ n .i + 1), ⟨T, U, h1, h2, h3, fun l => ?_⟩, ?_⟩
  · by_cases e : l = .i
    · subst e
      have : treat (exCtx (exVar .x true)) exSrc exView (exLoop n) cl .i = .loopVar := rfl
      rw [this]
      trivial
    · have := h4 l
      have hu : upd τ .i ((exLoop n).seq exOps σ n .i + 1) l = τ l := if_neg e
      rw [hu]
      exact this
  · simp [upd]

/-! ## Options and regular dependences -/

/-- Options which ignore more redundant memory are not weaker: a location which is accepted for `bounded` is rejected
for `part` and for `weak` (ASTDependenceAnalysis.cpp:299-307). -/
theorem ignore_redundant_fails : ∃ d : Derived Nat, Derived.good .bounded d = true ∧ Derived.good .part d = false ∧
    Derived.good .weak d = false := ⟨⟨[0], .bounded⟩, by decide, by decide, by decide⟩

/-- A dependence with an unknown distance is neither recorded nor reported (ASTDependenceAnalysis.cpp:217-253): the
state is not changed. -/
theorem unknown_distance_fails (c : Ctx Nat Nat Var) (E : Entry Nat Nat Unit) (front e : Elem Nat Nat Unit)
    (s : St Nat Nat Unit Var) (h : e.flow = some false ∨ e.anti = some false) :
    dependenceStep c false E front s e = s := by
  unfold dependenceStep
  rcases h with h | h <;> simp [h]

end AstDep
end Tsar
