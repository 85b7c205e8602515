import Verif.Reach.Collapse

/-!
# Examples and counterexamples for reaching definitions, live memory and collapse (C20-C22)
-/

namespace Tsar.Reach

open Tsar.Range Tsar.MemSet Tsar.DFValue Tsar.DataFlow

/-- Accesses to all bytes `[lo, up)` of the object with pointer 1. -/
def writes (lo up : Nat) : Trace := (List.range' lo (up - lo)).map (Access.write (some 1))

/-- Reads of all bytes `[lo, up)` of the object with pointer 1. -/
def reads (lo up : Nat) : Trace := (List.range' lo (up - lo)).map (Access.read (some 1))

/-- A set with one location. -/
def one (l : Loc) : MSet := [(l.ptr, [l])]

/-- `entry 0 → 1`, `1 → 2`, `1 → 3`, `2 → 4`, `3 → 4`: a branch with writes of `[0, 6)` and
`[4, 10)`, the exit is 4. It is the example from the comment in DefinedMemory.cpp:988-1002. -/
def branch : Region Nat where
  nodes := [1, 2, 3, 4]
  entry := 0
  exit := 4
  latch := none
  succs n := if n = 0 then [1] else if n = 1 then [2, 3] else if n = 2 ∨ n = 3 then [4] else []
  preds n := if n = 1 then [0] else if n = 2 ∨ n = 3 then [1] else if n = 4 then [2, 3] else []
  du n := if n = 2 then ⟨one (bytes 0 6), [], [], []⟩ else
    if n = 3 then ⟨one (bytes 4 10), [], [], []⟩ else .empty

/-- Executions of nodes. -/
def branchRun (n : Nat) (u : Trace) : Prop :=
  n = 1 ∧ u = [] ∨ n = 2 ∧ u = writes 0 6 ∨ n = 3 ∧ u = writes 4 10

/-- A region with edges from smaller to greater numbers of nodes only is acyclic. -/
theorem not_cycle {ch : Nat → List Nat} (h : ∀ a b, b ∈ ch a → a < b) (e : Nat) :
    ¬ Graph.HasCycle ch e := by
  rintro ⟨n, -, hp⟩
  have : ∀ a b, Graph.Path ch a b → a < b := by
    intro a b hab
    induction hab with
    | single h' => exact h _ _ h'
    | tail _ h' ih => exact Nat.lt_trans ih (h _ _ h')
  exact Nat.lt_irrefl _ (this n n hp)

theorem reach_le {ch : Nat → List Nat} {m : Nat} (h : ∀ a b, b ∈ ch a → b ≤ m) {e n : Nat}
    (he : e ≤ m) (hr : Graph.Reach ch e n) : n ≤ m := by
  induction hr with
  | refl => exact he
  | tail _ h' _ => exact h _ _ h'

theorem branch_acyclic : Acyclic branch [0, 1, 2, 3, 4] := by
  have hs : ∀ a b, b ∈ branch.succs a → a < b ∧ b ≤ 4 := by
    intro a b
    simp only [branch]
    split
    · simp; omega
    · split
      · simp; omega
      · split
        · simp; omega
        · simp
  have hr : ∀ n, n ≤ 4 → Graph.Reach branch.succs branch.entry n := by
    have r1 : Graph.Reach branch.succs branch.entry 1 := .single (by simp [branch, Graph.Edge])
    have r2 : Graph.Reach branch.succs branch.entry 2 := r1.tail (by simp [branch, Graph.Edge])
    have r3 : Graph.Reach branch.succs branch.entry 3 := r1.tail (by simp [branch, Graph.Edge])
    have r4 : Graph.Reach branch.succs branch.entry 4 := r2.tail (by simp [branch, Graph.Edge])
    intro n hn
    obtain rfl | rfl | rfl | rfl | rfl : n = 0 ∨ n = 1 ∨ n = 2 ∨ n = 3 ∨ n = 4 := by omega
    · exact .refl
    all_goals assumption
  refine ⟨?_, rfl, rfl, ?_, ?_, not_cycle (fun a b h => (hs a b h).1) _⟩
  · intro a b
    simp only [branch]
    constructor <;> intro h <;> (repeat' split at h) <;> (repeat' split) <;> simp at h ⊢ <;> omega
  · intro n h
    have := reach_le (fun a b h => (hs a b h).2) (e := branch.entry) (by simp [branch]) h
    simp; omega
  · intro n m _ hm
    apply hr
    simp only [branch] at hm
    (repeat' split at hm) <;> simp at hm <;> omega

theorem one_wf {l : Loc} (h : WfLoc objA l) : SetWf (fun _ => objA) (one l) := by
  refine ⟨by simp [one], ?_⟩
  intro e he
  rw [List.mem_singleton.1 he]
  exact ⟨by simp, fun x hx => by rw [List.mem_singleton.1 hx]; exact ⟨rfl, h⟩⟩

theorem bytes_reach {lo up b : Nat} : MemSet.Reach (bytes lo up) b ↔ lo ≤ b ∧ b < up := by
  simp [MemSet.Reach, bytes, Kind.default]

theorem one_byte {lo up b : Nat} {p : Option Nat} :
    SetByte (one (bytes lo up)) p b ↔ p = some 1 ∧ lo ≤ b ∧ b < up := by
  rw [setByte_all]
  simp only [ListByte, allLocs, one, List.flatMap_cons, List.flatMap_nil, List.append_nil,
    List.mem_singleton, exists_eq_left, bytes_reach]
  simp [bytes, eq_comm]

theorem one_real {lo up b : Nat} {p : Option Nat} :
    RealByte (one (bytes lo up)) p b ↔ p = some 1 ∧ lo ≤ b ∧ b < up := by
  simp only [RealByte, allLocs, one, List.flatMap_cons, List.flatMap_nil, List.append_nil,
    List.mem_singleton, exists_eq_left, bytes_reach]
  simp [bytes, Kind.default, eq_comm]

theorem writes_iff {lo up b : Nat} {p : Option Nat} :
    Written (writes lo up) p b ↔ p = some 1 ∧ lo ≤ b ∧ b < up := by
  simp only [Written, writes, List.mem_map, List.mem_range', Access.write.injEq]
  constructor
  · rintro ⟨a, ⟨i, hi, rfl⟩, rfl, rfl⟩
    exact ⟨rfl, by omega, by omega⟩
  · rintro ⟨rfl, h1, h2⟩
    exact ⟨b, ⟨b - lo, by omega, by omega⟩, rfl, rfl⟩

theorem reads_written {lo up b : Nat} {p : Option Nat} : ¬ Written (reads lo up) p b := by
  simp [Written, reads]

theorem exposed_read {t : Trace} {p : Option Nat} {b : Nat} (h : Exposed t p b) :
    Access.read p b ∈ t := by
  obtain ⟨t1, t2, rfl, -⟩ := h
  simp

theorem writes_exposed {lo up b : Nat} {p : Option Nat} : ¬ Exposed (writes lo up) p b := fun h => by
  have := exposed_read h
  simp [writes] at this

theorem reads_exposed {lo up b : Nat} {p : Option Nat} :
    Exposed (reads lo up) p b → p = some 1 ∧ lo ≤ b ∧ b < up := fun h => by
  have := exposed_read h
  simp only [reads, List.mem_map, List.mem_range', Access.read.injEq] at this
  obtain ⟨a, ⟨i, hi, rfl⟩, rfl, rfl⟩ := this
  exact ⟨rfl, by omega, by omega⟩

theorem empty_wf (ob : Option Nat → Obj) : DefUse.empty.Wf ob :=
  ⟨setWf_nil ob, setWf_nil ob, setWf_nil ob, setWf_nil ob⟩

theorem empty_fits : FitsReal .empty [] :=
  ⟨fun _ _ h => absurd h setByte_nil, fun _ _ h => by simp [Written] at h,
    fun _ _ h => absurd h exposed_nil⟩

theorem branch_wf (n : Nat) : (branch.du n).Wf fun _ => objA := by
  simp only [branch]
  split
  · exact ⟨one_wf (bytes_wf (by omega)), setWf_nil _, setWf_nil _, setWf_nil _⟩
  · split
    · exact ⟨one_wf (bytes_wf (by omega)), setWf_nil _, setWf_nil _, setWf_nil _⟩
    · exact empty_wf _

theorem write_fits {lo up : Nat} : FitsReal ⟨one (bytes lo up), [], [], []⟩ (writes lo up) :=
  ⟨fun _ _ h => writes_iff.2 (one_byte.1 h), fun _ _ h => .inl (one_real.2 (writes_iff.1 h)),
    fun _ _ h => absurd h writes_exposed⟩

theorem branch_fits (n : Nat) (u : Trace) (h : branchRun n u) : FitsReal (branch.du n) u := by
  rcases h with ⟨rfl, rfl⟩ | ⟨rfl, rfl⟩ | ⟨rfl, rfl⟩
  · exact empty_fits
  · exact write_fits
  · exact write_fits

theorem FitsReal.fits {du : DefUse} {t : Trace} (h : FitsReal du t) : Fits du t := by
  have real_set : ∀ {s : MSet} {p : Option Nat} {b : Nat}, RealByte s p b → SetByte s p b :=
    fun ⟨l, h1, _, h3, h4⟩ => setByte_all.2 ⟨l, h1, h3, h4⟩
  exact ⟨h.defs, fun p b hw => (h.mayDefs p b hw).imp real_set real_set,
    fun p b he => real_set (h.uses p b he)⟩

/-- Aggregation without changes. -/
def keep (tripCount : Nat) : Oracle := ⟨fun l => (l, true), fun _ => false, tripCount, fun _ => []⟩

theorem keep_keeps (c : Nat) (ob : Option Nat → Obj) : (keep c).Keeps ob :=
  fun _ hl => ⟨rfl, rfl, rfl, hl, fun _ => Iff.rfl⟩

/-- Values computed for the branch. -/
theorem branch_solve :
    ∃ s, (reachFrame refSolver branch).solve 5 (fun _ => .boundary) = some s ∧
    s 1 = .boundary ∧
    s 2 = ⟨.mask (one (bytes 0 6)), .mask (one (bytes 0 6))⟩ ∧
    s 3 = ⟨.mask (one (bytes 4 10)), .mask (one (bytes 4 10))⟩ ∧
    s 4 = ⟨.mask (one (bytes 4 6)), .mask (one (bytes 0 10))⟩ ∧
    collapse refSolver branch (keep 0) s = ⟨one (bytes 4 6), [], [], []⟩ := by
  rw [solve_topological _ rfl]
  have ho : (reachFrame refSolver branch).order 5 = some [1, 3, 2, 4] := by
    simp [Frame.order, Graph.postOrder, Graph.postOrderFrom, branch, reachFrame]
  rw [Frame.solveTopologicaly, ho]
  refine ⟨_, rfl, ?_, ?_, ?_, ?_, ?_⟩ <;> decide +kernel

theorem branch_nodes (n : Nat) :
    (Graph.Reach branch.succs branch.entry n → n ≠ branch.entry → n ∈ branch.nodes) ∧
    (n ∈ branch.nodes → Graph.Reach branch.succs branch.entry n) := by
  constructor
  · intro h hne
    have := branch_acyclic.reach n h
    have hne : n ≠ 0 := hne
    simp only [branch, List.mem_cons, List.not_mem_nil] at this ⊢
    simp only [hne, false_or] at this
    exact this
  · intro h
    have r1 : Graph.Reach branch.succs branch.entry 1 := .single (by simp [branch, Graph.Edge])
    have r2 : Graph.Reach branch.succs branch.entry 2 := r1.tail (by simp [branch, Graph.Edge])
    have r3 : Graph.Reach branch.succs branch.entry 3 := r1.tail (by simp [branch, Graph.Edge])
    have r4 : Graph.Reach branch.succs branch.entry 4 := r2.tail (by simp [branch, Graph.Edge])
    simp only [branch, List.mem_cons, List.not_mem_nil, or_false] at h
    rcases h with rfl | rfl | rfl | rfl <;> assumption

theorem branch_noHint (n : Nat) : NoHint (branch.du n).defs := by
  simp only [branch]
  split
  · intro l hl; simp [one, allLocs] at hl; subst hl; rfl
  · split
    · intro l hl; simp [one, allLocs] at hl; subst hl; rfl
    · exact noHint_nil

theorem branch_left : Exec branch branchRun 4 (writes 0 6) := by
  have e1 : Exec branch branchRun 1 [] := .node (u := []) .entry (by simp [branch]) (by simp [branch])
    (.inl ⟨rfl, rfl⟩)
  have e2 : Exec branch branchRun 2 (writes 0 6) := .node (t := []) (u := writes 0 6) e1
    (by simp [branch]) (by simp [branch]) (.inr (.inl ⟨rfl, rfl⟩))
  exact .exit (R := branch) e2 (by simp [branch])

/-- The branch meets hypotheses of `reach_acyclic_partial` and the result is not trivial: bytes
`[4, 6)` are must defined at the exit, bytes `[10, 20)` are not may defined and there is an execution
which comes to the exit. -/
example : Acyclic branch [0, 1, 2, 3, 4] ∧ (∀ n, (branch.du n).Wf fun _ => objA) ∧
    (∀ n u, branchRun n u → Fits (branch.du n) u) ∧ ExecTo branch branchRun 4 (writes 0 6) ∧
    ∃ s, (reachFrame refSolver branch).solve 5 (fun _ => .boundary) = some s ∧
      ((reachFrame refSolver branch).before s 4).must.contain refSolver (bytes 4 6) = true ∧
      ((reachFrame refSolver branch).before s 4).must.contain refSolver (bytes 0 6) = false ∧
      ((reachFrame refSolver branch).before s 4).may.overlap refSolver (bytes 10 20) = false ∧
      ((reachFrame refSolver branch).before s 4).may.overlap refSolver (bytes 0 4) = true := by
  refine ⟨branch_acyclic, branch_wf, fun n u h => (branch_fits n u h).fits, ?_, ?_⟩
  · have e1 : Exec branch branchRun 1 [] := .node (u := []) .entry (by simp [branch])
      (by simp [branch]) (.inl ⟨rfl, rfl⟩)
    exact ⟨2, by simp [branch], .node (t := []) (u := writes 0 6) e1 (by simp [branch])
      (by simp [branch]) (.inr (.inl ⟨rfl, rfl⟩))⟩
  · obtain ⟨s, h0, h1, h2, h3, h4, e⟩ := branch_solve
    refine ⟨s, h0, ?_⟩
    have hb : (reachFrame refSolver branch).before s 4 =
        Info.meet refSolver (s 3) (Info.meet refSolver (s 2) .top) := rfl
    rw [hb, h2, h3]
    refine ⟨?_, ?_, ?_, ?_⟩ <;> decide +kernel

/-- C22 is not true in general: if a definition is partially covered by must definitions which reach the
exit then its other bytes are neither must nor may defined. In the region `branch` the byte 0 is written
on the left path but only bytes `[4, 6)` are in the result. -/
theorem collapse_lost_fails :
    ¬ ∀ (ob : Option Nat → Obj) (S : Solver) (_ : SolverOK S) (R : Region Nat)
      (all : List Nat) (_ : Acyclic R all) (_ : ∀ n, (R.du n).Wf ob)
      (_ : ∀ n, Graph.Reach R.succs R.entry n → n ≠ R.entry → n ∈ R.nodes)
      (_ : ∀ n ∈ R.nodes, Graph.Reach R.succs R.entry n)
      (_ : ∀ n, NoHint (R.du n).defs)
      (T : Nat → Trace → Prop) (_ : ∀ n u, T n u → FitsReal (R.du n) u)
      (o : Oracle) (_ : o.Keeps ob) (_ : o.tripCount = 0) (s0 s : Nat → Info),
      (reachFrame S R).solve all.length s0 = some s → ∀ k t, Whole R T k t →
        ∀ p b, Written t p b →
          SetByte (collapse S R o s).defs p b ∨ SetByte (collapse S R o s).mayDefs p b := by
  intro h
  obtain ⟨s, h0, h1, h2, h3, h4, e⟩ := branch_solve
  have := h (fun _ => objA) refSolver refSolver_ok branch _ branch_acyclic branch_wf
    (fun n => (branch_nodes n).1) (fun n => (branch_nodes n).2) branch_noHint branchRun branch_fits
    (keep 0) (keep_keeps 0 _) rfl _ s h0 0 _ (.leave branch_left) (some 1) 0
    (writes_iff.2 ⟨rfl, by omega, by omega⟩)
  rw [e] at this
  rcases this with h | h
  · have := one_byte.1 h
    omega
  · exact absurd h setByte_nil

/-! ### A loop -/

/-- A loop which is left from its header 1: `entry 0 → 1`, `1 → 2`, `1 → 4`, `2 → 3`, the latch is 3,
the exit is 4. The body writes bytes `[0, 4)` and reads bytes `[0, 8)` after that. -/
def loop : Region Nat where
  nodes := [1, 2, 3, 4]
  entry := 0
  exit := 4
  latch := some 3
  succs n := if n = 0 then [1] else if n = 1 then [2, 4] else if n = 2 then [3] else []
  preds n := if n = 1 then [0] else if n = 2 ∨ n = 4 then [1] else if n = 3 then [2] else []
  du n := if n = 2 then ⟨one (bytes 0 4), [], one (bytes 4 8), []⟩ else .empty

/-- Executions of nodes. -/
def loopRun (n : Nat) (u : Trace) : Prop :=
  (n = 1 ∨ n = 3) ∧ u = [] ∨ n = 2 ∧ u = writes 0 4 ++ reads 0 8

theorem loop_acyclic : Acyclic loop [0, 1, 2, 3, 4] := by
  have hs : ∀ a b, b ∈ loop.succs a → a < b ∧ b ≤ 4 := by
    intro a b h
    simp only [loop] at h
    (repeat' split at h) <;> simp at h <;> omega
  have hr : ∀ n, n ≤ 4 → Graph.Reach loop.succs loop.entry n := by
    have r1 : Graph.Reach loop.succs loop.entry 1 := .single (by simp [loop, Graph.Edge])
    have r2 : Graph.Reach loop.succs loop.entry 2 := r1.tail (by simp [loop, Graph.Edge])
    have r3 : Graph.Reach loop.succs loop.entry 3 := r2.tail (by simp [loop, Graph.Edge])
    have r4 : Graph.Reach loop.succs loop.entry 4 := r1.tail (by simp [loop, Graph.Edge])
    intro n hn
    obtain rfl | rfl | rfl | rfl | rfl : n = 0 ∨ n = 1 ∨ n = 2 ∨ n = 3 ∨ n = 4 := by omega
    · exact .refl
    all_goals assumption
  refine ⟨?_, rfl, rfl, ?_, ?_, not_cycle (fun a b h => (hs a b h).1) _⟩
  · intro a b
    simp only [loop]
    constructor <;> intro h <;> (repeat' split at h) <;> (repeat' split) <;> simp at h ⊢ <;> omega
  · intro n h
    have := reach_le (fun a b h => (hs a b h).2) (e := loop.entry) (by simp [loop]) h
    simp; omega
  · intro n m _ hm
    apply hr
    simp only [loop] at hm
    (repeat' split at hm) <;> simp at hm <;> omega

theorem loop_nodes (n : Nat) :
    (Graph.Reach loop.succs loop.entry n → n ≠ loop.entry → n ∈ loop.nodes) ∧
    (n ∈ loop.nodes → Graph.Reach loop.succs loop.entry n) := by
  constructor
  · intro h hne
    have := loop_acyclic.reach n h
    have hne : n ≠ 0 := hne
    simp only [loop, List.mem_cons, List.not_mem_nil] at this ⊢
    simp only [hne, false_or] at this
    exact this
  · intro h
    have r1 : Graph.Reach loop.succs loop.entry 1 := .single (by simp [loop, Graph.Edge])
    have r2 : Graph.Reach loop.succs loop.entry 2 := r1.tail (by simp [loop, Graph.Edge])
    have r3 : Graph.Reach loop.succs loop.entry 3 := r2.tail (by simp [loop, Graph.Edge])
    have r4 : Graph.Reach loop.succs loop.entry 4 := r1.tail (by simp [loop, Graph.Edge])
    simp only [loop, List.mem_cons, List.not_mem_nil, or_false] at h
    rcases h with rfl | rfl | rfl | rfl <;> assumption

theorem loop_wf (n : Nat) : (loop.du n).Wf fun _ => objA := by
  simp only [loop]
  split
  · exact ⟨one_wf (bytes_wf (by omega)), setWf_nil _, one_wf (bytes_wf (by omega)), setWf_nil _⟩
  · exact empty_wf _

theorem loop_noHint (n : Nat) : NoHint (loop.du n).defs := by
  simp only [loop]
  split
  · intro l hl; simp [one, allLocs] at hl; subst hl; rfl
  · exact noHint_nil

theorem loop_fits (n : Nat) (u : Trace) (h : loopRun n u) : FitsReal (loop.du n) u := by
  rcases h with ⟨rfl | rfl, rfl⟩ | ⟨rfl, rfl⟩
  · exact empty_fits
  · exact empty_fits
  · refine ⟨fun p b h => List.mem_append_left _ (writes_iff.2 (one_byte.1 h)), fun p b h => ?_,
      fun p b h => ?_⟩
    · rcases List.mem_append.1 h with h | h
      · exact .inl (one_real.2 (writes_iff.1 h))
      · exact absurd h reads_written
    · rcases exposed_append h with h | ⟨h1, h2⟩
      · exact absurd h writes_exposed
      · obtain ⟨rfl, h3, h4⟩ := reads_exposed h2
        refine one_real.2 ⟨rfl, ?_, h4⟩
        rw [writes_iff] at h1
        simp only [true_and] at h1
        omega

theorem loop_iteration : Exec loop loopRun 3 (writes 0 4 ++ reads 0 8) := by
  have e1 : Exec loop loopRun 1 [] := .node (u := []) .entry (by simp [loop]) (by simp [loop])
    (.inl ⟨.inl rfl, rfl⟩)
  have e2 : Exec loop loopRun 2 (writes 0 4 ++ reads 0 8) := .node (t := [])
    (u := writes 0 4 ++ reads 0 8) e1 (by simp [loop]) (by simp [loop]) (.inr ⟨rfl, rfl⟩)
  have := Exec.node (R := loop) (T := loopRun) (n := 3) (u := []) e2 (by simp [loop])
    (by simp [loop]) (.inl ⟨.inr rfl, rfl⟩)
  rwa [List.append_nil] at this

theorem loop_exit : Exec loop loopRun 4 [] := by
  have e1 : Exec loop loopRun 1 [] := .node (u := []) .entry (by simp [loop]) (by simp [loop])
    (.inl ⟨.inl rfl, rfl⟩)
  exact .exit (R := loop) e1 (by simp [loop])

theorem loop_solve (c : Nat) : ∃ s, (reachFrame refSolver loop).solve 5 (fun _ => .boundary) = some s ∧
    (c = 1 ∨ c = 2 → collapse refSolver loop (keep c) s =
      ⟨one (bytes 0 4), one (bytes 0 4), one (bytes 4 8), []⟩) ∧
    (c = 0 → collapse refSolver loop (keep c) s = ⟨[], one (bytes 0 4), one (bytes 4 8), []⟩) := by
  rw [solve_topological _ rfl]
  have ho : (reachFrame refSolver loop).order 5 = some [1, 4, 2, 3] := by
    simp [Frame.order, Graph.postOrder, Graph.postOrderFrom, loop, reachFrame]
  rw [Frame.solveTopologicaly, ho]
  refine ⟨_, rfl, ?_, ?_⟩
  · rintro (rfl | rfl) <;> decide +kernel
  · rintro rfl; decide +kernel

/-- The loop meets hypotheses of `collapse_sound_partial`, it may execute one iteration and the trip
count is 2 in this case: bytes `[0, 4)` are must defined. -/
example : Acyclic loop [0, 1, 2, 3, 4] ∧ (∀ n, (loop.du n).Wf fun _ => objA) ∧
    (∀ n, NoHint (loop.du n).defs) ∧ (∀ n u, loopRun n u → FitsReal (loop.du n) u) ∧
    (keep 2).Keeps (fun _ => objA) ∧ Whole loop loopRun 1 (writes 0 4 ++ reads 0 8 ++ []) ∧
    ∃ s, (reachFrame refSolver loop).solve 5 (fun _ => .boundary) = some s ∧
      (collapse refSolver loop (keep 2) s).defs = one (bytes 0 4) := by
  obtain ⟨s, h0, h1, -⟩ := loop_solve 2
  exact ⟨loop_acyclic, loop_wf, loop_noHint, loop_fits, keep_keeps 2 _,
    .iter rfl loop_iteration (.leave loop_exit), s, h0, by rw [h1 (.inr rfl)]⟩

/-- C22 is not true in general: if the trip count is 1 and the loop is left from its header then the
latch is never executed, however definitions which reach the latch are must definitions of the loop. -/
theorem collapse_trip_fails :
    ¬ ∀ (ob : Option Nat → Obj) (S : Solver) (_ : SolverOK S) (R : Region Nat)
      (all : List Nat) (_ : Acyclic R all) (_ : ∀ n, (R.du n).Wf ob)
      (_ : ∀ n, Graph.Reach R.succs R.entry n → n ≠ R.entry → n ∈ R.nodes)
      (_ : ∀ n ∈ R.nodes, Graph.Reach R.succs R.entry n)
      (_ : ∀ n, NoHint (R.du n).defs)
      (T : Nat → Trace → Prop) (_ : ∀ n u, T n u → FitsReal (R.du n) u)
      (o : Oracle) (_ : o.Keeps ob) (s0 s : Nat → Info),
      (reachFrame S R).solve all.length s0 = some s → ∀ k t, Whole R T k t →
        (o.tripCount ≠ 0 → k + 1 = o.tripCount) →
        ∀ p b, SetByte (collapse S R o s).defs p b → Written t p b := by
  intro h
  obtain ⟨s, h0, h1, -⟩ := loop_solve 1
  have := h (fun _ => objA) refSolver refSolver_ok loop _ loop_acyclic loop_wf
    (fun n => (loop_nodes n).1) (fun n => (loop_nodes n).2) loop_noHint loopRun loop_fits
    (keep 1) (keep_keeps 1 _) _ s h0 0 _ (.leave loop_exit) (fun _ => rfl) (some 1) 0
    (by rw [h1 (.inl rfl)]; exact one_byte.2 ⟨rfl, by omega, by omega⟩)
  simp [Written] at this

/-! ### Live memory of the loop -/

theorem loop_back : AcyclicBack (expand loop) [0, 1, 2, 3, 4] := by
  have hp : (expand loop).preds = fun n => if n = 1 then [0] else if n = 2 then [1] else
      if n = 4 then [1, 3] else if n = 3 then [2] else [] := by
    funext n
    simp only [expand, loop, addAdjacent]
    by_cases h : n = 4
    · subst h; rfl
    · simp [h]
  have hs : (expand loop).succs = fun n => if n = 0 then [1] else if n = 1 then [2, 4] else
      if n = 2 then [3] else if n = 3 then [4] else [] := by
    funext n
    simp only [expand, loop, addAdjacent]
    by_cases h : n = 3
    · subst h; rfl
    · simp [h]
  have he : (expand loop).exit = 4 := rfl
  have hr : ∀ n, n ≤ 4 → Graph.Reach (expand loop).preds 4 n := by
    rw [hp]
    have r1 : Graph.Reach (fun n => if n = 1 then [0] else if n = 2 then [1] else
      if n = 4 then [1, 3] else if n = 3 then [2] else []) 4 1 := .single (by simp [Graph.Edge])
    have r3 : Graph.Reach (fun n => if n = 1 then [0] else if n = 2 then [1] else
      if n = 4 then [1, 3] else if n = 3 then [2] else []) 4 3 := .single (by simp [Graph.Edge])
    have r0 := r1.tail (c := 0) (by simp [Graph.Edge])
    have r2 := r3.tail (c := 2) (by simp [Graph.Edge])
    intro n hn
    obtain rfl | rfl | rfl | rfl | rfl : n = 0 ∨ n = 1 ∨ n = 2 ∨ n = 3 ∨ n = 4 := by omega
    any_goals assumption
    exact .refl
  refine ⟨?_, by rw [hs, he]; rfl, ?_, ?_, ?_⟩
  · intro a b
    rw [hs, hp]
    simp only
    constructor <;> intro h <;> (repeat' split at h) <;> (repeat' split) <;> simp at h ⊢ <;> omega
  · intro n h
    rw [hp, he] at h
    have := reach_le (m := 4) (fun a b h => by
      (repeat' split at h) <;> simp at h <;> omega) (Nat.le_refl 4) h
    simp; omega
  · intro n m _ hm
    rw [he]
    apply hr
    rw [hs] at hm
    simp only at hm
    (repeat' split at hm) <;> simp at hm <;> omega
  · rintro ⟨n, -, hpath⟩
    have : ∀ a b, Graph.Path (expand loop).preds a b → b < a := by
      have step : ∀ a b, b ∈ (expand loop).preds a → b < a := by
        rw [hp]
        intro a b h
        simp only at h
        (repeat' split at h) <;> simp at h <;> omega
      intro a b hab
      induction hab with
      | single h' => exact step _ _ h'
      | tail _ h' ih => exact Nat.lt_trans (step _ _ h') ih
    exact Nat.lt_irrefl _ (this n n hpath)

theorem expand_du : (expand loop).du = loop.du := rfl

/-- The loop meets hypotheses of `live_loop_partial` (and of `live_acyclic_partial` after expansion):
nothing is live after the loop, bytes `[4, 8)` are used by the loop. Bytes `[4, 8)` are live before the
body, bytes `[0, 4)` are not. -/
example : AcyclicBack (expand loop) [0, 1, 2, 3, 4] ∧ (∀ n, (loop.du n).Wf fun _ => objA) ∧
    (∀ n u, loopRun n u → Fits (loop.du n) u) ∧
    (∀ k t, Whole loop loopRun k t → ∀ p b, Exposed t p b → SetByte (one (bytes 4 8)) p b) ∧
    ExecUntil loop loopRun 3 2 (writes 0 4 ++ reads 0 8) ∧
    ExecFrom (expand loop) loopRun 2 (writes 0 4 ++ reads 0 8) ∧
    (∀ l, loop.latch = some l → l ≠ loop.entry ∧ loopRun l []) ∧
    ∃ s, (liveFrame refSolver (expand loop)
        (newIn refSolver ⟨one (bytes 0 4), [], one (bytes 4 8), []⟩ []) []).solve 5 (fun _ => []) =
        some s ∧
      MemSet.overlap refSolver (s 2) (bytes 0 4) = false ∧
      MemSet.overlap refSolver (s 2) (bytes 4 8) = true := by
  refine ⟨loop_back, loop_wf, fun n u h => (loop_fits n u h).fits, ?_, ?_, ?_, ?_, ?_⟩
  · intro k t hk p b hb
    obtain ⟨m, t', x1, x2⟩ := whole_exposed hk hb
    obtain ⟨n, t1, u, y1, y2, y3, y4, y5⟩ := exec_exposed x1 x2
    have := (loop_fits n u y3).fits.uses p b y5
    rcases y3 with ⟨rfl | rfl, rfl⟩ | ⟨rfl, rfl⟩
    · exact absurd y5 exposed_nil
    · exact absurd y5 exposed_nil
    · exact this
  · have := ExecUntil.node (R := loop) (T := loopRun) (n := 2) (u := writes 0 4 ++ reads 0 8)
      (.stop (m := 3)) (by simp [loop]) (by simp [loop]) (.inr ⟨rfl, rfl⟩)
    rwa [List.append_nil] at this
  · have := ExecUntil.node (R := loop) (T := loopRun) (n := 2) (u := writes 0 4 ++ reads 0 8)
      (.stop (m := 3)) (by simp [loop]) (by simp [loop]) (.inr ⟨rfl, rfl⟩)
    rw [List.append_nil] at this
    exact until_latch rfl (by simp [loop]) (.inl ⟨.inr rfl, rfl⟩) this
  · intro l hl
    obtain rfl : 3 = l := Option.some.inj hl
    exact ⟨by simp [loop], .inl ⟨.inr rfl, rfl⟩⟩
  · rw [solve_topological _ (by simp [liveFrame, expand, loop])]
    have ho : (liveFrame refSolver (expand loop)
        (newIn refSolver ⟨one (bytes 0 4), [], one (bytes 4 8), []⟩ []) []).order 5 =
        some [3, 2, 1, 0] := by
      simp [Frame.order, Graph.postOrder, Graph.postOrderFrom, loop, liveFrame, expand, addAdjacent]
    rw [Frame.solveTopologicaly, ho]
    refine ⟨_, rfl, ?_, ?_⟩ <;> decide +kernel

/-! ### Irreducible regions -/

/-- A region with irreducible control flow: `0 → 1 → 2`, `0 → 3`, `2 ⇄ 3`, `2 → 4`. Bytes `[0, 4)`
are written in 1, bytes `[8, 12)` are read in 3. -/
def irr : Region Nat where
  nodes := [1, 2, 3, 4]
  entry := 0
  exit := 4
  latch := none
  succs n := if n = 0 then [1, 3] else if n = 1 then [2] else if n = 2 then [3, 4] else
    if n = 3 then [2] else []
  preds n := if n = 1 then [0] else if n = 2 then [1, 3] else if n = 3 then [0, 2] else
    if n = 4 then [2] else []
  du n := if n = 1 then ⟨one (bytes 0 4), [], [], []⟩ else
    if n = 3 then ⟨[], [], one (bytes 8 12), []⟩ else .empty

/-- Executions of nodes. -/
def irrRun (n : Nat) (u : Trace) : Prop :=
  n = 2 ∧ u = [] ∨ n = 1 ∧ u = writes 0 4 ∨ n = 3 ∧ u = reads 8 12

theorem irr_wf (n : Nat) : (irr.du n).Wf fun _ => objA := by
  simp only [irr]
  split
  · exact ⟨one_wf (bytes_wf (by omega)), setWf_nil _, setWf_nil _, setWf_nil _⟩
  · split
    · exact ⟨setWf_nil _, setWf_nil _, one_wf (bytes_wf (by omega)), setWf_nil _⟩
    · exact empty_wf _

theorem irr_inverse (a b : Nat) : b ∈ irr.succs a ↔ a ∈ irr.preds b := by
  simp only [irr]
  constructor <;> intro h <;> (repeat' split at h) <;> (repeat' split) <;> simp at h ⊢ <;> omega

theorem irr_fits (n : Nat) (u : Trace) (h : irrRun n u) : Fits (irr.du n) u := by
  rcases h with ⟨rfl, rfl⟩ | ⟨rfl, rfl⟩ | ⟨rfl, rfl⟩
  · exact empty_fits.fits
  · exact write_fits.fits
  · exact ⟨fun p b h => absurd h setByte_nil, fun p b h => absurd h reads_written,
      fun p b h => one_byte.2 (reads_exposed h)⟩

/-- C20 is not true for regions with irreducible control flow: a location is reported as must defined
before a node although it is not written on some path to this node. -/
theorem reach_irreducible_fails :
    ¬ ∀ (ob : Option Nat → Obj) (S : Solver) (_ : SolverOK S) (R : Region Nat)
      (_ : ∀ a b, b ∈ R.succs a ↔ a ∈ R.preds b) (_ : R.preds R.entry = [])
      (_ : R.succs R.exit = []) (_ : ∀ n, (R.du n).Wf ob) (T : Nat → Trace → Prop)
      (_ : ∀ n u, T n u → Fits (R.du n) u) (fuel : Nat) (s0 s : Nat → Info),
      (reachFrame S R).solve fuel s0 = some s →
      ∀ n t loc, ExecTo R T n t → WfLoc (ob loc.ptr) loc →
        ((reachFrame S R).before s n).must.contain S loc = true →
          ∀ b, MemSet.Reach loc b → Written t loc.ptr b := by
  intro h
  have hs : ∃ s, (reachFrame refSolver irr).solve 5 (fun _ => .boundary) = some s ∧
      ((reachFrame refSolver irr).before s 4).must.contain refSolver (bytes 0 4) = true := by
    rw [solve_topological _ rfl]
    have ho : (reachFrame refSolver irr).order 5 = some [1, 2, 4, 3] := by
      simp [Frame.order, Graph.postOrder, Graph.postOrderFrom, irr, reachFrame]
    rw [Frame.solveTopologicaly, ho]
    exact ⟨_, rfl, by decide +kernel⟩
  obtain ⟨s, h1, h2⟩ := hs
  have e3 : Exec irr irrRun 3 (reads 8 12) := .node (t := []) (u := reads 8 12) .entry (by simp [irr])
    (by simp [irr]) (.inr (.inr ⟨rfl, rfl⟩))
  have e2 : Exec irr irrRun 2 (reads 8 12 ++ []) := .node e3 (by simp [irr]) (by simp [irr])
    (.inl ⟨rfl, rfl⟩)
  have := h (fun _ => objA) refSolver refSolver_ok irr irr_inverse rfl rfl irr_wf irrRun irr_fits 5 _ s
    h1 4 _ (bytes 0 4) ⟨2, by simp [irr], e2⟩ (bytes_wf (by omega)) h2 0
    (bytes_reach.2 ⟨by omega, by omega⟩)
  rw [List.append_nil] at this
  exact reads_written this

/-- C21 is not true for regions with irreducible control flow: a location is reported as dead before a
node although it is read on some path from this node. -/
theorem live_irreducible_fails :
    ¬ ∀ (ob : Option Nat → Obj) (S : Solver) (_ : SolverOK S) (R : Region Nat)
      (_ : ∀ a b, b ∈ R.succs a ↔ a ∈ R.preds b) (_ : R.preds R.entry = [])
      (_ : R.succs R.exit = []) (_ : ∀ n, (R.du n).Wf ob) (T : Nat → Trace → Prop)
      (_ : ∀ n u, T n u → Fits (R.du n) u) (fuel : Nat) (s0 s : Nat → MSet),
      (liveFrame S R [] []).solve fuel s0 = some s →
      ∀ n t loc, ExecFrom R T n t → WfLoc (ob loc.ptr) loc →
        MemSet.overlap S (s n) loc = false →
          ∀ b, MemSet.Reach loc b → ¬ Exposed t loc.ptr b := by
  intro h
  have hs : ∃ s, (liveFrame refSolver irr [] []).solve 5 (fun _ => []) = some s ∧
      MemSet.overlap refSolver (s 2) (bytes 8 12) = false := by
    rw [solve_topological _ rfl]
    have ho : (liveFrame refSolver irr [] []).order 5 = some [2, 3, 1, 0] := by
      simp [Frame.order, Graph.postOrder, Graph.postOrderFrom, irr, liveFrame]
    rw [Frame.solveTopologicaly, ho]
    exact ⟨_, rfl, by decide +kernel⟩
  obtain ⟨s, h1, h2⟩ := hs
  have e4 : ExecFrom irr irrRun 4 [] := .exit
  have e2 : ExecFrom irr irrRun 2 ([] ++ []) := .node e4 (by simp [irr]) (by simp [irr])
    (.inl ⟨rfl, rfl⟩)
  have e3 : ExecFrom irr irrRun 3 (reads 8 12 ++ ([] ++ [])) := .node e2 (by simp [irr])
    (by simp [irr]) (.inr (.inr ⟨rfl, rfl⟩))
  have e1 : ExecFrom irr irrRun 2 ([] ++ (reads 8 12 ++ ([] ++ []))) := .node e3 (by simp [irr])
    (by simp [irr]) (.inl ⟨rfl, rfl⟩)
  exact h (fun _ => objA) refSolver refSolver_ok irr irr_inverse rfl rfl irr_wf irrRun irr_fits 5 _ s
    h1 2 _ (bytes 8 12) e1 (bytes_wf (by omega)) h2 8 (bytes_reach.2 ⟨by omega, by omega⟩)
    ⟨[], [.read (some 1) 9, .read (some 1) 10, .read (some 1) 11], rfl, by simp [Written]⟩

end Tsar.Reach
