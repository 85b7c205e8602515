import Verif.Region.Acyclic
import Verif.Reach.Live

/-! # Examples of regions and failures -/

namespace Tsar
namespace Region

set_option linter.unusedSectionVars false

open Tsar.Range Tsar.MemSet Tsar.DFValue Tsar.DataFlow

/-- If blocks which are available without the block `d` are in the list `S` then `d` dominates other
blocks. -/
theorem dom_of {B : Type} [DecidableEq B] (cfg : Cfg B) (f d b : B) (S : List B) (hf : f ∈ S ∨ f = d)
    (hS : ∀ x ∈ S, ∀ y ∈ cfg.succ x, y ∈ S ∨ y = d) (hb : b ∉ S) : Dom cfg f d b := by
  intro l hw he
  by_contra hd
  apply hb
  clear hb
  induction l using List.reverseRecOn generalizing b with
  | nil =>
    simp [Ends] at he hd
    rcases hf with h | h
    · exact he ▸ h
    · exact absurd h.symm hd
  | append_singleton l c ih =>
    have hc : c = b := by simpa [Ends] using he
    subst hc
    unfold Walk at hw
    rw [← List.cons_append, List.isChain_append] at hw
    obtain ⟨u, hu⟩ : ∃ u, (f :: l).getLast? = some u := ⟨_, List.getLast?_eq_some_getLast (by simp)⟩
    have hs : c ∈ cfg.succ u := hw.2.2 u hu c (by simp)
    simp only [List.mem_cons, List.mem_append, List.not_mem_nil, or_false, not_or] at hd
    have hu' := ih u hw.1 ((ends_iff _ _ _).2 hu) (by simp [hd.1, hd.2.1])
    rcases hS u hu' c hs with h | h
    · exact h
    · exact absurd h.symm hd.2.2

/-- `0: goto 1; 1: goto 2; 2: if (…) goto 2; 3: if (…) goto 1; 4: return`. -/
def nest : Cfg (Fin 5) where
  succ := fun b => match b with | 0 => [1] | 1 => [2] | 2 => [2, 3] | 3 => [1, 4] | 4 => []
  pred := fun b => match b with | 0 => [] | 1 => [0, 3] | 2 => [1, 2] | 3 => [2] | 4 => [3]

/-- The outer loop with the inner loop `2`. -/
def outer : Lp (Fin 5) := ⟨1, [1, 2, 3], [[2]]⟩

theorem nest_wf : nest.Wf := by unfold Cfg.Wf; decide

theorem outer_wf : outer.Wf := by
  refine ⟨by decide, by decide, by decide, ?_⟩
  intro i j bs bs' b hi hj _ _
  have h1 := (List.getElem?_eq_some_iff.1 hi).1
  have h2 := (List.getElem?_eq_some_iff.1 hj).1
  simp [outer] at h1 h2
  omega

/-- Hypotheses of the theorems about acyclic regions hold for the nest of loops. -/
theorem outer_natural : Natural nest 0 outer [2] where
  reach := by
    intro b hb
    have : b = 1 ∨ b = 2 ∨ b = 3 := by simpa [outer] using hb
    rcases this with rfl | rfl | rfl
    · exact ⟨[1], by unfold Walk; decide, by unfold Ends; decide⟩
    · exact ⟨[1, 2], by unfold Walk; decide, by unfold Ends; decide⟩
    · exact ⟨[1, 2, 3], by unfold Walk; decide, by unfold Ends; decide⟩
  reducible := by
    refine ⟨fun b => b.val, ?_⟩
    intro b c hc
    by_cases hlt : b.val < c.val
    · exact .inl hlt
    · right
      have : (b = 2 ∧ c = 2) ∨ (b = 3 ∧ c = 1) := by revert b c; decide
      rcases this with ⟨rfl, rfl⟩ | ⟨rfl, rfl⟩
      · exact dom_of _ _ _ _ [0, 1] (by decide) (by decide) (by decide)
      · exact dom_of _ _ _ _ [0] (by decide) (by decide) (by decide)
  closed := by decide
  dom := fun b hb => dom_of _ _ _ _ [0] (by decide) (by decide) (by revert b; decide)
  length := rfl
  innerClosed := by
    intro i bs h h1 h2
    have : i = 0 := by have := (List.getElem?_eq_some_iff.1 h1).1; simp [outer] at this; exact this
    subst this
    simp [outer] at h1 h2
    subst h1 h2
    decide
  innerDom := by
    intro i bs h h1 h2
    have : i = 0 := by have := (List.getElem?_eq_some_iff.1 h1).1; simp [outer] at this; exact this
    subst this
    simp [outer] at h1 h2
    subst h1 h2
    exact ⟨by decide, fun b hb => dom_of _ _ _ _ [0, 1] (by decide) (by decide) (by revert b; decide)⟩
  back := by
    intro b c hb hc he hd
    have : c = 1 ∨ (b = 2 ∧ c = 2) ∨ (b = 1 ∧ c = 2) ∨ (b = 2 ∧ c = 3) := by clear hd; revert b c; decide
    rcases this with rfl | ⟨rfl, rfl⟩ | ⟨rfl, rfl⟩ | ⟨rfl, rfl⟩
    · exact .inl rfl
    · exact .inr ⟨[2], by decide⟩
    · exact absurd (hd [1] (by unfold Walk; decide) (by unfold Ends; decide)) (by decide)
    · exact absurd (hd [1, 2] (by unfold Walk; decide) (by unfold Ends; decide)) (by decide)

/-- The region of the outer loop. -/
example : ∃ s, build nest outer id = some s ∧
    s.nodes = [.entry, .inner 0, .block 1, .block 3, .latch, .exit] ∧
    s.succ .entry = [.block 1] ∧ s.succ (.block 1) = [.inner 0] ∧ s.succ (.inner 0) = [.block 3] ∧
    s.succ (.block 3) = [.latch, .exit] := by
  refine ⟨_, rfl, ?_⟩
  decide +kernel

/-- Hypotheses of `region_nodes` hold when the exit is added before other nodes. -/
example : (addAll (Node.kind (B := Nat)) [.exit, .block 1, .latch, .entry, .inner 0]).nodes =
    [.entry, .block 1, .latch, .inner 0, .exit] := by decide +kernel

/-- C20 for built regions: premises of `Reach.reach_acyclic_partial` about the graph hold for every
natural loop of a reducible control flow graph. -/
theorem reach_built_partial {B : Type} [DecidableEq B] {cfg : Cfg B} {f : B} {L : Lp B} {heads : List B}
    (hcfg : cfg.Wf) (hL : L.Wf) (hN : Natural cfg f L heads)
    (iter : Blocks B → List (B × Node B)) (hi : ∀ m, (iter m).Perm m)
    (ob : Option Nat → Obj) (S : Solver) (hS : SolverOK S) (du : Node B → Reach.DefUse)
    (hw : ∀ n, (du n).Wf ob) (T : Node B → Reach.Trace → Prop) (hT : ∀ n u, T n u → Reach.Fits (du n) u)
    (s0 : Node B → Reach.Info) :
    ∃ st s, build cfg L iter = some st ∧
      (Reach.reachFrame S (toRegion st du)).solve st.nodes.length s0 = some s ∧
      ∀ n t loc, Reach.ExecTo (toRegion st du) T n t → WfLoc (ob loc.ptr) loc →
        (((Reach.reachFrame S (toRegion st du)).before s n).must.contain S loc = true →
          ∀ b, MemSet.Reach loc b → Reach.Written t loc.ptr b) ∧
        (((Reach.reachFrame S (toRegion st du)).before s n).may.overlap S loc = false →
          ∀ b, MemSet.Reach loc b → ¬ Reach.Written t loc.ptr b) := by
  obtain ⟨st, hst, -, -, -, -, -, hac⟩ := region_acyclic hcfg hL hN iter hi
  obtain ⟨s, h1, h2⟩ := Reach.reach_acyclic_partial ob S hS (toRegion st du) st.nodes (hac du) hw T hT s0
  exact ⟨st, s, hst, h1, h2⟩

/-- C21 for built regions: premises of `Reach.live_loop_partial` about the graph hold for every natural
loop of a reducible control flow graph. -/
theorem live_built_partial {B : Type} [DecidableEq B] {cfg : Cfg B} {f : B} {L : Lp B} {heads : List B}
    (hcfg : cfg.Wf) (hL : L.Wf) (hN : Natural cfg f L heads)
    (iter : Blocks B → List (B × Node B)) (hi : ∀ m, (iter m).Perm m)
    (ob : Option Nat → Obj) (S : Solver) (hS : SolverOK S) (du : Node B → Reach.DefUse)
    (hw : ∀ n, (du n).Wf ob) (T : Node B → Reach.Trace → Prop) (hT : ∀ n u, T n u → Reach.Fits (du n) u)
    (hl : T .latch []) (sum : Reach.DefUse) (hd : sum.Wf ob)
    (out : MSet) (ho : SetWf ob out) (s0 : Node B → MSet) :
    ∃ st, build cfg L iter = some st ∧
      ((∀ k t, Reach.Whole (toRegion st du) T k t → ∀ p b, Reach.Exposed t p b → SetByte sum.uses p b) →
      ∃ s, (Reach.liveFrame S (Reach.expand (toRegion st du)) (Reach.newIn S sum out) out).solve
          st.nodes.length s0 = some s ∧
        ∀ n t w u loc, (Reach.ExecUntil (toRegion st du) T .exit n t ∧ w = [] ∨
            ∃ k, st.latch = some .latch ∧ Reach.ExecUntil (toRegion st du) T .latch n t ∧
              Reach.Whole (toRegion st du) T k w) →
          WfLoc (ob loc.ptr) loc → (∀ p b, Reach.Exposed u p b → SetByte out p b) →
          MemSet.overlap S (s n) loc = false →
          ∀ b, MemSet.Reach loc b → ¬ Reach.Exposed (t ++ (w ++ u)) loc.ptr b) := by
  obtain ⟨st, hst, -⟩ := region_acyclic hcfg hL hN iter hi
  refine ⟨st, hst, fun hsum => ?_⟩
  have hlat : ∀ l, st.latch = some l → l = .latch := by
    intro l h
    rw [(region_node_list cfg L hL iter hi st hst).2.2.2.2.2.2.1] at h
    split at h <;> simp at h
    exact h.symm
  obtain ⟨s, h1, h2⟩ := Reach.live_loop_partial ob S hS (toRegion st du) st.nodes
    (region_acyclic_back hcfg hL hN iter hi st hst du) hw T hT
    (fun l h => by rw [hlat l h]; exact ⟨by simp [toRegion], hl⟩) sum hd hsum out ho s0
  refine ⟨s, h1, fun n t w u loc hrun => h2 n t w u loc ?_⟩
  rcases hrun with h | ⟨k, a, b, c⟩
  · exact .inl h
  · exact .inr ⟨.latch, k, a, b, c⟩

/-! ### Failures -/

/-- `0: if (…) goto 1; else goto 2; 1: goto 2; 2: if (…) goto 1; 3: return`: an irreducible loop is not a
natural loop. -/
def irr : Cfg (Fin 4) where
  succ := fun b => match b with | 0 => [1, 2] | 1 => [2] | 2 => [1, 3] | 3 => []
  pred := fun b => match b with | 0 => [] | 1 => [0, 2] | 2 => [0, 1] | 3 => [2]

/-- C53 does not hold for irreducible graphs: the region of the whole function has a cycle. -/
theorem region_irreducible_fails :
    ∃ s, irr.Wf ∧ build irr ⟨0, [0, 1, 2, 3], []⟩ id = some s ∧ Graph.HasCycle s.succ .entry := by
  refine ⟨_, by unfold Cfg.Wf; decide, rfl, .block 1, ?_, ?_⟩
  · exact (Relation.ReflTransGen.single (b := Node.block 0) (by unfold Graph.Edge; decide +kernel)).tail
      (by unfold Graph.Edge; decide +kernel)
  · exact (Relation.TransGen.single (b := Node.block 2) (by unfold Graph.Edge; decide +kernel)).tail
      (by unfold Graph.Edge; decide +kernel)

/-- `0: goto 1; 1: goto 2; 2: if (…) goto 1; 3: return; 4: goto 2`: the block 4 is unreachable. -/
def unr : Cfg (Fin 5) where
  succ := fun b => match b with | 0 => [1] | 1 => [2] | 2 => [1, 3] | 3 => [] | 4 => [2]
  pred := fun b => match b with | 0 => [] | 1 => [0, 2] | 2 => [1, 4] | 3 => [2] | 4 => []

/-- The loop `{1, 2}` is natural (`llvm::LoopInfo` ignores unreachable blocks), nevertheless a
missing element of the map is accessed, because the list of predecessors contains the unreachable block. -/
theorem region_unreachable_fails :
    unr.Wf ∧ (⟨1, [1, 2], []⟩ : Lp (Fin 5)).Wf ∧ (∀ l, Walk unr 0 l → ¬ Ends 0 l 4) ∧
      build unr ⟨1, [1, 2], []⟩ id = none := by
  refine ⟨by unfold Cfg.Wf; decide, ⟨by decide, by decide, by decide, by simp⟩, ?_, rfl⟩
  intro l hw he
  cases l using List.reverseRecOn with
  | nil => simp [Ends] at he
  | append_singleton l c =>
    have hc : c = 4 := by simpa [Ends] using he
    subst hc
    unfold Walk at hw
    rw [← List.cons_append, List.isChain_append] at hw
    have := hw.2.2 _ (List.getLast?_eq_some_getLast (by simp)) 4 (by simp)
    revert this
    generalize (0 :: l).getLast _ = u
    revert u
    decide

end Region
end Tsar
