import Verif.Graph.Model
import Verif.Graph.Spec
import Mathlib.Data.List.Count
import Mathlib.Data.List.Basic
import Mathlib.Order.Basic

/-! # Back edge search: lemmas and theorems of C28 -/

namespace Tsar
namespace Graph

variable {N : Type} [DecidableEq N]

set_option linter.unusedSectionVars false

/-- Black nodes are closed under edges and do not form cycles. -/
structure BlackOK (ch : N → List N) (c : Colors N) : Prop where
  closed : ∀ b x, c b = some .black → x ∈ ch b → c x = some .black
  acyclic : ∀ b, c b = some .black → ¬ Path ch b b

theorem path_black {ch : N → List N} {c : Colors N} (h : BlackOK ch c) {b x : N}
    (hb : c b = some .black) (hp : Path ch b x) : c x = some .black := by
  induction hp with
  | single e => exact h.closed _ _ hb e
  | tail _ e ih => exact h.closed _ _ ih e

@[simp] theorem set_self (c : Colors N) (n : N) (k : Color) : c.set n k n = some k := by
  simp [Colors.set]

theorem set_other {c : Colors N} {n x : N} (k : Color) (h : x ≠ n) : c.set n k x = c x := by
  simp [Colors.set, h]

/-- Coloring a gray (or new) node with black children only. -/
theorem blackOK_set {ch : N → List N} {c : Colors N} (h : BlackOK ch c) {m : N}
    (hm : c m ≠ some .black) (hc : ∀ x ∈ ch m, c x = some .black) :
    BlackOK ch (c.set m .black) := by
  have black : ∀ x, c.set m .black x = some .black ↔ x = m ∨ c x = some .black := by
    intro x
    by_cases hx : x = m
    · simp [hx]
    · rw [set_other _ hx]; simp [hx]
  refine ⟨fun b x hb hx => ?_, fun b hb hp => ?_⟩
  · rw [black] at hb ⊢
    rcases hb with rfl | hb
    · exact .inr (hc _ hx)
    · exact .inr (h.closed _ _ hb hx)
  · rw [black] at hb
    rcases hb with rfl | hb
    · -- a cycle through the new node goes through its black child
      obtain ⟨y, hy, hr⟩ := Relation.TransGen.head'_iff.1 hp
      rcases Relation.ReflTransGen.cases_head hr with rfl | ⟨z, hz, hr'⟩
      · exact hm (hc _ hy)
      · exact hm (path_black h (hc _ hy) (Relation.TransGen.head' hz hr'))
    · exact h.acyclic _ hb hp

/-- A search which has not found back edges. -/
theorem find_none {ch : N → List N} (fuel : Nat) (n : N) (ms : List N) (c c' : Colors N)
    (h : findBackEdgeFrom ch fuel n ms c = some (c', none)) (hok : BlackOK ch c) :
    BlackOK ch c' ∧ (∀ x k, c x = some k → c' x = some k) ∧
    (∀ x, c' x = some .gray → c x = some .gray) ∧ ∀ x ∈ ms, c' x = some .black := by
  fun_induction findBackEdgeFrom ch fuel n ms c generalizing c' with
  | case1 => simp only [Option.some.injEq, Prod.mk.injEq, and_true] at h; subst h; simp [hok]
  | case2 => simp at h
  | case3 => simp at h
  | case4 => simp at h
  | case5 n m ms c hm fuel c1 h1 ih2 ih1 =>
    have hok1 : BlackOK ch (c.set m .gray) := by
      refine ⟨fun b x hb hx => ?_, fun b hb => ?_⟩
      · by_cases hbm : b = m
        · simp [hbm] at hb
        · rw [set_other _ hbm] at hb
          have := hok.closed _ _ hb hx
          rw [set_other _ (by rintro rfl; simp [hm] at this)]
          exact this
      · by_cases hbm : b = m
        · simp [hbm] at hb
        · rw [set_other _ hbm] at hb; exact hok.acyclic _ hb
    obtain ⟨a1, a2, a3, a4⟩ := ih2 c1 h1 hok1
    have hg : c1 m = some .gray := a2 _ _ (set_self _ _ _)
    obtain ⟨b1, b2, b3, b4⟩ := ih1 c' h (blackOK_set a1 (by simp [hg]) a4)
    refine ⟨b1, fun x k hk => ?_, fun x hx => ?_, fun x hx => ?_⟩
    · by_cases hxm : x = m
      · subst hxm; simp [hm] at hk
      · exact b2 _ _ (by rw [set_other _ hxm]; exact a2 _ _ (by rw [set_other _ hxm]; exact hk))
    · have := b3 _ hx
      by_cases hxm : x = m
      · simp [hxm] at this
      · rw [set_other _ hxm] at this
        have := a3 _ this
        rwa [set_other _ hxm] at this
    · rcases List.mem_cons.1 hx with rfl | hx
      · exact b2 _ _ (set_self _ _ _)
      · exact b4 _ hx
  | case6 => simp at h
  | case7 fuel n m ms c hm ih =>
    obtain ⟨b1, b2, b3, b4⟩ := ih c' h hok
    refine ⟨b1, b2, b3, fun x hx => ?_⟩
    rcases List.mem_cons.1 hx with rfl | hx
    · exact b2 _ _ hm
    · exact b4 _ hx

/-- A search which has found a back edge. -/
theorem find_some {ch : N → List N} (fuel : Nat) (n : N) (ms : List N) (c c' : Colors N) (a b : N)
    (h : findBackEdgeFrom ch fuel n ms c = some (c', some (a, b)))
    (hms : ∀ m ∈ ms, m ∈ ch n) (hg : ∀ g, c g = some .gray → Reach ch g n)
    (hok : BlackOK ch c) :
    Edge ch a b ∧ Reach ch n a ∧ Reach ch b a := by
  fun_induction findBackEdgeFrom ch fuel n ms c generalizing c' with
  | case1 => simp at h
  | case2 => simp at h
  | case3 => simp at h
  | case4 n m ms c hm fuel c1 e h1 ih1 =>
    simp only [Option.some.injEq, Prod.mk.injEq] at h
    obtain ⟨rfl, rfl⟩ := h
    have hok1 : BlackOK ch (c.set m .gray) := by
      refine ⟨fun b x hb hx => ?_, fun b hb => ?_⟩
      · by_cases hbm : b = m
        · simp [hbm] at hb
        · rw [set_other _ hbm] at hb
          have := hok.closed _ _ hb hx
          rw [set_other _ (by rintro rfl; simp [hm] at this)]
          exact this
      · by_cases hbm : b = m
        · simp [hbm] at hb
        · rw [set_other _ hbm] at hb; exact hok.acyclic _ hb
    have hnm : Edge ch n m := hms _ (List.mem_cons_self)
    obtain ⟨a1, a2, a3⟩ := ih1 c1 h1 (fun _ => id) (by
      intro g hg'
      by_cases hgm : g = m
      · subst hgm; exact .refl
      · rw [set_other _ hgm] at hg'; exact (hg _ hg').tail hnm) hok1
    exact ⟨a1, .head hnm a2, a3⟩
  | case5 n m ms c hm fuel c1 h1 ih2 ih1 =>
    have hok1 : BlackOK ch (c.set m .gray) := by
      refine ⟨fun b x hb hx => ?_, fun b hb => ?_⟩
      · by_cases hbm : b = m
        · simp [hbm] at hb
        · rw [set_other _ hbm] at hb
          have := hok.closed _ _ hb hx
          rw [set_other _ (by rintro rfl; simp [hm] at this)]
          exact this
      · by_cases hbm : b = m
        · simp [hbm] at hb
        · rw [set_other _ hbm] at hb; exact hok.acyclic _ hb
    obtain ⟨a1, a2, a3, a4⟩ := find_none _ _ _ _ _ h1 hok1
    have hgm : c1 m = some .gray := a2 _ _ (set_self _ _ _)
    refine ih1 c' h (fun x hx => hms _ (List.mem_cons_of_mem _ hx)) ?_
      (blackOK_set a1 (by simp [hgm]) a4)
    intro g hg'
    by_cases hgm : g = m
    · simp [hgm] at hg'
    · rw [set_other _ hgm] at hg'
      have := a3 _ hg'
      rw [set_other _ hgm] at this
      exact hg _ this
  | case6 fuel n m ms c hm =>
    simp only [Option.some.injEq, Prod.mk.injEq] at h
    obtain ⟨rfl, rfl, rfl⟩ := h
    exact ⟨hms _ List.mem_cons_self, .refl, hg _ hm⟩
  | case7 fuel n m ms c hm ih =>
    exact ih c' h (fun x hx => hms _ (List.mem_cons_of_mem _ hx)) hg hok

/-- The number of nodes in the list which are not colored. -/
def whites (nodes : List N) (c : Colors N) : Nat := nodes.countP fun x => (c x).isNone

theorem whites_set {nodes : List N} {c : Colors N} {m : N} {k : Color} (hm : m ∈ nodes)
    (hc : c m = none) : whites nodes (c.set m k) < whites nodes c := by
  unfold whites
  induction nodes with
  | nil => simp at hm
  | cons x xs ih =>
    have mono : ∀ xs : List N, xs.countP (fun x => (c.set m k x).isNone) ≤
        xs.countP (fun x => (c x).isNone) := by
      intro xs
      refine List.countP_mono_left fun y _ hy => ?_
      by_cases hym : y = m
      · simp [hym] at hy
      · rwa [set_other _ hym] at hy
    rw [List.countP_cons, List.countP_cons]
    by_cases hx : x = m
    · subst hx
      have := mono xs
      simp only [set_self, Option.isNone_some, Bool.false_eq_true, ↓reduceIte, hc,
        Option.isNone_none]
      omega
    · rw [set_other _ hx]
      have := ih ((List.mem_cons.1 hm).resolve_left (Ne.symm hx))
      omega

theorem whites_le {nodes : List N} {c c' : Colors N} (h : ∀ x k, c x = some k → c' x ≠ none) :
    whites nodes c' ≤ whites nodes c := by
  refine List.countP_mono_left fun y _ hy => ?_
  cases hc : c y with
  | none => rfl
  | some k => exact absurd (Option.isNone_iff_eq_none.1 hy) (h y k hc)

/-- Colored nodes remain colored. -/
theorem find_keeps {ch : N → List N} (fuel : Nat) (n : N) (ms : List N) (c c' : Colors N)
    (e : Option (N × N)) (h : findBackEdgeFrom ch fuel n ms c = some (c', e)) :
    ∀ x k, c x = some k → c' x ≠ none := by
  fun_induction findBackEdgeFrom ch fuel n ms c generalizing c' e with
  | case1 => simp only [Option.some.injEq, Prod.mk.injEq] at h; obtain ⟨rfl, _⟩ := h; intro x k hk; simp [hk]
  | case2 => simp at h
  | case3 => simp at h
  | case4 n m ms c hm fuel c1 e' h1 ih1 =>
    simp only [Option.some.injEq, Prod.mk.injEq] at h; obtain ⟨rfl, _⟩ := h
    intro x k hk
    by_cases hxm : x = m
    · subst hxm; simp [hm] at hk
    · exact ih1 _ _ h1 x k (by rw [set_other _ hxm]; exact hk)
  | case5 n m ms c hm fuel c1 h1 ih2 ih1 =>
    intro x k hk
    by_cases hxm : x = m
    · subst hxm; simp [hm] at hk
    · have := ih2 _ _ h1 x k (by rw [set_other _ hxm]; exact hk)
      obtain ⟨k', hk'⟩ := Option.ne_none_iff_exists'.1 this
      exact ih1 _ _ h x k' (by rw [set_other _ hxm]; exact hk')
  | case6 => simp only [Option.some.injEq, Prod.mk.injEq] at h; obtain ⟨rfl, _⟩ := h; intro x k hk; simp [hk]
  | case7 fuel n m ms c hm ih => exact ih _ _ h

/-- The fuel is sufficient for finite graphs. -/
theorem find_total {ch : N → List N} {nodes : List N} (hcl : ∀ a ∈ nodes, ∀ b ∈ ch a, b ∈ nodes)
    (fuel : Nat) (n : N) (ms : List N) (c : Colors N) (hms : ∀ m ∈ ms, m ∈ nodes)
    (hf : whites nodes c ≤ fuel) : findBackEdgeFrom ch fuel n ms c ≠ none := by
  fun_induction findBackEdgeFrom ch fuel n ms c with
  | case1 => simp
  | case2 n m ms c hm =>
    have := whites_set (k := .gray) (hms m List.mem_cons_self) hm
    omega
  | case3 n m ms c hm fuel h1 ih =>
    have hmn := hms m List.mem_cons_self
    have := whites_set (k := .gray) hmn hm
    exact absurd h1 (ih (hcl _ hmn) (by omega))
  | case4 => simp
  | case5 n m ms c hm fuel c1 h1 ih2 ih1 =>
    refine ih1 (fun x hx => hms _ (List.mem_cons_of_mem _ hx)) ?_
    refine Nat.le_trans (whites_le (c := c) ?_) hf
    intro x k hk
    by_cases hxm : x = m
    · subst hxm; simp
    · rw [set_other _ hxm]
      exact find_keeps _ _ _ _ _ _ h1 x k (by rw [set_other _ hxm]; exact hk)
  | case6 => simp
  | case7 fuel n m ms c hm ih =>
    exact ih (fun x hx => hms _ (List.mem_cons_of_mem _ hx)) hf

/-- C28. The search always ends on a finite graph. -/
theorem findBackEdge_total (ch : N → List N) (entry : N) (nodes : List N)
    (h : Within ch entry nodes) (fuel : Nat) (hf : nodes.length ≤ fuel) :
    ∃ r, findBackEdge ch entry fuel = some r := by
  classical
  -- nodes which are reachable from the entry are closed under edges
  let ns := nodes.filter fun n => decide (Reach ch entry n)
  have hmem : ∀ n, n ∈ ns ↔ Reach ch entry n := by
    intro n; simp only [ns, List.mem_filter, decide_eq_true_eq]
    exact ⟨fun h => h.2, fun hr => ⟨h _ hr, hr⟩⟩
  have := find_total (ch := ch) (nodes := ns)
    (fun a ha b hb => (hmem b).2 (((hmem a).1 ha).tail hb)) fuel entry (ch entry)
    (Colors.set (fun _ => none) entry .gray) (fun m hm => (hmem m).2 (.single hm))
    (Nat.le_trans (List.countP_le_length) (Nat.le_trans (List.length_filter_le _ _) hf))
  unfold findBackEdge
  cases hh : findBackEdgeFrom ch fuel entry (ch entry) (Colors.set (fun _ => none) entry .gray) with
  | none => exact absurd hh this
  | some r => exact ⟨r.2, rfl⟩

theorem blackOK_init (ch : N → List N) (entry : N) :
    BlackOK ch (Colors.set (fun _ => none) entry .gray) := by
  refine ⟨fun b x hb => ?_, fun b hb => ?_⟩ <;>
  · by_cases h : b = entry
    · simp [h] at hb
    · simp [set_other _ h] at hb

/-- C28. If a back edge is found it is an edge of the graph which closes a cycle reachable from the
entry. -/
theorem findBackEdge_cycle (ch : N → List N) (entry : N) (fuel : Nat) (a b : N)
    (h : findBackEdge ch entry fuel = some (some (a, b))) :
    Reach ch entry a ∧ Edge ch a b ∧ Reach ch b a := by
  unfold findBackEdge at h
  cases hh : findBackEdgeFrom ch fuel entry (ch entry) (Colors.set (fun _ => none) entry .gray) with
  | none => simp [hh] at h
  | some r =>
    obtain ⟨c, e⟩ := r
    simp only [hh, Option.map_some, Option.some.injEq] at h
    subst h
    obtain ⟨h1, h2, h3⟩ := find_some _ _ _ _ _ _ _ hh (fun _ => id) (by
      intro g hg
      by_cases h : g = entry
      · subst h; exact .refl
      · simp [set_other _ h] at hg) (blackOK_init ch entry)
    exact ⟨h2, h1, h3⟩

/-- C28. If a back edge is not found there is no cycle reachable from the entry. -/
theorem findBackEdge_acyclic (ch : N → List N) (entry : N) (fuel : Nat)
    (h : findBackEdge ch entry fuel = some none) : ¬ HasCycle ch entry := by
  unfold findBackEdge at h
  cases hh : findBackEdgeFrom ch fuel entry (ch entry) (Colors.set (fun _ => none) entry .gray) with
  | none => simp [hh] at h
  | some r =>
    obtain ⟨c, e⟩ := r
    simp only [hh, Option.map_some, Option.some.injEq] at h
    subst h
    obtain ⟨h1, h2, h3, h4⟩ := find_none _ _ _ _ _ hh (blackOK_init ch entry)
    have hg : c entry = some .gray := h2 _ _ (set_self _ _ _)
    have step : BlackOK ch (c.set entry .black) := blackOK_set h1 (by simp [hg]) h4
    rintro ⟨n, hr, hp⟩
    refine step.acyclic n ?_ hp
    rcases Relation.ReflTransGen.cases_head hr with rfl | ⟨z, hz, hr'⟩
    · exact set_self _ _ _
    · exact path_black step (set_self _ _ _) (Relation.TransGen.head' hz hr')

/-- C28. `isDAG()` decides acyclicity of the part of a finite graph reachable from its entry. -/
theorem isDAG_iff (ch : N → List N) (entry : N) (nodes : List N) (h : Within ch entry nodes) :
    isDAG ch entry nodes.length = some true ∧ ¬ HasCycle ch entry ∨
    isDAG ch entry nodes.length = some false ∧ HasCycle ch entry := by
  obtain ⟨r, hr⟩ := findBackEdge_total ch entry nodes h _ Nat.le.refl
  cases r with
  | none => exact .inl ⟨by simp [isDAG, hr], findBackEdge_acyclic _ _ _ hr⟩
  | some e =>
    obtain ⟨a, b⟩ := e
    obtain ⟨h1, h2, h3⟩ := findBackEdge_cycle _ _ _ _ _ hr
    exact .inr ⟨by simp [isDAG, hr], a, h1, Relation.TransGen.head' h2 h3⟩

/-- A graph with a cycle: `0 → 1 → 2 → 1`. -/
example : Within (fun n => if n = 0 then [1] else if n = 1 then [2] else if n = 2 then [1] else []) 0
      [0, 1, 2] ∧
    isDAG (fun n => if n = 0 then [1] else if n = 1 then [2] else if n = 2 then [1] else []) 0 3 =
      some false ∧
    findBackEdge (fun n => if n = 0 then [1] else if n = 1 then [2] else if n = 2 then [1] else [])
      0 3 = some (some (2, 1)) := by
  refine ⟨fun n hr => ?_, by simp [isDAG, findBackEdge, findBackEdgeFrom, Colors.set],
    by simp [findBackEdge, findBackEdgeFrom, Colors.set]⟩
  induction hr with
  | refl => simp
  | tail _ e ih =>
    simp only [List.mem_cons, List.not_mem_nil, or_false] at ih
    rcases ih with rfl | rfl | rfl <;> simp [Edge] at e <;> simp [e]

/-- An acyclic graph with two paths to the same node: `0 → 1 → 2`, `0 → 2`. -/
example :
    isDAG (fun n => if n = 0 then [1, 2] else if n = 1 then [2] else []) 0 3 = some true := by
  simp [isDAG, findBackEdge, findBackEdgeFrom, Colors.set]

/-- C28. A data-flow problem is solved in a direction in which children of a node are nodes which
data come from (DataFlowGraph.h:521-612: predecessors for `Forward` and successors for `Backward`),
and the entry of a region (the exit for `Backward`) has no such children. `isDAG()` looks for cycles
through children of the entry, hence it accepts every region. -/
theorem isDAG_region (ch : N → List N) (entry : N) (he : ch entry = []) (fuel : Nat) :
    isDAG ch entry fuel = some true := by
  simp [isDAG, findBackEdge, he, findBackEdgeFrom]

/-- C28. As a consequence `isDAG()` accepts region graphs with cycles which are reachable from the
entry of the region in the direction of the data-flow: `0 → 1`, `0 → 2`, `1 ⇄ 2`. Children are
sources of data. -/
theorem isDAG_region_fails :
    ¬ ∀ (succ ch : Nat → List Nat) (entry fuel : Nat), (∀ a b, b ∈ succ a ↔ a ∈ ch b) →
      isDAG ch entry fuel = some true → ¬ HasCycle succ entry := by
  intro h
  refine h (fun n => if n = 0 then [1, 2] else if n = 1 then [2] else if n = 2 then [1] else [])
    (fun n => if n = 1 then [0, 2] else if n = 2 then [0, 1] else []) 0 0 ?_
    (isDAG_region _ _ (by simp) _) ?_
  · intro a b
    by_cases a0 : a = 0
    · subst a0
      by_cases b1 : b = 1
      · simp [b1]
      · by_cases b2 : b = 2 <;> simp [b1, b2]
    · by_cases a1 : a = 1
      · subst a1
        by_cases b1 : b = 1
        · simp [b1]
        · by_cases b2 : b = 2 <;> simp [b1, b2]
      · by_cases a2 : a = 2
        · subst a2
          by_cases b1 : b = 1
          · simp [b1]
          · by_cases b2 : b = 2 <;> simp [b1, b2]
        · by_cases b1 : b = 1
          · simp [b1, a0, a1, a2]
          · by_cases b2 : b = 2 <;> simp [b1, b2, a0, a1, a2]
  · exact ⟨1, .single (by simp [Edge]),
      .tail (b := 2) (.single (by simp [Edge])) (by simp [Edge])⟩

end Graph
end Tsar
