import Verif.Graph.Spec
import Mathlib.Data.List.Count
import Mathlib.Data.List.Basic
import Mathlib.Data.List.Pairwise

/-!
# Post-order traversal

`llvm::po_iterator` is not a part of the project. It is described here by the recursive depth-first
search: a node is appended after all its children have been visited. The traversal is used by
`solveDataFlowTopologicaly()` (DataFlow.h:207-217).
-/

namespace Tsar
namespace Graph

variable {N : Type} [DecidableEq N]

set_option linter.unusedSectionVars false

/-- Post-order traversal of children `ns`; the state is the list of visited nodes and the sequence of
completed nodes. The fuel bounds the depth of recursion. -/
def postOrderFrom (ch : N → List N) :
    (fuel : Nat) → (ns : List N) → (vis out : List N) → Option (List N × List N)
  | _, [], vis, out => some (vis, out)
  | fuel, n :: ns, vis, out =>
    if n ∈ vis then postOrderFrom ch fuel ns vis out
    else
      match fuel with
      | 0 => none
      | fuel' + 1 =>
        match postOrderFrom ch fuel' (ch n) (n :: vis) out with
        | none => none
        | some (vis', out') => postOrderFrom ch (fuel' + 1) ns vis' (out' ++ [n])
  termination_by fuel ns => (fuel, ns.length)

/-- Post-order traversal of a graph from its entry. -/
def postOrder (ch : N → List N) (entry : N) (fuel : Nat) : Option (List N) :=
  (postOrderFrom ch fuel [entry] [] []).map (·.2)

/-- Facts about a traversal: it appends new nodes `l`, they are distinct, reachable and they are
the only new visited nodes; all nodes `ns` are visited; children of each appended node are visited. -/
theorem postOrder_facts {ch : N → List N} (fuel : Nat) (ns vis out vis' out' : List N)
    (h : postOrderFrom ch fuel ns vis out = some (vis', out')) :
    ∃ l, out' = out ++ l ∧ (∀ x, x ∈ vis' ↔ x ∈ vis ∨ x ∈ l) ∧ l.Nodup ∧ (∀ x ∈ l, x ∉ vis) ∧
      (∀ n ∈ ns, n ∈ vis') ∧ (∀ x ∈ l, ∃ n ∈ ns, Reach ch n x) ∧
      (∀ x ∈ l, ∀ y ∈ ch x, y ∈ vis') := by
  fun_induction postOrderFrom ch fuel ns vis out generalizing vis' out' with
  | case1 =>
    simp only [Option.some.injEq, Prod.mk.injEq] at h
    obtain ⟨rfl, rfl⟩ := h
    exact ⟨[], by simp⟩
  | case2 fuel n ns vis out hn ih =>
    obtain ⟨l, h1, h2, h3, h4, h5, h6, h7⟩ := ih _ _ h
    refine ⟨l, h1, h2, h3, h4, fun m hm => ?_, fun x hx => ?_, h7⟩
    · rcases List.mem_cons.1 hm with rfl | hm
      · exact (h2 m).2 (.inl hn)
      · exact h5 m hm
    · obtain ⟨m, hm, hr⟩ := h6 x hx
      exact ⟨m, List.mem_cons_of_mem _ hm, hr⟩
  | case3 => simp at h
  | case4 => simp at h
  | case5 n ns vis out hn fuel v1 o1 hc ih2 ih1 =>
    obtain ⟨l1, a1, a2, a3, a4, a5, a6, a7⟩ := ih2 _ _ hc
    obtain ⟨l2, b1, b2, b3, b4, b5, b6, b7⟩ := ih1 _ _ h
    have nl1 : n ∉ l1 := fun hx => a4 n hx List.mem_cons_self
    have nv1 : n ∈ v1 := (a2 n).2 (.inl List.mem_cons_self)
    refine ⟨l1 ++ n :: l2, ?_, fun x => ?_, ?_, fun x hx => ?_, fun m hm => ?_, fun x hx => ?_,
      fun x hx => ?_⟩
    · rw [b1, a1]; simp
    · rw [b2, a2]
      simp only [List.mem_cons, List.mem_append]
      constructor
      · rintro (((h | h) | h) | h)
        · exact .inr (.inr (.inl h))
        · exact .inl h
        · exact .inr (.inl h)
        · exact .inr (.inr (.inr h))
      · rintro (h | h | h | h)
        · exact .inl (.inl (.inr h))
        · exact .inl (.inr h)
        · exact .inl (.inl (.inl h))
        · exact .inr h
    · rw [List.nodup_append]
      refine ⟨a3, List.nodup_cons.2 ⟨fun hx => b4 n hx nv1, b3⟩, fun x hx y hy => ?_⟩
      rintro rfl
      rcases List.mem_cons.1 hy with rfl | hy
      · exact nl1 hx
      · exact b4 x hy ((a2 x).2 (.inr hx))
    · rcases List.mem_append.1 hx with hx | hx
      · exact fun hv => a4 x hx (List.mem_cons_of_mem _ hv)
      · rcases List.mem_cons.1 hx with rfl | hx
        · exact hn
        · exact fun hv => b4 x hx ((a2 x).2 (.inl (List.mem_cons_of_mem _ hv)))
    · rcases List.mem_cons.1 hm with rfl | hm
      · exact (b2 m).2 (.inl nv1)
      · exact b5 m hm
    · rcases List.mem_append.1 hx with hx | hx
      · obtain ⟨m, hm, hr⟩ := a6 x hx
        exact ⟨n, List.mem_cons_self, .head hm hr⟩
      · rcases List.mem_cons.1 hx with rfl | hx
        · exact ⟨x, List.mem_cons_self, .refl⟩
        · obtain ⟨m, hm, hr⟩ := b6 x hx
          exact ⟨m, List.mem_cons_of_mem _ hm, hr⟩
    · intro y hy
      rcases List.mem_append.1 hx with hx | hx
      · exact (b2 y).2 (.inl (a7 x hx y hy))
      · rcases List.mem_cons.1 hx with rfl | hx
        · exact (b2 y).2 (.inl (a5 y hy))
        · exact b7 x hx y hy

/-- On a graph without cycles children of a node precede it. -/
theorem postOrder_order {ch : N → List N} (fuel : Nat) (ns vis out vis' out' : List N)
    (h : postOrderFrom ch fuel ns vis out = some (vis', out'))
    (hac : ∀ n ∈ ns, ¬ HasCycle ch n) :
    ∃ l, out' = out ++ l ∧
      ∀ l1 x l2, l = l1 ++ x :: l2 → ∀ y ∈ ch x, y ∈ vis ∨ y ∈ l1 := by
  fun_induction postOrderFrom ch fuel ns vis out generalizing vis' out' with
  | case1 =>
    simp only [Option.some.injEq, Prod.mk.injEq] at h
    obtain ⟨rfl, rfl⟩ := h
    exact ⟨[], by simp⟩
  | case2 fuel n ns vis out hn ih =>
    exact ih _ _ h (fun m hm => hac m (List.mem_cons_of_mem _ hm))
  | case3 => simp at h
  | case4 => simp at h
  | case5 n ns vis out hn fuel v1 o1 hc ih2 ih1 =>
    obtain ⟨l1, e1, r1⟩ := ih2 _ _ hc (fun m hm ⟨k, hk, hp⟩ =>
      hac n List.mem_cons_self ⟨k, .head hm hk, hp⟩)
    obtain ⟨l2, e2, r2⟩ := ih1 _ _ h (fun m hm => hac m (List.mem_cons_of_mem _ hm))
    obtain ⟨l1', f1, f2, f3, f4, f5, f6, f7⟩ := postOrder_facts _ _ _ _ _ _ hc
    have : l1' = l1 := List.append_cancel_left (f1.symm.trans e1)
    subst this
    refine ⟨l1' ++ n :: l2, by rw [e2, e1]; simp, ?_⟩
    intro p x q hl y hy
    have cyc : ∀ z, Path ch n z → ¬ Reach ch z n := fun z hz hr =>
      hac n List.mem_cons_self ⟨n, .refl, Relation.TransGen.trans_left hz hr⟩
    -- position of `x`
    rcases List.append_eq_append_iff.1 hl with ⟨a, ha1, ha2⟩ | ⟨a, ha1, ha2⟩
    · -- `x` is `n` or follows it
      cases a with
      | nil =>
        simp only [List.nil_append, List.cons.injEq, List.append_nil] at ha1 ha2
        obtain ⟨rfl, rfl⟩ := ha2
        rcases (f2 y).1 (f5 y hy) with h' | h'
        · rcases List.mem_cons.1 h' with rfl | h'
          · exact absurd .refl (cyc y (.single hy))
          · exact .inl h'
        · exact .inr (by rw [ha1]; exact h')
      | cons b a =>
        simp only [List.cons_append, List.cons.injEq] at ha2
        obtain ⟨rfl, ha2⟩ := ha2
        rcases r2 a x q ha2 y hy with h' | h'
        · rcases (f2 y).1 h' with h' | h'
          · rcases List.mem_cons.1 h' with rfl | h'
            · exact .inr (by rw [ha1]; simp)
            · exact .inl h'
          · exact .inr (by rw [ha1]; simp [h'])
        · exact .inr (by rw [ha1]; simp [h'])
    · cases a with
      | nil =>
        simp only [List.nil_append, List.cons.injEq, List.append_nil] at ha1 ha2
        obtain ⟨rfl, rfl⟩ := ha2
        rcases (f2 y).1 (f5 y hy) with h' | h'
        · rcases List.mem_cons.1 h' with rfl | h'
          · exact absurd .refl (cyc y (.single hy))
          · exact .inl h'
        · exact .inr (by rw [← ha1]; exact h')
      | cons b a =>
        simp only [List.cons_append, List.cons.injEq] at ha2
        obtain ⟨rfl, ha2⟩ := ha2
        rcases r1 p x a ha1 y hy with h' | h'
        · rcases List.mem_cons.1 h' with rfl | h'
          · obtain ⟨m, hm, hr⟩ := f6 x (by rw [ha1]; simp)
            exact absurd (.single hy) (cyc x (Relation.TransGen.head' hm hr))
          · exact .inl h'
        · exact .inr h'

/-- The fuel is sufficient for finite graphs. -/
theorem postOrder_fuel {ch : N → List N} {nodes : List N}
    (hcl : ∀ a ∈ nodes, ∀ b ∈ ch a, b ∈ nodes) (fuel : Nat) (ns vis out : List N)
    (hns : ∀ m ∈ ns, m ∈ nodes) (hf : nodes.countP (fun x => x ∉ vis) ≤ fuel) :
    postOrderFrom ch fuel ns vis out ≠ none := by
  have step : ∀ (vis : List N) (n : N) (nodes : List N), n ∈ nodes → n ∉ vis →
      nodes.countP (fun x => x ∉ n :: vis) < nodes.countP (fun x => x ∉ vis) := by
    intro vis n nodes hn hv
    have mono : ∀ xs : List N, xs.countP (fun x => x ∉ n :: vis) ≤
        xs.countP (fun x => x ∉ vis) := by
      intro xs
      refine List.countP_mono_left fun y _ hy => ?_
      have := of_decide_eq_true hy
      exact decide_eq_true fun h => this (List.mem_cons_of_mem _ h)
    induction nodes with
    | nil => simp at hn
    | cons x xs ih =>
      rw [List.countP_cons, List.countP_cons]
      by_cases hx : x = n
      · subst hx
        have := mono xs
        have e1 : decide (x ∉ x :: vis) = false := by simp
        have e2 : decide (x ∉ vis) = true := decide_eq_true hv
        rw [e1, e2]
        simp only [Bool.false_eq_true, ↓reduceIte]
        omega
      · have := ih ((List.mem_cons.1 hn).resolve_left (Ne.symm hx))
        have e1 : decide (x ∉ n :: vis) = decide (x ∉ vis) := by simp [hx]
        rw [e1]
        omega
  fun_induction postOrderFrom ch fuel ns vis out with
  | case1 => simp
  | case2 fuel n ns vis out hn ih => exact ih (fun m hm => hns m (List.mem_cons_of_mem _ hm)) hf
  | case3 n ns vis out hn =>
    have := step vis n nodes (hns n List.mem_cons_self) hn
    omega
  | case4 n ns vis out hn fuel hc ih =>
    have hn' := hns n List.mem_cons_self
    have := step vis n nodes hn' hn
    exact absurd hc (ih (hcl n hn') (by omega))
  | case5 n ns vis out hn fuel v1 o1 hc ih2 ih1 =>
    refine ih1 (fun m hm => hns m (List.mem_cons_of_mem _ hm)) ?_
    obtain ⟨l, -, f2, -⟩ := postOrder_facts _ _ _ _ _ _ hc
    refine Nat.le_trans (List.countP_mono_left fun y _ hy => ?_) hf
    have := of_decide_eq_true hy
    exact decide_eq_true fun h => this ((f2 y).2 (.inl (List.mem_cons_of_mem _ h)))

/-- Nodes reachable in a finite graph are listed once, the entry is the last one and, if the graph
has no cycles, all children of a node precede it. -/
theorem postOrder_spec (ch : N → List N) (entry : N) (nodes : List N) (h : Within ch entry nodes)
    (fuel : Nat) (hf : nodes.length ≤ fuel) :
    ∃ l, postOrder ch entry fuel = some (l ++ [entry]) ∧ (l ++ [entry]).Nodup ∧
      (∀ x, x ∈ l ++ [entry] ↔ Reach ch entry x) ∧
      (¬ HasCycle ch entry → ∀ l1 x l2, l ++ [entry] = l1 ++ x :: l2 → ∀ y ∈ ch x, y ∈ l1) := by
  classical
  let ns := nodes.filter fun n => decide (Reach ch entry n)
  have hmem : ∀ n, n ∈ ns ↔ Reach ch entry n := by
    intro n; simp only [ns, List.mem_filter, decide_eq_true_eq]
    exact ⟨fun h => h.2, fun hr => ⟨h _ hr, hr⟩⟩
  have tot := postOrder_fuel (ch := ch) (nodes := ns)
    (fun a ha b hb => (hmem b).2 (((hmem a).1 ha).tail hb)) fuel [entry] [] []
    (fun m hm => (hmem m).2 (by rw [List.mem_singleton.1 hm]; exact .refl))
    (Nat.le_trans List.countP_le_length (Nat.le_trans (List.length_filter_le _ _) hf))
  obtain ⟨⟨vis, out⟩, hr⟩ := Option.ne_none_iff_exists'.1 tot
  obtain ⟨l, e, f2, f3, f4, f5, f6, f7⟩ := postOrder_facts _ _ _ _ _ _ hr
  simp only [List.nil_append] at e
  subst e
  -- the last node
  have hlast : ∃ l, out = l ++ [entry] := by
    cases fuel with
    | zero => simp [postOrderFrom] at hr
    | succ fuel =>
      rw [postOrderFrom] at hr
      simp only [List.not_mem_nil, ↓reduceIte] at hr
      cases hc : postOrderFrom ch fuel (ch entry) [entry] [] with
      | none => simp [hc] at hr
      | some r =>
        obtain ⟨v, o⟩ := r
        simp only [hc, postOrderFrom, Option.some.injEq, Prod.mk.injEq] at hr
        exact ⟨o, hr.2.symm⟩
  obtain ⟨l, rfl⟩ := hlast
  refine ⟨l, by simp [postOrder, hr], f3, fun x => ⟨fun hx => ?_, fun hx => ?_⟩, fun hac => ?_⟩
  · obtain ⟨n, hn, hx⟩ := f6 x hx
    rwa [List.mem_singleton.1 hn] at hx
  · induction hx with
    | refl => simp
    | tail _ e ih =>
      rcases (f2 _).1 (f7 _ ih _ e) with h' | h'
      · simp at h'
      · exact h'
  · obtain ⟨l', e, ho⟩ := postOrder_order _ _ _ _ _ _ hr (by
      intro n hn; rw [List.mem_singleton.1 hn]; exact hac)
    simp only [List.nil_append] at e
    subst e
    intro l1 x l2 hl y hy
    rcases ho l1 x l2 hl y hy with h' | h'
    · simp at h'
    · exact h'

/-- A diamond `0 → 1 → 3`, `0 → 2 → 3`. -/
example : postOrder (fun n => if n = 0 then [1, 2] else if n = 1 ∨ n = 2 then [3] else []) 0 4 =
    some [3, 1, 2, 0] := by
  simp [postOrder, postOrderFrom]

end Graph
end Tsar
