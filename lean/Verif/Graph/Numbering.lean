import Verif.Graph.Model
import Verif.Graph.Spec
import Mathlib.Data.List.Count
import Mathlib.Data.List.Basic
import Mathlib.Data.List.Perm.Subperm

/-! # Numbering of trees: lemmas -/

namespace Tsar
namespace Graph

variable {N : Type} [DecidableEq N]

set_option linter.unusedSectionVars false

/-! ## Forests -/

/-- Ancestors of a node form a chain. -/
theorem Forest.chain {ch : N → List N} (h : Forest ch) {a b x : N} (ha : Reach ch a x)
    (hb : Reach ch b x) : Reach ch a b ∨ Reach ch b a := by
  induction ha with
  | refl => exact .inr hb
  | tail hr e ih =>
    rcases Relation.ReflTransGen.cases_tail hb with rfl | ⟨z, hz, ez⟩
    · exact .inl (hr.tail e)
    · have := h.parent _ _ _ e ez
      subst this
      exact ih hz

/-- A proper ancestor of a node is an ancestor of its parent. -/
theorem Forest.path_parent {ch : N → List N} (h : Forest ch) {q p n : N} (hq : Path ch q n)
    (hp : Edge ch p n) : Reach ch q p := by
  obtain ⟨z, hz, ez⟩ := Relation.TransGen.tail'_iff.1 hq
  have := h.parent _ _ _ ez hp
  subst this
  exact hz

/-- Subtrees of different children are disjoint. -/
theorem Forest.disjoint {ch : N → List N} (h : Forest ch) {n c c' x : N} (hc : Edge ch n c)
    (hc' : Edge ch n c') (hx : Reach ch c x) (hx' : Reach ch c' x) : c = c' := by
  by_contra hne
  have aux : ∀ {c c' : N}, Edge ch n c → Edge ch n c' → c ≠ c' → ¬ Reach ch c c' := by
    intro c c' hc hc' hne hr
    rcases Relation.ReflTransGen.cases_tail hr with heq | ⟨z, hz, ez⟩
    · exact hne heq.symm
    · have := h.parent _ _ _ ez hc'
      subst this
      exact h.acyclic _ (Relation.TransGen.head' hc hz)
  rcases h.chain hx hx' with hr | hr
  · exact aux hc hc' hne hr
  · exact aux hc' hc (Ne.symm hne) hr

/-! ## The traversal -/

/-- Known numbers. -/
def Numbering.pn (s : Numbering N) (x : N) : Nat := (s.pre x).getD 0
def Numbering.qn (s : Numbering N) (x : N) : Int := (s.rpost x).getD 0

/-- `x` belongs to one of the subtrees. -/
def Below (ch : N → List N) (ns : List N) (x : N) : Prop := ∃ n ∈ ns, Reach ch n x

theorem below_cons {ch : N → List N} {n : N} {ns : List N} {x : N} :
    Below ch (n :: ns) x ↔ x = n ∨ Below ch (ch n) x ∨ Below ch ns x := by
  unfold Below
  constructor
  · rintro ⟨m, hm, hr⟩
    rcases List.mem_cons.1 hm with rfl | hm
    · rcases Relation.ReflTransGen.cases_head hr with rfl | ⟨z, hz, hr'⟩
      · exact .inl rfl
      · exact .inr (.inl ⟨z, hz, hr'⟩)
    · exact .inr (.inr ⟨m, hm, hr⟩)
  · rintro (rfl | ⟨m, hm, hr⟩ | ⟨m, hm, hr⟩)
    · exact ⟨x, List.mem_cons_self, .refl⟩
    · exact ⟨n, List.mem_cons_self, .head hm hr⟩
    · exact ⟨m, List.mem_cons_of_mem _ hm, hr⟩

theorem below_children {ch : N → List N} {n x : N} : Below ch (ch n) x ↔ Path ch n x := by
  constructor
  · rintro ⟨c, hc, hr⟩; exact Relation.TransGen.head' hc hr
  · intro h
    obtain ⟨c, hc, hr⟩ := Relation.TransGen.head'_iff.1 h
    exact ⟨c, hc, hr⟩

/-- Results of the traversal of subtrees `ns`. -/
structure Numbered (ch : N → List N) (ns : List N) (s s' : Numbering N) : Prop where
  visited : ∀ x, x ∈ s'.visited ↔ x ∈ s.visited ∨ Below ch ns x
  pre : s.lastPre ≤ s'.lastPre
  post : s'.lastRPost ≤ s.lastRPost
  keep : ∀ x, ¬ Below ch ns x → s'.pre x = s.pre x ∧ s'.rpost x = s.rpost x
  known : ∀ x, Below ch ns x → s'.pre x = some (s'.pn x) ∧ s'.rpost x = some (s'.qn x) ∧
    s.lastPre ≤ s'.pn x ∧ s'.pn x < s'.lastPre ∧ s'.lastRPost < s'.qn x ∧ s'.qn x ≤ s.lastRPost
  order : ∀ x y, Below ch ns x → Below ch ns y →
    ((s'.pn x < s'.pn y ∧ s'.qn x < s'.qn y) ↔ Path ch x y)
  inj : ∀ x y, Below ch ns x → Below ch ns y → s'.pn x = s'.pn y → x = y

theorem numbered {ch : N → List N} (hf : Forest ch) (fuel : Nat) (ns : List N) (s s' : Numbering N)
    (h : numberFrom ch fuel ns s = some s') (hnd : ns.Nodup)
    (hdis : ∀ n ∈ ns, ∀ n' ∈ ns, ∀ x, Reach ch n x → Reach ch n' x → n = n')
    (hv : ∀ x, Below ch ns x → x ∉ s.visited) : Numbered ch ns s s' := by
  fun_induction numberFrom ch fuel ns s generalizing s' with
  | case1 fuel s =>
    simp only [Option.some.injEq] at h
    subst h
    exact ⟨by simp [Below], Nat.le_refl _, Int.le_refl _, fun _ _ => ⟨rfl, rfl⟩,
      fun x hx => by simp [Below] at hx, fun x y hx => by simp [Below] at hx,
      fun x y hx => by simp [Below] at hx⟩
  | case2 fuel n ns s hn => exact absurd hn (hv n ⟨n, List.mem_cons_self, .refl⟩)
  | case3 => simp at h
  | case4 => simp at h
  | case5 n ns s hn fuel s2 h2 ih2 ih1 =>
    have hbn : ∀ x, Below ch (ch n) x → Below ch (n :: ns) x := fun x hx =>
      below_cons.2 (.inr (.inl hx))
    have hbs : ∀ x, Below ch ns x → Below ch (n :: ns) x := fun x hx =>
      below_cons.2 (.inr (.inr hx))
    have hnn : ¬ Below ch (ch n) n := fun hb => hf.acyclic n (below_children.1 hb)
    have hnns : ∀ x, Reach ch n x → ¬ Below ch ns x := by
      rintro x hx ⟨m, hm, hr⟩
      have := hdis n List.mem_cons_self m (List.mem_cons_of_mem _ hm) x hx hr
      subst this
      exact (List.nodup_cons.1 hnd).1 hm
    have v1 : ∀ x, x ∈ (s.insert n).visited ↔ x ∈ s.visited ∨ x = n := by
      intro x; simp [Numbering.insert, hn, or_comm]
    have N2 := ih2 s2 h2 (hf.nodup n) (fun c hc c' hc' x hx hx' => hf.disjoint hc hc' hx hx') (by
      intro x hx hx'
      rcases (v1 x).1 hx' with hx' | rfl
      · exact hv x (hbn x hx) hx'
      · exact hnn hx)
    have v3 : ∀ x, x ∈ (s2.completed n).visited ↔ x ∈ s.visited ∨ x = n ∨ Below ch (ch n) x := by
      intro x
      show x ∈ s2.visited ↔ _
      rw [N2.visited, v1, or_assoc]
    have hreach : ∀ x, Below ch (ch n) x → Reach ch n x := fun x hx =>
      (below_children.1 hx).to_reflTransGen
    have N1 := ih1 s' h (List.nodup_cons.1 hnd).2
      (fun m hm m' hm' => hdis m (List.mem_cons_of_mem _ hm) m' (List.mem_cons_of_mem _ hm')) (by
      intro x hx hx'
      rcases (v3 x).1 hx' with hx' | rfl | hx'
      · exact hv x (hbs x hx) hx'
      · exact hnns _ .refl hx
      · exact hnns _ (hreach x hx') hx)
    have i1 : (s.insert n).lastPre = s.lastPre + 1 := rfl
    have i2 : (s.insert n).lastRPost = s.lastRPost := rfl
    have c1 : (s2.completed n).lastPre = s2.lastPre := rfl
    have c2 : (s2.completed n).lastRPost = s2.lastRPost - 1 := rfl
    have p2 := N2.pre
    have q2 := N2.post
    have p1 := N1.pre
    have q1 := N1.post
    -- numbers of the node
    have kn : s'.pre n = some s.lastPre ∧ s'.rpost n = some s2.lastRPost := by
      obtain ⟨k1, k2⟩ := N1.keep n (hnns n .refl)
      obtain ⟨k3, -⟩ := N2.keep n hnn
      refine ⟨?_, by rw [k2]; simp [Numbering.completed]⟩
      rw [k1]; show s2.pre n = _
      rw [k3]; simp [Numbering.insert]
    have knp : s'.pn n = s.lastPre := by simp [Numbering.pn, kn.1]
    have knq : s'.qn n = s2.lastRPost := by simp [Numbering.qn, kn.2]
    -- numbers of nodes below it
    have kb : ∀ x, Below ch (ch n) x → s'.pre x = s2.pre x ∧ s'.rpost x = s2.rpost x := by
      intro x hx
      obtain ⟨k1, k2⟩ := N1.keep x (hnns x (hreach x hx))
      have hne : x ≠ n := by rintro rfl; exact hnn hx
      exact ⟨k1, by rw [k2]; simp [Numbering.completed, hne]⟩
    have kbp : ∀ x, Below ch (ch n) x → s'.pn x = s2.pn x := by
      intro x hx; simp [Numbering.pn, (kb x hx).1]
    have kbq : ∀ x, Below ch (ch n) x → s'.qn x = s2.qn x := by
      intro x hx; simp [Numbering.qn, (kb x hx).2]
    refine ⟨fun x => ?_, by omega, by omega, fun x hx => ?_, fun x hx => ?_, fun x y hx hy => ?_,
      fun x y hx hy heq => ?_⟩
    · rw [N1.visited, v3, below_cons]
      constructor
      · rintro ((h | h | h) | h)
        · exact .inl h
        · exact .inr (.inl h)
        · exact .inr (.inr (.inl h))
        · exact .inr (.inr (.inr h))
      · rintro (h | h | h | h)
        · exact .inl (.inl h)
        · exact .inl (.inr (.inl h))
        · exact .inl (.inr (.inr h))
        · exact .inr h
    · rw [below_cons] at hx
      have h1 := N1.keep x (fun hb => hx (.inr (.inr hb)))
      have h2 := N2.keep x (fun hb => hx (.inr (.inl hb)))
      have hne : x ≠ n := fun he => hx (.inl he)
      refine ⟨?_, ?_⟩
      · rw [h1.1]; show s2.pre x = _; rw [h2.1]; simp [Numbering.insert, hne]
      · rw [h1.2]
        have : (s2.completed n).rpost x = s2.rpost x := by simp [Numbering.completed, hne]
        rw [this, h2.2]; rfl
    · rcases below_cons.1 hx with rfl | hx | hx
      · refine ⟨by rw [kn.1, knp], by rw [kn.2, knq], by omega, by omega, by omega, by omega⟩
      · obtain ⟨a1, a2, a3, a4, a5, a6⟩ := N2.known x hx
        have b1 := kb x hx
        have b2 := kbp x hx
        have b3 := kbq x hx
        refine ⟨by rw [b1.1, a1, b2], by rw [b1.2, a2, b3], by omega, by omega, by omega, by omega⟩
      · obtain ⟨a1, a2, a3, a4, a5, a6⟩ := N1.known x hx
        exact ⟨a1, a2, by omega, by omega, by omega, by omega⟩
    · rcases below_cons.1 hx with rfl | hx | hx
      · rcases below_cons.1 hy with rfl | hy | hy
        · exact ⟨fun h => absurd h.1 (Nat.lt_irrefl _), fun h => absurd h (hf.acyclic _)⟩
        · obtain ⟨a1, a2, a3, a4, a5, a6⟩ := N2.known y hy
          have b2 := kbp y hy
          have b3 := kbq y hy
          exact ⟨fun _ => below_children.1 hy, fun _ => ⟨by omega, by omega⟩⟩
        · obtain ⟨a1, a2, a3, a4, a5, a6⟩ := N1.known y hy
          exact ⟨fun h => by omega, fun h => absurd hy (hnns y h.to_reflTransGen)⟩
      · obtain ⟨a1, a2, a3, a4, a5, a6⟩ := N2.known x hx
        have b2 := kbp x hx
        have b3 := kbq x hx
        rcases below_cons.1 hy with rfl | hy | hy
        · exact ⟨fun h => by omega, fun h => absurd ((below_children.1 hx).trans h) (hf.acyclic _)⟩
        · have e2 := kbp y hy
          have e3 := kbq y hy
          rw [b2, b3, e2, e3]
          exact N2.order x y hx hy
        · obtain ⟨d1, d2, d3, d4, d5, d6⟩ := N1.known y hy
          exact ⟨fun h => by omega,
            fun h => absurd hy (hnns y ((hreach x hx).trans h.to_reflTransGen))⟩
      · obtain ⟨a1, a2, a3, a4, a5, a6⟩ := N1.known x hx
        have out : ∀ y, Reach ch n y → ¬ Path ch x y := by
          intro y hy hp
          obtain ⟨m, hm, hr⟩ := hx
          exact hnns y hy ⟨m, hm, hr.trans hp.to_reflTransGen⟩
        rcases below_cons.1 hy with rfl | hy | hy
        · exact ⟨fun h => by omega, fun h => absurd h (out _ .refl)⟩
        · obtain ⟨d1, d2, d3, d4, d5, d6⟩ := N2.known y hy
          have e2 := kbp y hy
          have e3 := kbq y hy
          exact ⟨fun h => by omega, fun h => absurd h (out _ (hreach y hy))⟩
        · exact N1.order x y hx hy
    · rcases below_cons.1 hx with rfl | hx | hx
      · rcases below_cons.1 hy with rfl | hy | hy
        · rfl
        · obtain ⟨a1, a2, a3, a4, a5, a6⟩ := N2.known y hy
          have b2 := kbp y hy
          omega
        · obtain ⟨a1, a2, a3, a4, a5, a6⟩ := N1.known y hy
          omega
      · obtain ⟨a1, a2, a3, a4, a5, a6⟩ := N2.known x hx
        have b2 := kbp x hx
        rcases below_cons.1 hy with rfl | hy | hy
        · omega
        · have e2 := kbp y hy
          exact N2.inj x y hx hy (by omega)
        · obtain ⟨d1, d2, d3, d4, d5, d6⟩ := N1.known y hy
          omega
      · obtain ⟨a1, a2, a3, a4, a5, a6⟩ := N1.known x hx
        rcases below_cons.1 hy with rfl | hy | hy
        · omega
        · obtain ⟨d1, d2, d3, d4, d5, d6⟩ := N2.known y hy
          have e2 := kbp y hy
          omega
        · exact N1.inj x y hx hy heq

/-! ## The fuel and the range of numbers for arbitrary graphs -/

/-- The number of nodes which are not visited. -/
def unvisited (nodes : List N) (s : Numbering N) : Nat := nodes.countP fun x => x ∉ s.visited

theorem unvisited_insert {nodes : List N} {s : Numbering N} {n : N} (hn : n ∈ nodes)
    (hs : n ∉ s.visited) : unvisited nodes (s.insert n) < unvisited nodes s := by
  unfold unvisited
  have v1 : ∀ x, x ∈ (s.insert n).visited ↔ x ∈ s.visited ∨ x = n := by
    intro x; simp [Numbering.insert, hs, or_comm]
  have mono : ∀ xs : List N, xs.countP (fun x => x ∉ (s.insert n).visited) ≤
      xs.countP (fun x => x ∉ s.visited) := by
    intro xs
    refine List.countP_mono_left fun y _ hy => ?_
    have := of_decide_eq_true hy
    rw [v1, not_or] at this
    exact decide_eq_true this.1
  induction nodes with
  | nil => simp at hn
  | cons x xs ih =>
    rw [List.countP_cons, List.countP_cons]
    by_cases hx : x = n
    · subst hx
      have := mono xs
      have e1 : decide (x ∉ (s.insert x).visited) = false := by simp [v1]
      have e2 : decide (x ∉ s.visited) = true := decide_eq_true hs
      rw [e1, e2]
      simp only [Bool.false_eq_true, ↓reduceIte]
      omega
    · have := ih ((List.mem_cons.1 hn).resolve_left (Ne.symm hx))
      have e1 : decide (x ∉ (s.insert n).visited) = decide (x ∉ s.visited) := by simp [v1, hx]
      rw [e1]
      omega

theorem number_visited {ch : N → List N} (fuel : Nat) (ns : List N) (s s' : Numbering N)
    (h : numberFrom ch fuel ns s = some s') : ∀ x ∈ s.visited, x ∈ s'.visited := by
  fun_induction numberFrom ch fuel ns s generalizing s' with
  | case1 => simp only [Option.some.injEq] at h; subst h; exact fun _ => id
  | case2 fuel n ns s hn ih =>
    intro x hx
    exact ih _ h x (by simp only [Numbering.insert, hn, ↓reduceIte]; exact hx)
  | case3 => simp at h
  | case4 => simp at h
  | case5 n ns s hn fuel s2 h2 ih2 ih1 =>
    intro x hx
    exact ih1 _ h x (ih2 _ h2 x (by
      simp only [Numbering.insert, hn, ↓reduceIte]; exact List.mem_cons_of_mem _ hx))

theorem unvisited_le {nodes : List N} {s s' : Numbering N} (h : ∀ x ∈ s.visited, x ∈ s'.visited) :
    unvisited nodes s' ≤ unvisited nodes s := by
  refine List.countP_mono_left fun y _ hy => ?_
  simp only [decide_not, Bool.not_eq_true', decide_eq_false_iff_not] at hy ⊢
  exact fun hh => hy (h y hh)

theorem number_total {ch : N → List N} {nodes : List N} (hcl : ∀ a ∈ nodes, ∀ b ∈ ch a, b ∈ nodes)
    (fuel : Nat) (ns : List N) (s : Numbering N) (hns : ∀ m ∈ ns, m ∈ nodes)
    (hf : unvisited nodes s ≤ fuel) : numberFrom ch fuel ns s ≠ none := by
  fun_induction numberFrom ch fuel ns s with
  | case1 => simp
  | case2 fuel n ns s hn ih =>
    refine ih (fun m hm => hns m (List.mem_cons_of_mem _ hm)) (Nat.le_trans (unvisited_le ?_) hf)
    intro x hx
    simp only [Numbering.insert, hn, ↓reduceIte]; exact hx
  | case3 n ns s hn =>
    have := unvisited_insert (hns n List.mem_cons_self) hn
    omega
  | case4 n ns s hn fuel h2 ih =>
    have hn' := hns n List.mem_cons_self
    have := unvisited_insert hn' hn
    exact absurd h2 (ih (hcl n hn') (by omega))
  | case5 n ns s hn fuel s2 h2 ih2 ih1 =>
    refine ih1 (fun m hm => hns m (List.mem_cons_of_mem _ hm)) ?_
    refine Nat.le_trans (unvisited_le (s := s) ?_) hf
    intro x hx
    exact number_visited _ _ _ _ h2 x (by
      simp only [Numbering.insert, hn, ↓reduceIte]; exact List.mem_cons_of_mem _ hx)

/-- Visited nodes are reachable and distinct and each of them takes one number. -/
theorem number_range {ch : N → List N} (fuel : Nat) (ns : List N) (s s' : Numbering N)
    (h : numberFrom ch fuel ns s = some s') (hnd : s.visited.Nodup) :
    s'.visited.Nodup ∧ s.visited.length ≤ s'.visited.length ∧
    s'.lastRPost = s.lastRPost - (s'.visited.length - s.visited.length : Int) ∧
    (∀ x ∈ s'.visited, x ∈ s.visited ∨ Below ch ns x) ∧
    ∀ x q, s'.rpost x = some q → s.rpost x = some q ∨ s'.lastRPost < q ∧ q ≤ s.lastRPost := by
  fun_induction numberFrom ch fuel ns s generalizing s' with
  | case1 =>
    simp only [Option.some.injEq] at h; subst h
    exact ⟨hnd, Nat.le_refl _, by omega, fun x hx => .inl hx, fun x q hq => .inl hq⟩
  | case2 fuel n ns s hn ih =>
    have hv : (s.insert n).visited = s.visited := by simp [Numbering.insert, hn]
    obtain ⟨a1, a2, a3, a4, a5⟩ := ih _ h (by rw [hv]; exact hnd)
    rw [hv] at a2 a3 a4
    refine ⟨a1, a2, a3, fun x hx => ?_, fun x q hq => a5 x q hq⟩
    rcases a4 x hx with h | h
    · exact .inl h
    · exact .inr (below_cons.2 (.inr (.inr h)))
  | case3 => simp at h
  | case4 => simp at h
  | case5 n ns s hn fuel s2 h2 ih2 ih1 =>
    have hv : (s.insert n).visited = n :: s.visited := by simp [Numbering.insert, hn]
    obtain ⟨a1, a2, a3, a4, a5⟩ := ih2 _ h2 (by rw [hv]; exact List.nodup_cons.2 ⟨hn, hnd⟩)
    obtain ⟨b1, b2, b3, b4, b5⟩ := ih1 _ h a1
    rw [hv] at a2 a3 a4
    simp only [List.length_cons] at a2 a3
    have c2 : (s2.completed n).lastRPost = s2.lastRPost - 1 := rfl
    have cv : (s2.completed n).visited = s2.visited := rfl
    have i2 : (s.insert n).lastRPost = s.lastRPost := rfl
    rw [cv] at b2 b3 b4
    refine ⟨b1, by omega, by push_cast at *; omega, fun x hx => ?_, fun x q hq => ?_⟩
    · rw [below_cons]
      rcases b4 x hx with h | h
      · rcases a4 x h with h | h
        · rcases List.mem_cons.1 h with h | h
          · exact .inr (.inl h)
          · exact .inl h
        · exact .inr (.inr (.inl h))
      · exact .inr (.inr (.inr h))
    · rcases b5 x q hq with h | h
      · by_cases hx : x = n
        · simp only [Numbering.completed, hx, ↓reduceIte, Option.some.injEq] at h
          right; push_cast at *; omega
        · simp only [Numbering.completed, hx, ↓reduceIte] at h
          rcases a5 x q h with h | h
          · exact .inl h
          · right; push_cast at *; omega
      · right; push_cast at *; omega

end Graph
end Tsar
