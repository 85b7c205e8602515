import Verif.Graph.Numbering

/-! # Numbering of arbitrary graphs: lemmas -/

namespace Tsar
namespace Graph

variable {N : Type} [DecidableEq N]

set_option linter.unusedSectionVars false

/-- Each visited node has a pre-order number; completed nodes are visited and their numbers are
greater than the next one. -/
structure Tidy (s : Numbering N) : Prop where
  pre : ∀ x ∈ s.visited, s.pre x ≠ none
  post : ∀ x q, s.rpost x = some q → x ∈ s.visited ∧ s.lastRPost < q

theorem tidy_insert {s : Numbering N} (h : Tidy s) (n : N) : Tidy (s.insert n) := by
  refine ⟨fun x hx => ?_, fun x q hq => ⟨?_, (h.post x q hq).2⟩⟩
  · simp only [Numbering.insert]
    split
    · simp
    · next hne =>
      refine h.pre x ?_
      simp only [Numbering.insert] at hx
      split at hx
      · exact hx
      · exact (List.mem_cons.1 hx).resolve_left hne
  · have := (h.post x q hq).1
    simp only [Numbering.insert]
    split
    · exact this
    · exact List.mem_cons_of_mem _ this

theorem insert_visited (s : Numbering N) (n x : N) :
    x ∈ (s.insert n).visited ↔ x = n ∨ x ∈ s.visited := by
  simp only [Numbering.insert]
  split
  · next h => exact ⟨.inr, fun hx => hx.elim (fun e => e ▸ h) id⟩
  · simp

theorem tidy_completed {s : Numbering N} (h : Tidy s) {n : N} (hn : n ∈ s.visited) :
    Tidy (s.completed n) := by
  refine ⟨h.pre, fun x q hq => ?_⟩
  simp only [Numbering.completed] at hq ⊢
  split at hq
  · next e =>
    simp only [Option.some.injEq] at hq
    exact ⟨e ▸ hn, by omega⟩
  · have := h.post x q hq
    exact ⟨this.1, by omega⟩

/-- Each node which is met by a traversal obtains both numbers. -/
theorem number_general {ch : N → List N} (fuel : Nat) (ns : List N) (s s' : Numbering N)
    (h : numberFrom ch fuel ns s = some s') (ht : Tidy s) :
    Tidy s' ∧ (∀ x ∈ s.visited, x ∈ s'.visited) ∧ (∀ n ∈ ns, n ∈ s'.visited) ∧
    (∀ x q, s.rpost x = some q → s'.rpost x = some q) ∧
    (∀ x ∈ s'.visited, x ∉ s.visited → s'.rpost x ≠ none ∧ ∀ y ∈ ch x, y ∈ s'.visited) ∧
    (∀ x ∈ s.visited, s'.rpost x = s.rpost x) := by
  fun_induction numberFrom ch fuel ns s generalizing s' with
  | case1 =>
    simp only [Option.some.injEq] at h; subst h
    exact ⟨ht, fun _ h => h, by simp, fun _ _ h => h, fun x h h' => absurd h h', fun _ _ => rfl⟩
  | case2 fuel n ns s hn ih =>
    obtain ⟨a1, a2, a3, a4, a5, a6⟩ := ih _ h (tidy_insert ht n)
    refine ⟨a1, fun x hx => a2 x ((insert_visited ..).2 (.inr hx)), fun m hm => ?_, a4,
      fun x hx hnx => a5 x hx fun hv => ?_, fun x hx => a6 x ((insert_visited ..).2 (.inr hx))⟩
    · rcases List.mem_cons.1 hm with rfl | hm
      · exact a2 m ((insert_visited ..).2 (.inl rfl))
      · exact a3 m hm
    · rcases (insert_visited ..).1 hv with rfl | hv
      · exact hnx hn
      · exact hnx hv
  | case3 => simp at h
  | case4 => simp at h
  | case5 n ns s hn fuel s1 hc ih2 ih1 =>
    obtain ⟨a1, a2, a3, a4, a5, a6⟩ := ih2 _ hc (tidy_insert ht n)
    have n1 : n ∈ s1.visited := a2 n ((insert_visited ..).2 (.inl rfl))
    obtain ⟨b1, b2, b3, b4, b5, b6⟩ := ih1 _ h (tidy_completed a1 n1)
    have nq : s'.rpost n = some s1.lastRPost := b4 n _ (by simp [Numbering.completed])
    have old : ∀ x ∈ s.visited, x ≠ n ∧ x ∈ s1.visited := fun x hx =>
      ⟨fun e => hn (e ▸ hx), a2 x ((insert_visited ..).2 (.inr hx))⟩
    have keep : ∀ x ∈ s.visited, s'.rpost x = s.rpost x := by
      intro x hx
      obtain ⟨hne, hx1⟩ := old x hx
      rw [b6 x hx1, show (s1.completed n).rpost x = s1.rpost x by simp [Numbering.completed, hne],
        a6 x ((insert_visited ..).2 (.inr hx))]
      rfl
    refine ⟨b1, fun x hx => b2 x (old x hx).2, fun m hm => ?_, fun x q hq => ?_, fun x hx hnx => ?_,
      keep⟩
    · rcases List.mem_cons.1 hm with rfl | hm
      · exact b2 m n1
      · exact b3 m hm
    · rw [keep x (ht.post x q hq).1, hq]
    · by_cases hx1 : x ∈ s1.visited
      · by_cases hxn : x = n
        · subst hxn
          exact ⟨by rw [nq]; simp, fun y hy => b2 y (a3 y hy)⟩
        · obtain ⟨h1, h2⟩ := a5 x hx1 fun hv =>
            ((insert_visited ..).1 hv).elim hxn hnx
          refine ⟨?_, fun y hy => b2 y (h2 y hy)⟩
          rw [b6 x hx1, show (s1.completed n).rpost x = s1.rpost x by
            simp [Numbering.completed, hxn]]
          exact h1
      · exact b5 x hx hx1

/-- Children of completed nodes are completed and have greater numbers. -/
def Sorted (ch : N → List N) (s : Numbering N) : Prop :=
  ∀ x q, s.rpost x = some q → ∀ y ∈ ch x, ∃ q', s.rpost y = some q' ∧ q < q'

/-- On a graph without cycles reverse post-order numbers increase along edges. -/
theorem number_sorted {ch : N → List N} (fuel : Nat) (ns : List N) (s s' : Numbering N)
    (h : numberFrom ch fuel ns s = some s') (ht : Tidy s)
    (hac : ∀ n ∈ ns, ¬ HasCycle ch n) (ho : ∀ x ∈ s.visited, s.rpost x = none → ∀ n ∈ ns, Path ch x n)
    (hs : Sorted ch s) : Sorted ch s' ∧ ∀ n ∈ ns, s'.rpost n ≠ none := by
  fun_induction numberFrom ch fuel ns s generalizing s' with
  | case1 =>
    simp only [Option.some.injEq] at h; subst h
    exact ⟨hs, by simp⟩
  | case2 fuel n ns s hn ih =>
    obtain ⟨a1, a2⟩ := ih _ h (tidy_insert ht n) (fun m hm => hac m (List.mem_cons_of_mem _ hm))
      (fun x hx hq m hm => by
        refine ho x ?_ hq m (List.mem_cons_of_mem _ hm)
        rcases (insert_visited ..).1 hx with rfl | hx
        · exact hn
        · exact hx) hs
    refine ⟨a1, fun m hm => ?_⟩
    rcases List.mem_cons.1 hm with rfl | hm
    · have hq : s.rpost m ≠ none := fun hq =>
        hac m List.mem_cons_self ⟨m, .refl, ho m hn hq m List.mem_cons_self⟩
      obtain ⟨q, hq⟩ := Option.ne_none_iff_exists'.1 hq
      rw [(number_general _ _ _ _ h (tidy_insert ht m)).2.2.2.1 m q hq]
      simp
    · exact a2 m hm
  | case3 => simp at h
  | case4 => simp at h
  | case5 n ns s hn fuel s1 hc ih2 ih1 =>
    have cyc : ¬ HasCycle ch n := hac n List.mem_cons_self
    obtain ⟨a1, a2, a3, a4, a5, a6⟩ := number_general _ _ _ _ hc (tidy_insert ht n)
    have n1 : n ∈ s1.visited := a2 n ((insert_visited ..).2 (.inl rfl))
    obtain ⟨c1, c2⟩ := ih2 _ hc (tidy_insert ht n)
      (fun m hm ⟨x, hx, hp⟩ => cyc ⟨x, .head hm hx, hp⟩)
      (fun x hx hq m hm => by
        rcases (insert_visited ..).1 hx with rfl | hx
        · exact .single hm
        · exact (ho x hx hq n List.mem_cons_self).tail hm) hs
    have hcs : Sorted ch (s1.completed n) := by
      intro x q hq y hy
      simp only [Numbering.completed] at hq ⊢
      by_cases hx : x = n
      · subst hx
        simp only [↓reduceIte, Option.some.injEq] at hq
        subst hq
        have hyx : y ≠ x := fun e => cyc ⟨x, .refl, .single (e ▸ hy)⟩
        obtain ⟨q', hq'⟩ := Option.ne_none_iff_exists'.1 (c2 y hy)
        exact ⟨q', by simp [hyx, hq'], (a1.post y q' hq').2⟩
      · simp only [hx, ↓reduceIte] at hq
        obtain ⟨q', h1, h2⟩ := c1 x q hq y hy
        have hyn : y ≠ n := by
          rintro rfl
          have := a6 y ((insert_visited ..).2 (.inl rfl))
          rw [h1] at this
          exact hn (ht.post y q' this.symm).1
        exact ⟨q', by simp [hyn, h1], h2⟩
    obtain ⟨b1, b2⟩ := ih1 _ h (tidy_completed a1 n1)
      (fun m hm => hac m (List.mem_cons_of_mem _ hm))
      (fun x hx hq m hm => by
        have hxn : x ≠ n := by
          rintro rfl
          simp [Numbering.completed] at hq
        have hq1 : s1.rpost x = none := by simpa [Numbering.completed, hxn] using hq
        have hxs : x ∈ s.visited := by
          by_contra hv
          exact (a5 x hx fun h' => ((insert_visited ..).1 h').elim hxn hv).1 hq1
        refine ho x hxs ?_ m (List.mem_cons_of_mem _ hm)
        rw [a6 x ((insert_visited ..).2 (.inr hxs))] at hq1
        exact hq1) hcs
    refine ⟨b1, fun m hm => ?_⟩
    rcases List.mem_cons.1 hm with rfl | hm
    · rw [(number_general _ _ _ _ h (tidy_completed a1 n1)).2.2.2.1 m s1.lastRPost
        (by simp [Numbering.completed])]
      simp
    · exact b2 m hm

end Graph
end Tsar
