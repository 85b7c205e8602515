import Verif.DepTest.Partition

/-!
# Each pair of subscripts is passed to a test which supports it (C78)

Loops of nested recurrences of a subscript are different (property of the external class `SCEVAddRecExpr`).
-/

namespace Tsar
namespace DepTest

variable {S L : Type} [DecidableEq L]

theorem count_nodup {l : List L} (h : l.Nodup) : count l = l.length := by
  unfold count; rw [h.dedup]

theorem count_le {l m : List L} (h : l.Nodup) (hs : l ⊆ m) : l.length ≤ count m :=
  (List.subperm_of_subset h fun _ hx => List.mem_dedup.2 (hs hx)).length_le

theorem count_two (a b : L) : count [a, b] = if a = b then 1 else 2 := by
  unfold count
  by_cases h : a = b
  · subst h; simp
  · rw [if_neg h, List.Nodup.dedup (by simp [h])]; rfl

/-- C78. The class `SIV`: there is a single loop, and each of subscripts is either constant in this loop or a
recurrence of this loop. -/
theorem classify_SIV {src dst : Sub S L} (h1 : src.loops.Nodup) (h2 : dst.loops.Nodup) :
    classify src dst = .SIV ↔
      (∃ c1 a1 l c2 a2, src = .addRec (.base c1) a1 l ∧ dst = .addRec (.base c2) a2 l) ∨
      (∃ c1 a1 l c2, src = .addRec (.base c1) a1 l ∧ dst = .base c2) ∨
      (∃ c1 c2 a2 l, src = .base c1 ∧ dst = .addRec (.base c2) a2 l) := by
  have hn : classify src dst = .SIV ↔ count (src.loops ++ dst.loops) = 1 := by
    unfold classify
    simp only
    split
    · rename_i h; simp [h]
    · split
      · rename_i h; simp [h]
      · rename_i h
        simp only [h, iff_false]
        split <;> simp
  rw [hn]
  constructor
  · intro h
    have l1 := count_le (m := src.loops ++ dst.loops) h1 (fun x hx => List.mem_append_left _ hx)
    have l2 := count_le (m := src.loops ++ dst.loops) h2 (fun x hx => List.mem_append_right _ hx)
    rw [h] at l1 l2
    match src, dst with
    | .base c1, .base c2 => simp [Sub.loops, count] at h
    | .base c1, .addRec (.base c2) a2 l => exact Or.inr (Or.inr ⟨_, _, _, _, rfl, rfl⟩)
    | .addRec (.base c1) a1 l, .base c2 => exact Or.inr (Or.inl ⟨_, _, _, _, rfl, rfl⟩)
    | .addRec (.base c1) a1 l, .addRec (.base c2) a2 l' =>
      have : l = l' := by
        simp only [Sub.loops, List.cons_append, List.nil_append] at h
        rw [count_two] at h
        by_contra hne
        rw [if_neg hne] at h; omega
      subst this
      exact Or.inl ⟨_, _, _, _, _, rfl, rfl⟩
    | .addRec (.addRec _ _ _) _ _, _ => simp [Sub.loops] at l1
    | _, .addRec (.addRec _ _ _) _ _ => simp [Sub.loops] at l2
  · rintro (⟨c1, a1, l, c2, a2, rfl, rfl⟩ | ⟨c1, a1, l, c2, rfl, rfl⟩ | ⟨c1, c2, a2, l, rfl, rfl⟩)
    · simp [Sub.loops, count]
    · simp [Sub.loops, count]
    · simp [Sub.loops, count]

/-- C78. The class `RDIV`: there are two loops, and either each of subscripts is a recurrence of one of these loops, or one
of subscripts is constant and the other one depends on both loops. -/
theorem classify_RDIV {src dst : Sub S L} (h1 : src.loops.Nodup) (h2 : dst.loops.Nodup) :
    classify src dst = .RDIV ↔
      (∃ c1 a1 l1 c2 a2 l2, l1 ≠ l2 ∧ src = .addRec (.base c1) a1 l1 ∧ dst = .addRec (.base c2) a2 l2) ∨
      (∃ c1 a1 l1 a2 l2 c2, l1 ≠ l2 ∧ src = .addRec (.addRec (.base c1) a1 l1) a2 l2 ∧ dst = .base c2) ∨
      (∃ c1 c2 a2 l2 a1 l1, l1 ≠ l2 ∧ src = .base c1 ∧ dst = .addRec (.addRec (.base c2) a2 l2) a1 l1) := by
  have hn : classify src dst = .RDIV ↔ count (src.loops ++ dst.loops) = 2 ∧
      (src.loops.length = 0 ∨ dst.loops.length = 0 ∨ (src.loops.length = 1 ∧ dst.loops.length = 1)) := by
    rw [← count_nodup h1, ← count_nodup h2]
    unfold classify
    simp only
    split
    · rename_i h; simp [h]
    · split
      · rename_i h; simp [h]
      · split
        · rename_i h; simp [h]
        · rename_i h; simp [h]
  rw [hn]
  constructor
  · rintro ⟨h, hc⟩
    have l1 := count_le (m := src.loops ++ dst.loops) h1 (fun x hx => List.mem_append_left _ hx)
    have l2 := count_le (m := src.loops ++ dst.loops) h2 (fun x hx => List.mem_append_right _ hx)
    rw [h] at l1 l2
    match src, dst with
    | .base c1, .base c2 => simp [Sub.loops, count] at h
    | .base c1, .addRec (.base c2) a2 l => simp [Sub.loops, count] at h
    | .addRec (.base c1) a1 l, .base c2 => simp [Sub.loops, count] at h
    | .addRec (.base c1) a1 l, .addRec (.base c2) a2 l' =>
      refine Or.inl ⟨_, _, _, _, _, _, ?_, rfl, rfl⟩
      rintro rfl
      simp [Sub.loops, count] at h
    | .addRec (.addRec (.base c1) a1 l1) a2 l2, .base c2 =>
      refine Or.inr (Or.inl ⟨_, _, _, _, _, _, ?_, rfl, rfl⟩)
      rintro rfl
      simp [Sub.loops] at h1
    | .base c1, .addRec (.addRec (.base c2) a2 l2) a1 l1 =>
      refine Or.inr (Or.inr ⟨_, _, _, _, _, _, ?_, rfl, rfl⟩)
      rintro rfl
      simp [Sub.loops] at h2
    | .addRec (.addRec _ _ _) _ _, .addRec _ _ _ => simp [Sub.loops] at hc
    | .addRec (.base _) _ _, .addRec (.addRec _ _ _) _ _ => simp [Sub.loops] at hc
    | .addRec (.addRec (.addRec _ _ _) _ _) _ _, .base _ => simp [Sub.loops] at l1
    | .base _, .addRec (.addRec (.addRec _ _ _) _ _) _ _ => simp [Sub.loops] at l2
  · rintro (⟨c1, a1, l1, c2, a2, l2, hne, rfl, rfl⟩ | ⟨c1, a1, l1, a2, l2, c2, hne, rfl, rfl⟩ |
      ⟨c1, c2, a2, l2, a1, l1, hne, rfl, rfl⟩)
    · refine ⟨?_, by simp [Sub.loops]⟩
      simp only [Sub.loops, List.cons_append, List.nil_append]
      rw [count_two, if_neg hne]
    · refine ⟨?_, by simp [Sub.loops]⟩
      simp only [Sub.loops, List.cons_append, List.nil_append]
      rw [count_two, if_neg (Ne.symm hne)]
    · refine ⟨?_, by simp [Sub.loops]⟩
      simp only [Sub.loops, List.nil_append]
      rw [count_two, if_neg hne]

/-- A subscript of two loops and a subscript of one of them are a `MIV` pair. -/
example : classify (.addRec (.addRec (.base 0) 1 1) 2 2 : Sub Int Nat) (.addRec (.base 0) 1 1) = .MIV ∧
    classify (.addRec (.base 0) 1 1 : Sub Int Nat) (.addRec (.base 0) 1 2) = .RDIV ∧
    classify (.addRec (.base 0) 1 1 : Sub Int Nat) (.base 4) = .SIV := by decide +kernel

end DepTest
end Tsar
