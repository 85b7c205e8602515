import Mathlib.Data.List.Infix
import Mathlib.Tactic.Ring
/-!
# Numbering of loops

`lib/Analysis/Memory/DependenceAnalysis.cpp`: `establishNestingLevels`, `mapSrcLoop`, `mapDstLoop`.

Loops of a function form a forest (`llvm::LoopInfo`).  A loop is represented by the list of headers of
loops which contain it, from the loop itself to the outermost one; the empty list is "no loop" (the
null pointer).
-/

namespace Tsar.DepTest

/-- A loop of the forest, or the null pointer. -/
abbrev LoopPath := List Nat

/-- `Loop::getParentLoop`, and the null pointer for an outermost loop. -/
abbrev parentLoop (l : LoopPath) : LoopPath := l.tail

/-- `Loop::getLoopDepth`, `LoopInfo::getLoopDepth`. -/
abbrev loopDepth (l : LoopPath) : Nat := l.length

/-- The loops at DependenceAnalysis.cpp:796-803: `n` steps to the parent. -/
def ascend : Nat → LoopPath → LoopPath
  | 0, l => l
  | n + 1, l => ascend n (parentLoop l)

/-- The loop at DependenceAnalysis.cpp:804-808: the result is `SrcLevel`.  Two loops have the same
depth `level`. -/
def commonLevel : Nat → LoopPath → LoopPath → Nat
  | 0, _, _ => 0
  | n + 1, s, d => if s = d then n + 1 else commonLevel n (parentLoop s) (parentLoop d)

/-- `SrcLevels`, `CommonLevels` and `MaxLevels`. -/
structure LevelNums where
  src : Nat
  common : Nat
  max : Nat
  deriving DecidableEq

/-- `establishNestingLevels`, DependenceAnalysis.cpp:785-811. -/
def establishLevels (s d : LoopPath) : LevelNums :=
  let sl := loopDepth s
  let dl := loopDepth d
  let s' := ascend (sl - dl) s
  let d' := ascend (dl - sl) d
  let c := commonLevel (min sl dl) s' d'
  ⟨sl, c, sl + dl - c⟩

/-- `mapSrcLoop`, DependenceAnalysis.cpp:816-818. -/
def mapSrcLoop (l : LoopPath) : Nat := loopDepth l

/-- `mapDstLoop`, DependenceAnalysis.cpp:823-829. -/
def mapDstLoop (n : LevelNums) (l : LoopPath) : Nat :=
  if loopDepth l > n.common then loopDepth l - n.common + n.src else loopDepth l

/-! ## Specification -/

/-- A loop contains the place which is directly in the loop `s`. -/
def Contains (l s : LoopPath) : Prop := l ≠ [] ∧ l <:+ s

/-! ## Proofs -/

theorem ascend_eq (n : Nat) : ∀ l : LoopPath, ascend n l = l.drop n := by
  induction n with
  | zero => intro l; rfl
  | succ n ih => intro l; rw [ascend, ih, parentLoop, List.drop_tail]

theorem suffix_length_inj {a b l : LoopPath} (ha : a <:+ l) (hb : b <:+ l)
    (h : a.length = b.length) : a = b := by
  rw [List.suffix_iff_eq_drop.1 ha, List.suffix_iff_eq_drop.1 hb, h]

/-- The result is the depth of the innermost common loop. -/
theorem commonLevel_spec (n : Nat) : ∀ (s d : LoopPath), s.length = n → d.length = n →
    ∃ p : LoopPath, p.length = commonLevel n s d ∧ p <:+ s ∧ p <:+ d ∧
      ∀ l : LoopPath, l <:+ s → l <:+ d → l <:+ p := by
  induction n with
  | zero =>
    intro s d hs hd
    refine ⟨[], rfl, List.nil_suffix, List.nil_suffix, fun l hl _ => ?_⟩
    rw [List.length_eq_zero_iff] at hs
    rw [hs] at hl; exact hl
  | succ n ih =>
    intro s d hs hd
    unfold commonLevel
    split
    · rename_i he
      subst he
      exact ⟨s, hs, List.suffix_rfl, List.suffix_rfl, fun l hl _ => hl⟩
    · rename_i hne
      obtain ⟨p, h1, h2, h3, h4⟩ := ih (parentLoop s) (parentLoop d)
        (by simp [parentLoop, hs]) (by simp [parentLoop, hd])
      refine ⟨p, h1, h2.trans (List.tail_suffix s), h3.trans (List.tail_suffix d), fun l hl hl' => ?_⟩
      have key : ∀ x : LoopPath, x.length = n + 1 → l <:+ x → l ≠ x → l <:+ parentLoop x := by
        intro x hx hlx hlne
        cases x with
        | nil => simp at hx
        | cons a x => exact (List.suffix_cons_iff.1 hlx).resolve_left hlne
      have hls : l ≠ s := by
        rintro rfl
        exact hne (hl'.eq_of_length (hs.trans hd.symm))
      have hld : l ≠ d := by
        rintro rfl
        exact hne (hl.eq_of_length (hd.trans hs.symm)).symm
      exact h4 l (key s hs hl hls) (key d hd hl' hld)

/-- `CommonLevels` is the depth of the innermost loop which contains both places (zero if there is no
such loop). -/
theorem establishLevels_spec (s d : LoopPath) :
    ∃ p : LoopPath, p.length = (establishLevels s d).common ∧ p <:+ s ∧ p <:+ d ∧
      ∀ l : LoopPath, l <:+ s → l <:+ d → l <:+ p := by
  have hlen : ∀ (x : LoopPath) (m : Nat), (x.drop (x.length - m)).length = min x.length m := by
    intro x m; rw [List.length_drop]; omega
  obtain ⟨p, h1, h2, h3, h4⟩ := commonLevel_spec (min s.length d.length)
    (s.drop (s.length - d.length)) (d.drop (d.length - s.length)) (hlen ..)
    (by rw [hlen, Nat.min_comm])
  refine ⟨p, ?_, h2.trans (List.drop_suffix ..), h3.trans (List.drop_suffix ..), fun l hl hl' => ?_⟩
  · rw [h1]; simp only [establishLevels, loopDepth, ascend_eq]
  · have key : ∀ x m, l <:+ x → l.length ≤ m → l <:+ x.drop (x.length - m) := by
      intro x m hx hm
      refine List.suffix_of_suffix_length_le hx (List.drop_suffix ..) ?_
      rw [hlen]
      exact le_min hx.length_le hm
    exact h4 l (key s _ hl hl'.length_le) (key d _ hl' hl.length_le)

theorem common_le (s d : LoopPath) :
    (establishLevels s d).common ≤ s.length ∧ (establishLevels s d).common ≤ d.length := by
  obtain ⟨p, h1, h2, h3, -⟩ := establishLevels_spec s d
  rw [← h1]
  exact ⟨h2.length_le, h3.length_le⟩

/-- A loop which contains the destination contains the source as well if and only if its depth is
not greater than `CommonLevels`. -/
theorem depth_le_common {s d l : LoopPath} (hl : l <:+ d) :
    l.length ≤ (establishLevels s d).common ↔ l <:+ s := by
  obtain ⟨p, h1, h2, h3, h4⟩ := establishLevels_spec s d
  rw [← h1]
  constructor
  · intro h
    exact (List.suffix_of_suffix_length_le hl h3 h).trans h2
  · intro h; exact (h4 l h hl).length_le

theorem depth_le_common' {s d l : LoopPath} (hl : l <:+ s) :
    l.length ≤ (establishLevels s d).common ↔ l <:+ d := by
  obtain ⟨p, h1, h2, h3, h4⟩ := establishLevels_spec s d
  rw [← h1]
  constructor
  · intro h
    exact (List.suffix_of_suffix_length_le hl h2 h).trans h3
  · intro h; exact (h4 l hl h).length_le

/-- Levels of loops of the source and of the destination are equal only for the same loop. -/
theorem levels_inj {s d l l' : LoopPath} (hl : Contains l s) (hl' : Contains l' d) :
    mapSrcLoop l = mapDstLoop (establishLevels s d) l' ↔ l = l' := by
  have hls := hl.2.length_le
  have hc := common_le s d
  simp only [mapSrcLoop, mapDstLoop, loopDepth]
  have hsrc : (establishLevels s d).src = s.length := rfl
  constructor
  · intro h
    split at h
    · omega
    · rename_i hle
      have h1 := (depth_le_common (s := s) hl'.2).1 (by omega)
      exact suffix_length_inj hl.2 h1 h
  · rintro rfl
    rw [if_neg]
    have := (depth_le_common' hl.2).2 hl'.2
    omega

/-- Different loops of the source have different levels. -/
theorem srcLevels_inj {s l l' : LoopPath} (hl : Contains l s) (hl' : Contains l' s) :
    mapSrcLoop l = mapSrcLoop l' ↔ l = l' :=
  ⟨suffix_length_inj hl.2 hl'.2, fun h => by rw [h]⟩

/-- Different loops of the destination have different levels. -/
theorem dstLevels_inj {s d l l' : LoopPath} (hl : Contains l d) (hl' : Contains l' d) :
    mapDstLoop (establishLevels s d) l = mapDstLoop (establishLevels s d) l' ↔ l = l' := by
  refine ⟨fun h => suffix_length_inj hl.2 hl'.2 ?_, fun h => by rw [h]⟩
  have hc := common_le s d
  have hsrc : (establishLevels s d).src = s.length := rfl
  simp only [mapDstLoop, loopDepth] at h
  split at h <;> split at h <;> omega

/-- The levels are the numbers from one to `MaxLevels`: every loop has a level, and every number is
the level of a loop. -/
theorem levels_range (s d : LoopPath) (n : Nat) :
    (1 ≤ n ∧ n ≤ (establishLevels s d).max) ↔
      (∃ l, Contains l s ∧ mapSrcLoop l = n) ∨
      ∃ l, Contains l d ∧ mapDstLoop (establishLevels s d) l = n := by
  have hc := common_le s d
  have hsrc : (establishLevels s d).src = s.length := rfl
  have hmax : (establishLevels s d).max = s.length + d.length - (establishLevels s d).common := rfl
  constructor
  · rintro ⟨h1, h2⟩
    have ex : ∀ (x : LoopPath) (k : Nat), 1 ≤ k → k ≤ x.length → ∃ l, Contains l x ∧ l.length = k := by
      intro x k hk hk'
      have hlen : (x.drop (x.length - k)).length = k := by rw [List.length_drop]; omega
      exact ⟨x.drop (x.length - k), ⟨fun h => by rw [h] at hlen; simp at hlen; omega,
        List.drop_suffix ..⟩, hlen⟩
    by_cases hn : n ≤ s.length
    · obtain ⟨l, g1, g2⟩ := ex s n h1 hn
      exact .inl ⟨l, g1, g2⟩
    · obtain ⟨l, g1, g2⟩ := ex d (n - s.length + (establishLevels s d).common) (by omega) (by omega)
      refine .inr ⟨l, g1, ?_⟩
      simp only [mapDstLoop, loopDepth, g2, hsrc]
      rw [if_pos (by omega)]
      omega
  · have pos : ∀ {l x : LoopPath}, Contains l x → 1 ≤ l.length := fun h =>
      List.length_pos_iff.2 h.1
    rintro (⟨l, g1, rfl⟩ | ⟨l, g1, rfl⟩)
    · have := pos g1
      have := g1.2.length_le
      simp only [mapSrcLoop, loopDepth]
      omega
    · have := pos g1
      have := g1.2.length_le
      simp only [mapDstLoop, loopDepth, hsrc]
      split <;> omega

/-- Levels up to `CommonLevels` are the levels of loops which contain both places. -/
theorem level_common {s d l : LoopPath} :
    (Contains l s → (mapSrcLoop l ≤ (establishLevels s d).common ↔ Contains l d)) ∧
    (Contains l d → (mapDstLoop (establishLevels s d) l ≤ (establishLevels s d).common ↔
      Contains l s)) := by
  have hc := common_le s d
  have hsrc : (establishLevels s d).src = s.length := rfl
  refine ⟨fun h => ?_, fun h => ?_⟩
  · simp only [mapSrcLoop, loopDepth, depth_le_common' h.2, Contains]
    exact ⟨fun h' => ⟨h.1, h'⟩, fun h' => h'.2⟩
  · have h1 := depth_le_common (s := s) h.2
    simp only [mapDstLoop, loopDepth, hsrc, Contains]
    split
    · constructor
      · intro h'; omega
      · intro h'; have := h1.2 h'.2; omega
    · rw [h1]; exact ⟨fun h' => ⟨h.1, h'⟩, fun h' => h'.2⟩

/-- The example from the comment at DependenceAnalysis.cpp:759-784: loops a, b are common, c, d contain
the source, e, f, g contain the destination. -/
example : establishLevels [3, 2, 1, 0] [6, 5, 4, 1, 0] = ⟨4, 2, 7⟩ ∧
    Contains [2, 1, 0] [3, 2, 1, 0] ∧ mapSrcLoop [2, 1, 0] = 3 ∧
    Contains [5, 4, 1, 0] [6, 5, 4, 1, 0] ∧ mapDstLoop ⟨4, 2, 7⟩ [5, 4, 1, 0] = 6 := by
  refine ⟨by decide, ⟨by decide, ⟨[3], rfl⟩⟩, rfl, ⟨by decide, ⟨[6], rfl⟩⟩, rfl⟩

end Tsar.DepTest
