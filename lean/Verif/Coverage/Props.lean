import Mathlib.Tactic.ByContra

/-!
# Unreachable ranges according to coverage data

Models `isUnreachable` (`lib/Transform/Clang/UnreachableCodeElimination.cpp` 558-598).
-/

namespace Tsar.Coverage

/-- A line and a column. -/
structure Pos where
  line : Nat
  col : Nat
  deriving DecidableEq

/-- A segment of coverage data (`llvm::coverage::CoverageSegment`): a position where it
starts, is there a counter and the counter. -/
structure Seg where
  pos : Pos
  hasCount : Bool
  count : Nat

/-- Comparison of positions in lines 572-573, 580-581, 588-589. -/
def after (p q : Pos) : Bool := q.line < p.line || q.line == p.line && q.col < p.col

/-- Comparison of positions in lines 580-581, 588-589. -/
def notAfter (p q : Pos) : Bool := p.line < q.line || p.line == q.line && p.col ≤ q.col

/-- Search for the last segment which starts before a position (lines 575-585),
`lo` and `hi` are `BI` and `EI`. There is no result if the iterator is out of the list. -/
def search (segs : List Seg) (b : Pos) : Nat → Nat → Nat → Option Nat
  | 0, _, _ => none
  | fuel + 1, lo, hi =>
    if hi - lo = 1 then some lo else
      let half := (hi - lo) / 2
      match segs[lo + half]? with
      | none => none
      | some s =>
        if notAfter s.pos b then search segs b fuel (lo + half) hi
        else search segs b fuel lo (lo + half)

/-- Check of segments up to the end of the range (lines 586-595). The condition
`BI != EI && … || …` reads the segment at `BI` even if it is the end of the list, there
is no result in this case. -/
def scan (e : Pos) : List Seg → Option Bool
  | [] => none
  | s :: ss =>
    if notAfter s.pos e then
      if !s.hasCount || s.count ≠ 0 then some false else scan e ss
    else some true

/-- `isUnreachable` for the range `[b, e]`. There is no result if the behaviour is
undefined. -/
def isUnreachable (segs : List Seg) (b e : Pos) : Option Bool :=
  match segs with
  | [] => none
  | s :: _ =>
    if after s.pos b then some true else
      (search segs b (segs.length + 1) 0 segs.length).bind fun i => scan e (segs.drop i)

/-! ## Specification -/

/-- The order of positions in a text. -/
def Pos.le (p q : Pos) : Prop := p.line < q.line ∨ p.line = q.line ∧ p.col ≤ q.col

/-- Segments are in the order of a text. -/
def Sorted (segs : List Seg) : Prop :=
  segs.Pairwise fun s t => s.pos.le t.pos ∧ s.pos ≠ t.pos

/-- The segment which contains a position: the last one which starts before it. -/
def Active (segs : List Seg) (p : Pos) (s : Seg) : Prop :=
  s ∈ segs ∧ s.pos.le p ∧ ∀ t ∈ segs, t.pos.le p → t.pos.le s.pos

theorem notAfter_iff {p q : Pos} : notAfter p q = true ↔ p.le q := by
  simp [notAfter, Pos.le]

theorem after_iff {p q : Pos} : after p q = true ↔ ¬ p.le q := by
  simp only [after, Pos.le, Bool.or_eq_true, decide_eq_true_eq, Bool.and_eq_true, beq_iff_eq]
  omega

theorem Pos.le_trans {p q r : Pos} (h : p.le q) (h' : q.le r) : p.le r := by
  simp only [Pos.le] at *; omega

theorem Pos.le_total (p q : Pos) : p.le q ∨ q.le p := by
  simp only [Pos.le]; omega

theorem Pos.le_antisymm {p q : Pos} (h : p.le q) (h' : q.le p) : p = q := by
  cases p; cases q; simp only [Pos.le] at *; simp only [Pos.mk.injEq]; omega

theorem Pos.le_rfl {p : Pos} : p.le p := by simp [Pos.le]

/-- Search returns the last segment which starts before the position. -/
theorem search_spec {segs : List Seg} (hs : Sorted segs) {b : Pos} :
    ∀ (fuel lo hi : Nat), hi - lo < fuel → lo < hi → hi ≤ segs.length →
    (∀ s, segs[lo]? = some s → s.pos.le b) →
    (∀ (j : Nat) s, hi ≤ j → segs[j]? = some s → ¬ s.pos.le b) →
    ∃ i s, search segs b fuel lo hi = some i ∧ segs[i]? = some s ∧ s.pos.le b ∧
      ∀ (j : Nat) s, i < j → segs[j]? = some s → ¬ s.pos.le b := by
  have hmono : ∀ (i j : Nat) (s t : Seg), segs[i]? = some s → segs[j]? = some t → i ≤ j →
      s.pos.le t.pos := by
    intro i j s t h1 h2 hij
    rw [List.getElem?_eq_some_iff] at h1 h2
    obtain ⟨k1, rfl⟩ := h1
    obtain ⟨k2, rfl⟩ := h2
    rcases Nat.lt_or_eq_of_le hij with h | rfl
    · exact (List.pairwise_iff_getElem.1 hs i j k1 k2 h).1
    · exact Pos.le_rfl
  intro fuel
  induction fuel with
  | zero => intro lo hi h; omega
  | succ fuel ih =>
    intro lo hi hf hlt hle hlo hhi
    rw [search]
    by_cases h1 : hi - lo = 1
    · simp only [h1, if_true]
      have : lo < segs.length := by omega
      refine ⟨lo, segs[lo], rfl, List.getElem?_eq_getElem this,
        hlo _ (List.getElem?_eq_getElem this), ?_⟩
      intro j s hj
      exact hhi j s (by omega)
    · simp only [h1, if_false]
      have hm : lo + (hi - lo) / 2 < segs.length := by omega
      simp only [List.getElem?_eq_getElem hm]
      by_cases hc : notAfter segs[lo + (hi - lo) / 2].pos b = true
      · simp only [hc, if_true]
        refine ih _ hi (by omega) (by omega) hle ?_ hhi
        intro s hs'
        rw [List.getElem?_eq_getElem hm] at hs'
        cases hs'
        exact notAfter_iff.1 hc
      · simp only [hc]
        refine ih lo _ (by omega) (by omega) (by omega) hlo ?_
        intro j s hj hs' hp
        refine hc (notAfter_iff.2 ?_)
        exact Pos.le_trans (hmono _ _ _ _ (List.getElem?_eq_getElem hm) hs' hj) hp

theorem scan_spec {e : Pos} : ∀ {ss : List Seg}, Sorted ss →
    (∃ t ∈ ss, ¬ t.pos.le e) →
    ∃ r, scan e ss = some r ∧
      (r = true ↔ ∀ t ∈ ss, t.pos.le e → t.hasCount = true ∧ t.count = 0) := by
  intro ss
  induction ss with
  | nil => intro _ h; simp at h
  | cons s ss ih =>
    intro hs h
    rw [Sorted, List.pairwise_cons] at hs
    rw [scan]
    by_cases hc : notAfter s.pos e = true
    · simp only [hc, if_true]
      have hle := notAfter_iff.1 hc
      by_cases hz : s.hasCount = true ∧ s.count = 0
      · obtain ⟨r, h1, h2⟩ := ih hs.2 (by
          obtain ⟨t, ht, hn⟩ := h
          rcases List.mem_cons.1 ht with rfl | ht
          · exact absurd hle hn
          · exact ⟨t, ht, hn⟩)
        refine ⟨r, by simp [hz.1, hz.2, h1], h2.trans ?_⟩
        simp [hz.1, hz.2]
      · refine ⟨false, ?_, ?_⟩
        · have : (!s.hasCount || decide (s.count ≠ 0)) = true := by
            by_cases h1 : s.hasCount = true
            · have : s.count ≠ 0 := fun h2 => hz ⟨h1, h2⟩
              simp [this]
            · simp [h1]
          rw [if_pos this]
        · simp only [Bool.false_eq_true, false_iff]
          intro hall
          exact hz (hall s (by simp) hle)
    · refine ⟨true, by simp [hc], ?_⟩
      simp only [true_iff]
      intro t ht hte
      exfalso
      refine hc (notAfter_iff.2 ?_)
      rcases List.mem_cons.1 ht with rfl | ht
      · exact hte
      · exact Pos.le_trans (hs.1 t ht).1 hte

/-- A range is reported as unreachable iff the counter of each position of the range is
zero. It is assumed that there is a segment before the range and there is a segment after
the range. -/
theorem isUnreachable_partial {segs : List Seg} (hs : Sorted segs) {b e : Pos} (hbe : b.le e)
    (hb : ∃ s ∈ segs, s.pos.le b) (he : ∃ s ∈ segs, ¬ s.pos.le e) :
    ∃ r, isUnreachable segs b e = some r ∧
      (r = true ↔ ∀ p, b.le p → p.le e → ∀ s, Active segs p s →
        s.hasCount = true ∧ s.count = 0) := by
  cases segs with
  | nil => simp at hb
  | cons s0 ss =>
    have h0 : s0.pos.le b := by
      obtain ⟨s, h1, h2⟩ := hb
      rcases List.mem_cons.1 h1 with rfl | h1
      · exact h2
      · exact Pos.le_trans ((List.pairwise_cons.1 hs).1 s h1).1 h2
    obtain ⟨i, s, h1, h2, h3, h4⟩ := search_spec hs (b := b) ((s0 :: ss).length + 1) 0
      (s0 :: ss).length (by omega) (by simp) (Nat.le_refl _)
      (by intro s h; simp at h; subst h; exact h0)
      (by intro j s hj h; rw [List.getElem?_eq_none hj] at h; cases h)
    have ha : after s0.pos b = false := by
      rw [Bool.eq_false_iff]; intro h; exact after_iff.1 h h0
    have hmem : ∀ t ∈ s0 :: ss, ¬ t.pos.le b → t ∈ (s0 :: ss).drop i := by
      intro t ht hn
      obtain ⟨j, hj, rfl⟩ := List.mem_iff_getElem.1 ht
      rw [List.mem_drop_iff_getElem]
      have : i ≤ j := by
        by_contra hc
        have hi := (List.getElem?_eq_some_iff.1 h2)
        obtain ⟨hi, rfl⟩ := hi
        exact hn (Pos.le_trans ((List.pairwise_iff_getElem.1 hs j i hj hi (by omega)).1) h3)
      exact ⟨j - i, by omega, by simp [show i + (j - i) = j by omega]⟩
    have hs' : s ∈ (s0 :: ss).drop i := by
      obtain ⟨hi, rfl⟩ := List.getElem?_eq_some_iff.1 h2
      rw [List.mem_drop_iff_getElem]
      exact ⟨0, by omega, by simp⟩
    obtain ⟨r, r1, r2⟩ := scan_spec (e := e) (ss := (s0 :: ss).drop i)
      (hs.sublist (List.drop_sublist _ _)) (by
        obtain ⟨t, ht, hn⟩ := he
        exact ⟨t, hmem t ht fun h => hn (Pos.le_trans h hbe), hn⟩)
    refine ⟨r, ?_, r2.trans ?_⟩
    · simp only [isUnreachable, ha, Bool.false_eq_true, if_false]
      rw [h1]
      exact r1
    · have hactive : ∀ t ∈ s0 :: ss, t.pos.le b → t.pos.le s.pos := by
        intro t ht htb
        obtain ⟨j, hj, rfl⟩ := List.mem_iff_getElem.1 ht
        have : j ≤ i := by
          by_contra hc
          exact h4 j _ (by omega) (List.getElem?_eq_getElem hj) htb
        obtain ⟨hi, rfl⟩ := List.getElem?_eq_some_iff.1 h2
        rcases Nat.lt_or_eq_of_le this with h | rfl
        · exact (List.pairwise_iff_getElem.1 hs j i hj hi h).1
        · exact Pos.le_rfl
      constructor
      · intro hall p hp1 hp2 t ⟨ht1, ht2, ht3⟩
        have hst : s.pos.le t.pos := ht3 s (List.drop_subset _ _ hs') (Pos.le_trans h3 hp1)
        by_cases htb : t.pos.le b
        · have heq : t.pos = s.pos := Pos.le_antisymm (hactive t ht1 htb) hst
          have : t = s := by
            by_contra hne
            obtain ⟨j, hj, rfl⟩ := List.mem_iff_getElem.1 ht1
            obtain ⟨k, hk, rfl⟩ := List.mem_iff_getElem.1 (List.drop_subset _ _ hs')
            rcases Nat.lt_trichotomy j k with h | h | h
            · exact (List.pairwise_iff_getElem.1 hs j k hj hk h).2 heq
            · subst h; exact hne rfl
            · exact (List.pairwise_iff_getElem.1 hs k j hk hj h).2 heq.symm
          subst this
          exact hall t hs' (Pos.le_trans h3 hbe)
        · exact hall t (hmem t ht1 htb) (Pos.le_trans ht2 hp2)
      · intro hall t ht hte
        by_cases htb : b.le t.pos
        · exact hall t.pos htb hte t ⟨List.drop_subset _ _ ht, Pos.le_rfl, fun _ _ h => h⟩
        · have htb' : t.pos.le b := (Pos.le_total _ _).resolve_left htb
          exact hall b Pos.le_rfl hbe t ⟨List.drop_subset _ _ ht, htb', fun u hu hub => by
            have h5 := hactive u hu hub
            obtain ⟨j, hj, rfl⟩ := List.mem_iff_getElem.1 ht
            have hjl : i + j < (s0 :: ss).length := by
              rw [List.length_drop] at hj; omega
            obtain ⟨hi, hsi⟩ := List.getElem?_eq_some_iff.1 h2
            rw [List.getElem_drop]
            rcases Nat.eq_zero_or_pos j with rfl | hpos
            · simp only [Nat.add_zero]; rw [hsi]; exact h5
            · have := (List.pairwise_iff_getElem.1 hs i (i + j) hi hjl (by omega)).1
              rw [hsi] at this
              exact Pos.le_trans h5 this⟩

/-- The range from 2:1 to 3:9 of data where lines 1 and 4 are executed and lines from 2
to 3 are not; the range from 2:1 to 4:1 is reachable. -/
example : let segs := [⟨⟨1, 1⟩, true, 5⟩, ⟨⟨2, 1⟩, true, 0⟩, ⟨⟨3, 4⟩, true, 0⟩, ⟨⟨4, 1⟩, true, 5⟩]
    Sorted segs ∧ isUnreachable segs ⟨2, 1⟩ ⟨3, 9⟩ = some true ∧
      isUnreachable segs ⟨2, 1⟩ ⟨4, 1⟩ = some false := by
  refine ⟨?_, by decide, by decide⟩
  simp [Sorted, Pos.le]

/-- If a range contains the last segment then the end of the list is read as a
segment. -/
theorem isUnreachable_end_fails :
    isUnreachable [⟨⟨1, 1⟩, true, 5⟩, ⟨⟨2, 1⟩, true, 0⟩] ⟨2, 1⟩ ⟨3, 1⟩ = none ∧
      isUnreachable [] ⟨2, 1⟩ ⟨3, 1⟩ = none := by decide

/-- A range which starts before the first segment is reported as unreachable even if it
contains executed positions. -/
theorem isUnreachable_begin_fails :
    let segs : List Seg := [⟨⟨2, 1⟩, true, 5⟩, ⟨⟨9, 1⟩, true, 0⟩]
    isUnreachable segs ⟨1, 1⟩ ⟨3, 1⟩ = some true ∧ Active segs ⟨2, 1⟩ ⟨⟨2, 1⟩, true, 5⟩ := by
  refine ⟨by decide, ?_⟩
  simp [Active, Pos.le]

end Tsar.Coverage
