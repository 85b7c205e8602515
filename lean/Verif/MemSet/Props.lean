import Verif.MemSet.Query
import Mathlib.Data.List.Perm.Subperm

/-!
# Properties of sets of memory locations (C06-C10)
-/

namespace Tsar.MemSet

open Tsar.Range

/-- An object which is accessed as `int A[10][20]` (4 bytes in an element). -/
def objA : Obj := ⟨4, [10, 20]⟩

/-- Bytes `[lo, up)` of the object with pointer 1. -/
def bytes (lo up : Nat) : Loc := ⟨some 1, some lo, some up, [], Kind.default⟩

/-- A part of the array `A[10][20]` with pointer 1. -/
def part (d1 d2 : Nat × Nat × Nat) : Loc :=
  ⟨some 1, some 0, some 4, [⟨d1.1, d1.2.1, d1.2.2, 10⟩, ⟨d2.1, d2.2.1, d2.2.2, 20⟩], Kind.coll⟩

theorem bytes_wf {lo up : Nat} (h : up ≤ 800) : WfLoc objA (bytes lo up) := by
  refine ⟨by simp [bytes], Or.inl ⟨rfl, rfl, ⟨lo, rfl⟩, ?_⟩⟩
  intro u hu
  simp only [bytes, Option.some.injEq] at hu
  subst hu
  exact Or.inr ⟨by omega, by decide, by decide, Or.inr (by simpa [objA] using h)⟩

/-! ## C06 -/

/-- C06. If locations are joinable then the result of `join` consists of exactly bytes of both
locations, for byte ranges (maybe with unknown upper bounds) and for array ranges with any
number of dimensions. -/
theorem join_exact (o : Obj) (tgt what : Loc) (ht : WfLoc o tgt) (hw : WfLoc o what)
    (hj : areJoinable tgt what = true) (b : Nat) :
    Reach (join what tgt) b ↔ Reach tgt b ∨ Reach what b :=
  (join_spec ht hw hj).2.2 b

/-- Non-vacuity: rows 0, 2, 4 and rows 6, 8 of the array. -/
example : WfLoc objA (part (0, 2, 3) (0, 1, 5)) ∧ WfLoc objA (part (6, 2, 2) (0, 1, 5)) ∧
    areJoinable (part (0, 2, 3) (0, 1, 5)) (part (6, 2, 2) (0, 1, 5)) = true ∧
    join (part (6, 2, 2) (0, 1, 5)) (part (0, 2, 3) (0, 1, 5)) = part (0, 2, 5) (0, 1, 5) := by
  refine ⟨⟨by decide, Or.inr ⟨⟨rfl, rfl, rfl, by decide, by decide, ?_, ?_⟩, rfl⟩⟩,
    ⟨by decide, Or.inr ⟨⟨rfl, rfl, rfl, by decide, by decide, ?_, ?_⟩, rfl⟩⟩, by decide, by decide⟩
  all_goals simp [part, Dim.Wf, Dim.last]

/-- C06 does not hold for views of the same memory with different shapes: sizes of dimensions
are not compared if dimensions are different. The second row of `A[10][30]` is lost. -/
theorem join_shape_mismatch_fails :
    ¬ ∀ (e : Nat) (tgt what : Loc), tgt.IsArray e → what.IsArray e → tgt.ptr = what.ptr →
      areJoinable tgt what = true → ∀ b, Reach (join what tgt) b ↔ Reach tgt b ∨ Reach what b := by
  intro h
  have := h 4 ⟨some 1, some 0, some 4, [⟨0, 1, 2, 10⟩, ⟨0, 1, 5, 20⟩], Kind.coll⟩
    ⟨some 1, some 0, some 4, [⟨0, 1, 2, 10⟩, ⟨0, 1, 5, 30⟩], Kind.coll⟩
    ⟨rfl, rfl, rfl, by decide, by decide, by simp [Dim.Wf], by simp [Dim.last]⟩
    ⟨rfl, rfl, rfl, by decide, by decide, by simp [Dim.Wf], by simp [Dim.last]⟩ rfl (by decide) 120
  have h2 := this.2 (Or.inr ⟨[1, 0], ⟨⟨1, by decide, rfl⟩, ⟨0, by decide, rfl⟩, trivial⟩, 0,
    by decide, rfl⟩)
  have h3 : ∃ v, DimsMem [⟨0, 1, 2, 10⟩, ⟨0, 1, 5, 20⟩] v ∧ ∃ o, o < 4 ∧
    120 = linear [⟨0, 1, 2, 10⟩, ⟨0, 1, 5, 20⟩] v * 4 + o := h2
  obtain ⟨v, hv, o, ho, he⟩ := h3
  match v, hv with
  | [i, j], ⟨⟨k, hk, hi⟩, ⟨m, hm, hj⟩, _⟩ =>
    simp only at hk hi hm hj
    simp [linear] at he
    omega

/-! ## C07 -/

/-- C07. After any sequence of insertions to the empty set, the set consists of exactly the bytes
of inserted locations, and it is well-formed. -/
theorem insertions_exact (ob : Option Nat → Obj) (ls : List Loc)
    (h : ∀ l ∈ ls, WfLoc (ob l.ptr) l) :
    SetWf ob (insertAll [] ls).1 ∧
    ∀ p b, SetByte (insertAll [] ls).1 p b ↔ ListByte ls p b := by
  obtain ⟨h1, h2, _⟩ := insertAll_spec (setWf_nil ob) h
  exact ⟨h1, fun p b => by rw [h2]; simp [setByte_nil]⟩

/-- C07. A single insertion to any well-formed set adds exactly the bytes of the location; the
result is 'false' iff nothing was changed. -/
theorem insert_exact (ob : Option Nat → Obj) (s : MSet) (loc : Loc) (h : SetWf ob s)
    (hl : WfLoc (ob loc.ptr) loc) :
    SetWf ob (insert s loc).1 ∧
    (∀ p b, SetByte (insert s loc).1 p b ↔ SetByte s p b ∨ (p = loc.ptr ∧ Reach loc b)) ∧
    ((insert s loc).2 = false ↔ (insert s loc).1 = s) := insert_spec h hl

/-- C07. If the result of an insertion is 'false' then all bytes of the location already belong
to the set. -/
theorem insert_false_contained (ob : Option Nat → Obj) (s : MSet) (loc : Loc) (h : SetWf ob s)
    (hl : WfLoc (ob loc.ptr) loc) (hf : (insert s loc).2 = false) (b : Nat) (hb : Reach loc b) :
    SetByte s loc.ptr b := by
  obtain ⟨_, h2, h3⟩ := insert_spec h hl
  rw [← h3.1 hf]
  exact (h2 _ _).2 (Or.inr ⟨rfl, hb⟩)

/-- Non-vacuity. -/
example : (∀ l ∈ [bytes 0 4, bytes 8 12, bytes 4 8, bytes 100 104], WfLoc objA l) ∧
    (insertAll [] [bytes 0 4, bytes 8 12, bytes 4 8, bytes 100 104]).1 =
      [(some 1, [bytes 0 8, bytes 8 12, bytes 100 104])] := by
  refine ⟨?_, by decide⟩
  intro l hl
  simp only [List.mem_cons, List.not_mem_nil, or_false] at hl
  rcases hl with rfl | rfl | rfl | rfl <;> exact bytes_wf (by omega)

/-! ## C08 -/

/-- C08. If `contain` is true then every byte of the location belongs to the set. -/
theorem contain_sound (ob : Option Nat → Obj) (S : Solver) (hS : SolverOK S) (s : MSet) (loc : Loc)
    (h : SetWf ob s) (hl : WfLoc (ob loc.ptr) loc) (hc : contain S s loc = true) (b : Nat)
    (hb : Reach loc b) : SetByte s loc.ptr b := by
  unfold contain at hc
  split at hc
  · obtain ⟨_, h2, _⟩ := tailsOf_spec (o := ob loc.ptr) hS (p := loc.ptr)
      (cs := locs s loc.ptr) (tails := [loc]) (fun c hc => locs_wf h hc)
      (fun t ht => by simp only [List.mem_singleton] at ht; subst ht; exact ⟨rfl, hl⟩)
    rcases h2 b ⟨loc, by simp, hb⟩ with ⟨t, ht, _⟩ | h3
    · rw [List.isEmpty_iff.1 hc] at ht; simp at ht
    · exact (setByte_iff h).2 h3
  · simp at hc

/-- C08. If `overlap` is false then no byte of the location belongs to the set. -/
theorem overlap_sound (ob : Option Nat → Obj) (S : Solver) (hS : SolverOK S) (s : MSet) (loc : Loc)
    (h : SetWf ob s) (hl : WfLoc (ob loc.ptr) loc) (hc : overlap S s loc = false) (b : Nat)
    (hb : Reach loc b) : ¬ SetByte s loc.ptr b := by
  rw [setByte_iff h]
  rintro ⟨c, hcm, hr⟩
  unfold overlap at hc
  have := List.any_eq_false.1 hc c hcm
  simp only [ne_eq, decide_not, Bool.not_eq_true', decide_eq_false_iff_not, not_not] at this
  have hcw := locs_wf h hcm
  exact (interOK hS hcw.1 hcw.2 hl).none this b ⟨hr, hb⟩

/-- C08. For byte ranges with known bounds both queries are exact. -/
theorem contain_exact_bytes (ob : Option Nat → Obj) (S : Solver) (hS : SolverOK S) (s : MSet)
    (loc : Loc) (h : SetWf ob s) (hl : WfLoc (ob loc.ptr) loc) (hsolid : Solid loc)
    (hsc : ∀ c ∈ locs s loc.ptr, c.IsScalar) :
    contain S s loc = true ↔ ∀ b, Reach loc b → SetByte s loc.ptr b := by
  constructor
  · exact fun hc b hb => contain_sound ob S hS s loc h hl hc b hb
  · intro hall
    obtain ⟨hk, hd, lo, up, hlo, hup, hlt⟩ := hsolid
    have hsome := hall lo (by simp [Reach, hk, hlo, hup]; omega)
    obtain ⟨c, hcm, _⟩ := (setByte_iff h).1 hsome
    unfold contain
    rw [if_pos (any_of_locs hcm), List.isEmpty_iff]
    obtain ⟨h1, h2⟩ := tailsOf_solid (S := S) hl.1 (cs := locs s loc.ptr) (tails := [loc])
      (fun c hc => ⟨(locs_wf h hc).1, (hsc c hc).1, hsc c hc⟩)
      (fun t ht => by
        simp only [List.mem_singleton] at ht; subst ht
        exact ⟨rfl, hk, hd, lo, up, hlo, hup, hlt⟩)
    cases ht : tailsOf S (locs s loc.ptr) [loc] with
    | nil => rfl
    | cons t ts =>
      exfalso
      have htm : t ∈ tailsOf S (locs s loc.ptr) [loc] := by rw [ht]; simp
      obtain ⟨_, tk, td, tlo, tup, htlo, htup, htlt⟩ := h1 t htm
      have hr : Reach t tlo := by simp [Reach, tk, htlo, htup]; omega
      obtain ⟨⟨t', ht', hr'⟩, hn⟩ := (h2 tlo).1 ⟨t, htm, hr⟩
      simp only [List.mem_singleton] at ht'
      subst ht'
      exact hn ((setByte_iff h).1 (hall tlo hr'))

/-- C08. Locations found by `findCoveredBy` are parts of the location and of the set; if nothing
is covered then there are no common bytes. -/
theorem findCoveredBy_sound (ob : Option Nat → Obj) (S : Solver) (hS : SolverOK S) (s : MSet)
    (loc : Loc) (h : SetWf ob s) (hl : WfLoc (ob loc.ptr) loc) :
    (∀ b, ListByte (coveredBy S s loc) loc.ptr b → SetByte s loc.ptr b ∧ Reach loc b) ∧
    (cover S s loc = false → ∀ b, ¬ (SetByte s loc.ptr b ∧ Reach loc b)) := by
  constructor
  · rintro b ⟨m, hm, _, hr⟩
    exact (coveredBy_spec hS h hl).2 b ⟨m, hm, hr⟩
  · intro hc b hb
    exact overlap_sound ob S hS s loc h hl hc b hb.2 hb.1

/-- C08. The result of `subtractFrom` consists of bytes of the location and contains all bytes
which are not in the set. -/
theorem subtractFrom_sound (ob : Option Nat → Obj) (S : Solver) (hS : SolverOK S) (s : MSet)
    (loc : Loc) (h : SetWf ob s) (hl : WfLoc (ob loc.ptr) loc) (ls : List Loc)
    (hr : (subtractFrom S s loc).2 = some ls) (b : Nat) :
    (ListByte ls loc.ptr b → Reach loc b) ∧
    (Reach loc b → ¬ SetByte s loc.ptr b → ListByte ls loc.ptr b) := by
  unfold subtractFrom at hr
  split at hr
  · obtain rfl := Option.some.inj hr
    obtain ⟨h1, h2, h3⟩ := tailsOf_spec (o := ob loc.ptr) hS (p := loc.ptr)
      (cs := locs s loc.ptr) (tails := [loc]) (fun c hc => locs_wf h hc)
      (fun t ht => by simp only [List.mem_singleton] at ht; subst ht; exact ⟨rfl, hl⟩)
    constructor
    · rintro ⟨t, ht, _, hr⟩
      obtain ⟨t', ht', hr'⟩ := h3 b ⟨t, ht, hr⟩
      simp only [List.mem_singleton] at ht'
      subst ht'
      exact hr'
    · intro hb hn
      rcases h2 b ⟨loc, by simp, hb⟩ with ⟨t, ht, hr⟩ | h4
      · exact ⟨t, ht, (h1 t ht).1, hr⟩
      · exact absurd ((setByte_iff h).2 h4) hn
  · simp at hr

/-- C08. For byte ranges `subtractFrom` is exact. -/
theorem subtractFrom_exact_bytes (ob : Option Nat → Obj) (S : Solver) (s : MSet)
    (loc : Loc) (h : SetWf ob s) (hl : WfLoc (ob loc.ptr) loc) (hsolid : Solid loc)
    (hsc : ∀ c ∈ locs s loc.ptr, c.IsScalar) (ls : List Loc)
    (hr : (subtractFrom S s loc).2 = some ls) (b : Nat) :
    ListByte ls loc.ptr b ↔ Reach loc b ∧ ¬ SetByte s loc.ptr b := by
  unfold subtractFrom at hr
  split at hr
  · obtain rfl := Option.some.inj hr
    obtain ⟨h1, h2⟩ := tailsOf_solid (S := S) hl.1 (cs := locs s loc.ptr) (tails := [loc])
      (fun c hc => ⟨(locs_wf h hc).1, (hsc c hc).1, hsc c hc⟩)
      (fun t ht => by simp only [List.mem_singleton] at ht; subst ht; exact ⟨rfl, hsolid⟩)
    have := h2 b
    rw [setByte_iff h]
    simp only [List.mem_singleton, exists_eq_left] at this
    rw [← this]
    constructor
    · rintro ⟨t, ht, _, hr⟩; exact ⟨t, ht, hr⟩
    · rintro ⟨t, ht, hr⟩; exact ⟨t, ht, (h1 t ht).1, hr⟩
  · simp at hr

/-- C08. Locations kept by `difference` have no common bytes with the set. -/
theorem difference_sound (ob : Option Nat → Obj) (S : Solver) (hS : SolverOK S) (s : MSet)
    (ls : List Loc) (h : SetWf ob s) (hls : ∀ l ∈ ls, WfLoc (ob l.ptr) l) (l : Loc)
    (hl : l ∈ difference S ls s) : l ∈ ls ∧ ∀ b, Reach l b → ¬ SetByte s l.ptr b := by
  unfold difference at hl
  split at hl
  · rename_i hs
    subst hs
    exact ⟨hl, fun b _ => setByte_nil⟩
  · simp only [List.mem_filter, Bool.not_eq_true'] at hl
    exact ⟨hl.1, fun b hb => overlap_sound ob S hS s l h (hls l hl.1) hl.2 b hb⟩

/-- C08. For non-empty byte ranges `overlap` is exact: it is true iff there is a common byte. -/
theorem overlap_exact_bytes (ob : Option Nat → Obj) (S : Solver) (hS : SolverOK S) (s : MSet)
    (loc : Loc) (h : SetWf ob s) (hl : WfLoc (ob loc.ptr) loc) (hsolid : Solid loc)
    (hsc : ∀ c ∈ locs s loc.ptr, Solid c) :
    overlap S s loc = true ↔ ∃ b, Reach loc b ∧ SetByte s loc.ptr b := by
  constructor
  · intro ho
    unfold overlap at ho
    obtain ⟨c, hc, hx⟩ := List.any_eq_true.1 ho
    have hcw := locs_wf h hc
    obtain ⟨ck, _, cl, cu, hcl, hcu, hclt⟩ := hsc c hc
    obtain ⟨lk, _, ll, lu, hll, hlu, hllt⟩ := hsolid
    rw [intersect_scalars hcw.1 (by rw [hcw.1]; exact hl.1) ck lk] at hx
    simp only [intersectScalar, hcw.1, ne_eq, not_true, if_false, ck, lk, hcl, hcu, hll, hlu,
      Bool.false_eq_true, or_self] at hx
    by_cases hcond : cu > ll ∧ cl < lu
    · refine ⟨max cl ll, ?_, (setByte_iff h).2 ⟨c, hc, ?_⟩⟩
      · simp [Reach, lk, hll, hlu]; omega
      · simp [Reach, ck, hcl, hcu]; omega
    · rw [if_neg hcond] at hx
      simp at hx
  · rintro ⟨b, hb, hs⟩
    by_contra hne
    exact overlap_sound ob S hS s loc h hl (by simpa using hne) b hb hs

/-- C08. `difference` drops only locations which have common bytes with the set (byte ranges). -/
theorem difference_exact_bytes (ob : Option Nat → Obj) (S : Solver) (hS : SolverOK S) (s : MSet)
    (ls : List Loc) (h : SetWf ob s) (hls : ∀ l ∈ ls, WfLoc (ob l.ptr) l ∧ Solid l)
    (hsc : ∀ p, ∀ c ∈ locs s p, Solid c) (l : Loc) :
    l ∈ difference S ls s ↔ l ∈ ls ∧ ∀ b, Reach l b → ¬ SetByte s l.ptr b := by
  refine ⟨difference_sound ob S hS s ls h (fun l hl => (hls l hl).1) l, ?_⟩
  rintro ⟨hl, hd⟩
  unfold difference
  split
  · exact hl
  · refine List.mem_filter.2 ⟨hl, ?_⟩
    by_contra hne
    obtain ⟨b, hb, hs⟩ := (overlap_exact_bytes ob S hS s l h (hls l hl).1 (hls l hl).2
      (hsc l.ptr)).1 (by simpa using hne)
    exact hd b hb hs

/-- Non-vacuity: bytes `[2, 10)` are contained in `{[0, 8), [8, 12)}`. -/
example : contain refSolver (insertAll [] [bytes 0 4, bytes 8 12, bytes 4 8]).1 (bytes 2 10) = true ∧
    contain refSolver (insertAll [] [bytes 0 4, bytes 8 12]).1 (bytes 2 10) = false ∧
    overlap refSolver (insertAll [] [bytes 0 4, bytes 8 12]).1 (bytes 4 8) = false ∧
    Solid (bytes 2 10) ∧ SetWf (fun _ => objA) (insertAll [] [bytes 0 4, bytes 8 12, bytes 4 8]).1 := by
  refine ⟨by decide, by decide, by decide, ⟨rfl, rfl, 2, 10, rfl, rfl, by omega⟩, ?_⟩
  apply (insertions_exact _ _ ?_).1
  intro l hl
  simp only [List.mem_cons, List.not_mem_nil, or_false] at hl
  rcases hl with rfl | rfl | rfl <;> exact bytes_wf (by omega)

/-! ## C09 -/

/-- C09 is false for array ranges: lists are normalized by bounds only (bounds of array ranges
are always `[0, size of an element)`), so all array ranges but the first one are ignored. -/
theorem eqSet_arrays_fails :
    ¬ ∀ (ob : Option Nat → Obj) (s t : MSet), SetWf ob s → SetWf ob t → eqSet s t = true →
      ∀ p b, SetByte s p b ↔ SetByte t p b := by
  intro h
  have wf : ∀ a c e, c ≤ 5 → e + a ≤ 10 → 0 < c → 0 < a → WfLoc objA (part (e, 1, a) (0, 1, c)) := by
    intro a c e hc he hc0 ha0
    refine ⟨by simp [part], Or.inr ⟨⟨rfl, rfl, rfl, by decide, by simp [part], ?_, ?_⟩, rfl⟩⟩
    · simp [part, Dim.Wf]; omega
    · simp [part, Dim.last]; omega
  have hs : ∀ e, e + 1 ≤ 10 → SetWf (fun _ => objA)
      [(some 1, [part (0, 1, 1) (0, 1, 5), part (e, 1, 1) (0, 1, 5)])] := by
    intro e he
    refine ⟨by simp, ?_⟩
    intro x hx
    simp only [List.mem_singleton] at hx
    subst hx
    refine ⟨by simp, ?_⟩
    intro l hl
    simp only [List.mem_cons, List.not_mem_nil, or_false] at hl
    rcases hl with rfl | rfl
    · exact ⟨rfl, wf _ _ _ (by omega) (by omega) (by omega) (by omega)⟩
    · exact ⟨rfl, wf _ _ _ (by omega) (by omega) (by omega) (by omega)⟩
  have := (h (fun _ => objA) _ _ (hs 3 (by omega)) (hs 7 (by omega)) (by decide) (some 1) 240).1
    ⟨_, List.mem_singleton.2 rfl, part (3, 1, 1) (0, 1, 5), by simp, rfl,
      ⟨[3, 0], ⟨⟨0, by decide, rfl⟩, ⟨0, by decide, rfl⟩, trivial⟩, 0, by decide, rfl⟩⟩
  obtain ⟨e, he, l, hl, _, hr⟩ := this
  simp only [List.mem_singleton] at he
  subst he
  simp only [List.mem_cons, List.not_mem_nil, or_false] at hl
  rcases hl with rfl | rfl
  · have h3 : ∃ v, DimsMem [⟨0, 1, 1, 10⟩, ⟨0, 1, 5, 20⟩] v ∧ ∃ o, o < 4 ∧
        240 = linear [⟨0, 1, 1, 10⟩, ⟨0, 1, 5, 20⟩] v * 4 + o := hr
    obtain ⟨v, hv, o, ho, he⟩ := h3
    match v, hv with
    | [i, j], ⟨⟨k, hk, hi⟩, ⟨m, hm, hj⟩, _⟩ =>
      simp only at hk hi hm hj
      simp [linear] at he
      omega
  · have h3 : ∃ v, DimsMem [⟨7, 1, 1, 10⟩, ⟨0, 1, 5, 20⟩] v ∧ ∃ o, o < 4 ∧
        240 = linear [⟨7, 1, 1, 10⟩, ⟨0, 1, 5, 20⟩] v * 4 + o := hr
    obtain ⟨v, hv, o, ho, he⟩ := h3
    match v, hv with
    | [i, j], ⟨⟨k, hk, hi⟩, ⟨m, hm, hj⟩, _⟩ =>
      simp only at hk hi hm hj
      simp [linear] at he
      omega

/-- A set of byte ranges. -/
def BytesOnly (s : MSet) : Prop := ∀ e ∈ s, ∀ l ∈ e.2, l.kind.collapsed = false

/-- C09, the part which holds: sets of byte ranges compare equal only if they consist of the same
bytes. Missing: array ranges (see `eqSet_arrays_fails`). -/
theorem eqSet_bytes_partial (ob : Option Nat → Obj) (s t : MSet) (hs : SetWf ob s)
    (ht : SetWf ob t) (bs : BytesOnly s) (bt : BytesOnly t) (h : eqSet s t = true)
    (p : Option Nat) (b : Nat) : SetByte s p b ↔ SetByte t p b := by
  unfold eqSet at h
  simp only [Bool.and_eq_true, decide_eq_true_eq, List.all_eq_true] at h
  obtain ⟨hlen, hall⟩ := h
  -- bytes of lists with equal normal forms
  have hsan : ∀ {xs : List Loc}, (∀ l ∈ xs, l.kind.collapsed = false ∧ ∃ lo, l.lower = some lo) →
      ∀ {ys}, sanitize xs = some ys → ∀ b, (∃ l ∈ ys, Reach l b) ↔ ∃ l ∈ xs, Reach l b := by
    intro xs hx ys hy b
    cases xs with
    | nil => simp [sanitize] at hy
    | cons c cs =>
      simp only [sanitize, Option.some.injEq] at hy
      subst hy
      rw [sanitizeFrom_reach (hx c (by simp)).1 (hx c (by simp)).2 hx]
      simp
  have hlow : ∀ {u : MSet}, SetWf ob u → BytesOnly u → ∀ e ∈ u, ∀ l ∈ e.2,
      l.kind.collapsed = false ∧ ∃ lo, l.lower = some lo := by
    intro u hu bu e he l hl
    refine ⟨bu e he l hl, ?_⟩
    rcases ((hu.2 e he).2 l hl).2.2 with h | h
    · exact h.2.2.1
    · exact ⟨0, h.1.2.1⟩
  have hkeys : ∀ k, k ∈ s.map Prod.fst ↔ k ∈ t.map Prod.fst := by
    have hsub : s.map Prod.fst ⊆ t.map Prod.fst := by
      intro k hk
      obtain ⟨e, he, rfl⟩ := List.mem_map.1 hk
      obtain ⟨f, hf, hfe⟩ := List.any_eq_true.1 (hall e he).1
      simp only [decide_eq_true_eq] at hfe
      exact List.mem_map.2 ⟨f, hf, hfe⟩
    have hperm := (List.Nodup.subperm hs.1 hsub).perm_of_length_le (by simp [hlen])
    exact fun k => hperm.mem_iff
  have hpair : ∀ e ∈ s, ∀ b, (∃ l ∈ e.2, Reach l b) ↔ ∃ l ∈ locs t e.1, Reach l b := by
    intro e he b
    obtain ⟨f, hf, hfe⟩ := List.mem_map.1 ((hkeys e.1).1 (List.mem_map_of_mem he))
    have hlt := locs_of_mem ht hf
    rw [hfe] at hlt
    have heq := (hall e he).2
    rw [hlt] at heq ⊢
    cases hx : sanitize e.2 with
    | none =>
      cases hxe : e.2 with
      | nil => exact absurd hxe (hs.2 e he).1
      | cons a as => rw [hxe] at hx; simp [sanitize] at hx
    | some ys =>
      rw [← hsan (hlow hs bs e he) hx b, ← hsan (hlow ht bt f hf) (heq.symm.trans hx) b]
  constructor
  · intro hb
    obtain ⟨e, he, l, hl, hp, hr⟩ := hb
    have hpe := ((hs.2 e he).2 l hl).1
    have := (hpair e he b).1 ⟨l, hl, hr⟩
    rw [← hpe, hp] at this
    exact (setByte_iff ht).2 this
  · intro hb
    obtain ⟨f, hf, l, hl, hp, hr⟩ := hb
    have hpf := ((ht.2 f hf).2 l hl).1
    obtain ⟨e, he, hee⟩ := List.mem_map.1 ((hkeys f.1).2 (List.mem_map_of_mem hf))
    have hlt := locs_of_mem ht hf
    have := (hpair e he b).2 (by rw [hee, hlt]; exact ⟨l, hl, hr⟩)
    obtain ⟨l', hl', hr'⟩ := this
    exact ⟨e, he, l', hl', (((hs.2 e he).2 l' hl').1.trans (hee.trans hpf.symm)).trans hp, hr'⟩

/-- Non-vacuity: two different lists with the same bytes compare equal. -/
example : eqSet [(some 1, [bytes 0 8, bytes 4 12])] [(some 1, [bytes 0 12])] = true ∧
    BytesOnly [(some 1, [bytes 0 8, bytes 4 12])] := by
  refine ⟨by decide, ?_⟩
  intro e he l hl
  simp only [List.mem_singleton] at he
  subst he
  simp only [List.mem_cons, List.not_mem_nil, or_false] at hl
  rcases hl with rfl | rfl <;> rfl

/-- C09, converse. Sets with the same bytes may compare different: the copy constructor inserts
locations of the set one by one, so touching ranges are joined and the copy is not equal to the
original. -/
theorem copy_equal_fails :
    ¬ ∀ ls : List Loc, (∀ l ∈ ls, WfLoc objA l) →
      eqSet (insertAll [] ls).1 (insertAll [] (allLocs (insertAll [] ls).1)).1 = true := by
  intro h
  have := h [bytes 0 4, bytes 8 12, bytes 4 8] (by
    intro l hl
    simp only [List.mem_cons, List.not_mem_nil, or_false] at hl
    rcases hl with rfl | rfl | rfl <;> exact bytes_wf (by omega))
  revert this
  decide

/-! ## C10 -/

/-- C10. `merge` computes the union; the result is 'false' only if the set was not changed. -/
theorem merge_exact (ob : Option Nat → Obj) (s w : MSet) (hs : SetWf ob s) (hw : SetWf ob w) :
    SetWf ob (merge s w).1 ∧
    (∀ p b, SetByte (merge s w).1 p b ↔ SetByte s p b ∨ SetByte w p b) ∧
    ((merge s w).2 = false → (merge s w).1 = s) := by
  obtain ⟨h1, h2, h3⟩ := foldl_merge (ls := allLocs w) (acc := (s, false)) hs (allLocs_wf hw)
  refine ⟨h1, ?_, fun h => (h3 h).2⟩
  intro p b
  rw [setByte_all (s := w)]
  exact h2 p b

theorem intersectStep_sound {ob : Option Nat → Obj} {S : Solver} (hS : SolverOK S) {w : MSet}
    (hw : SetWf ob w) {acc : MSet × Bool} {loc : Loc} (ha : SetWf ob acc.1)
    (hl : WfLoc (ob loc.ptr) loc) :
    SetWf ob (intersectStep S w acc loc).1 ∧
    ∀ p b, SetByte (intersectStep S w acc loc).1 p b →
      SetByte acc.1 p b ∨ (p = loc.ptr ∧ Reach loc b ∧ SetByte w p b) := by
  unfold intersectStep
  split
  · rename_i hc
    obtain ⟨h1, h2, _⟩ := insert_spec ha hl
    refine ⟨h1, fun p b hb => ?_⟩
    rcases (h2 p b).1 hb with h | ⟨rfl, h⟩
    · exact Or.inl h
    · exact Or.inr ⟨rfl, h, contain_sound ob S hS w loc hw hl hc b h⟩
  · obtain ⟨c1, c2⟩ := coveredBy_spec hS hw hl
    obtain ⟨h1, h2, _⟩ := insertAll_spec ha (fun m hm => (c1 m hm).2)
    refine ⟨h1, fun p b hb => ?_⟩
    rcases (h2 p b).1 hb with h | ⟨m, hm, hp, hr⟩
    · exact Or.inl h
    · have hpl : p = loc.ptr := hp.symm.trans (c1 m hm).1
      have := c2 b ⟨m, hm, hr⟩
      exact Or.inr ⟨hpl, this.2, hpl ▸ this.1⟩

/-- C10, the part which holds for all sets: `intersect` keeps only bytes which belong to both
sets. Missing: bytes may be lost when an intersection of array ranges can not be computed. -/
theorem intersectSet_sound_partial (ob : Option Nat → Obj) (S : Solver) (hS : SolverOK S)
    (s w : MSet) (hs : SetWf ob s) (hw : SetWf ob w) :
    SetWf ob (intersectSet S s w).1 ∧
    ∀ p b, SetByte (intersectSet S s w).1 p b → SetByte s p b ∧ SetByte w p b := by
  have key : ∀ (ls : List Loc) (acc : MSet × Bool), SetWf ob acc.1 →
      (∀ l ∈ ls, WfLoc (ob l.ptr) l) →
      SetWf ob (ls.foldl (intersectStep S w) acc).1 ∧
      ∀ p b, SetByte (ls.foldl (intersectStep S w) acc).1 p b →
        SetByte acc.1 p b ∨ (ListByte ls p b ∧ SetByte w p b) := by
    intro ls
    induction ls with
    | nil => intro acc ha _; exact ⟨ha, fun p b h => Or.inl h⟩
    | cons l ls ih =>
      intro acc ha hl
      obtain ⟨h1, h2⟩ := intersectStep_sound hS hw ha (hl l (by simp))
      obtain ⟨i1, i2⟩ := ih _ h1 (fun l hm => hl l (by simp [hm]))
      refine ⟨i1, fun p b hb => ?_⟩
      rcases i2 p b hb with h | ⟨⟨m, hm, h⟩, h'⟩
      · rcases h2 p b h with h | ⟨rfl, h3, h4⟩
        · exact Or.inl h
        · exact Or.inr ⟨⟨l, by simp, rfl, h3⟩, h4⟩
      · exact Or.inr ⟨⟨m, by simp [hm], h⟩, h'⟩
  obtain ⟨h1, h2⟩ := key (allLocs s) ([], false) (setWf_nil ob) (allLocs_wf hs)
  refine ⟨h1, fun p b hb => ?_⟩
  rcases h2 p b hb with h | h
  · exact absurd h setByte_nil
  · exact ⟨setByte_all.2 h.1, h.2⟩

/-- C10. For sets of byte ranges with known bounds `intersect` leaves exactly the common bytes. -/
theorem intersectSet_exact_bytes (ob : Option Nat → Obj) (S : Solver) (hS : SolverOK S)
    (s w : MSet) (hs : SetWf ob s) (hw : SetWf ob w)
    (bs : ∀ l ∈ allLocs s, l.IsScalar) (bw : ∀ l ∈ allLocs w, l.IsScalar) (p : Option Nat)
    (b : Nat) :
    SetByte (intersectSet S s w).1 p b ↔ SetByte s p b ∧ SetByte w p b := by
  refine ⟨(intersectSet_sound_partial ob S hS s w hs hw).2 p b, ?_⟩
  have hlocs : ∀ {q : Option Nat} {c : Loc}, c ∈ locs w q → c ∈ allLocs w := by
    intro q c hc
    obtain ⟨e, he, hq⟩ := List.any_eq_true.1 (any_of_locs hc)
    simp only [decide_eq_true_eq] at hq
    rw [← hq, locs_of_mem hw he] at hc
    exact List.mem_flatMap.2 ⟨e, he, hc⟩
  have key : ∀ (ls : List Loc) (acc : MSet × Bool), SetWf ob acc.1 →
      (∀ l ∈ ls, WfLoc (ob l.ptr) l ∧ l.IsScalar) →
      ∀ p b, (SetByte acc.1 p b ∨ (ListByte ls p b ∧ SetByte w p b)) →
        SetByte (ls.foldl (intersectStep S w) acc).1 p b := by
    intro ls
    induction ls with
    | nil =>
      rintro acc ha _ p b (h | ⟨⟨m, hm, _⟩, _⟩)
      · exact h
      · simp at hm
    | cons l ls ih =>
      intro acc ha hl p b hb
      have hl0 := hl l (by simp)
      obtain ⟨h1, _⟩ := intersectStep_sound hS hw ha hl0.1
      apply ih _ h1 (fun l hm => hl l (by simp [hm]))
      have hstep : ∀ p b, (SetByte acc.1 p b ∨ (p = l.ptr ∧ Reach l b ∧ SetByte w p b)) →
          SetByte (intersectStep S w acc l).1 p b := by
        intro p b hb
        unfold intersectStep
        split
        · obtain ⟨_, h2, _⟩ := insert_spec ha hl0.1
          apply (h2 p b).2
          rcases hb with hb | ⟨h1, h2, _⟩
          · exact Or.inl hb
          · exact Or.inr ⟨h1, h2⟩
        · obtain ⟨c1, c2⟩ := coveredBy_spec hS hw hl0.1
          obtain ⟨_, h2, _⟩ := insertAll_spec ha (fun m hm => (c1 m hm).2)
          apply (h2 p b).2
          rcases hb with hb | ⟨rfl, h3, h4⟩
          · exact Or.inl hb
          · right
            obtain ⟨c, hc, hr⟩ := (setByte_iff hw).1 h4
            have hcw := locs_wf hw hc
            have hcs := bw c (hlocs hc)
            have hi := interOK hS (wl := false) (wr := false) (th := threshold)
              hcw.1 hcw.2 hl0.1
            have hne : (intersectScalar c l).1 ≠ .unknown :=
              (intersectScalar_exact c l hcs hl0.2 hcw.1).2.1
            have heq : intersect S false false threshold c l = intersectScalar c l :=
              intersect_scalars hcw.1 (by rw [hcw.1]; exact hl0.1.1) hcs.1 hl0.2.1
            cases hq : (intersect S false false threshold c l).1 with
            | ub => exact absurd hq hi.noUb
            | none => exact absurd ⟨hr, h3⟩ (hi.none hq b)
            | unknown => rw [heq] at hq; exact absurd hq hne
            | exact m =>
              obtain ⟨e1, e2, e3, _⟩ := hi.exact m hq
              refine ⟨m, ?_, e1.trans hcw.1, (e3 b).2 ⟨hr, h3⟩⟩
              unfold coveredBy
              refine List.mem_filterMap.2 ⟨c, hc, ?_⟩
              simp only [hq]
      rcases hb with hb | ⟨⟨m, hm, hmp, hmr⟩, hwb⟩
      · exact Or.inl (hstep p b (Or.inl hb))
      · rcases List.mem_cons.1 hm with rfl | hm
        · exact Or.inl (hstep p b (Or.inr ⟨hmp.symm, hmr, hwb⟩))
        · exact Or.inr ⟨⟨m, hm, hmp, hmr⟩, hwb⟩
  rintro ⟨h1, h2⟩
  exact key (allLocs s) ([], false) (setWf_nil ob)
    (fun l hl => ⟨allLocs_wf hs l hl, bs l hl⟩) p b (Or.inr ⟨setByte_all.1 h1, h2⟩)

/-- C10. The result of `intersect` does not tell whether the set was changed: removed locations
are not reported. -/
theorem intersectSet_changed_fails :
    ¬ ∀ (S : Solver), SolverOK S → ∀ (ob : Option Nat → Obj) (s w : MSet), SetWf ob s → SetWf ob w →
      (intersectSet S s w).2 = false → ∀ p b, SetByte (intersectSet S s w).1 p b ↔ SetByte s p b := by
  intro h
  have hs : SetWf (fun _ => objA) [(some 1, [bytes 0 4])] := by
    refine ⟨by simp, ?_⟩
    intro e he
    simp only [List.mem_singleton] at he
    subst he
    refine ⟨by simp, ?_⟩
    intro l hl
    simp only [List.mem_singleton] at hl
    subst hl
    exact ⟨rfl, bytes_wf (by omega)⟩
  have := (h refSolver refSolver_ok (fun _ => objA) [(some 1, [bytes 0 4])] [] hs (setWf_nil _)
    (by decide) (some 1) 0).2 ⟨_, List.mem_singleton.2 rfl, bytes 0 4, by simp, rfl, by simp [Reach, bytes, Kind.default]⟩
  have he : (intersectSet refSolver [(some 1, [bytes 0 4])] []).1 = [] := by decide
  rw [he] at this
  exact setByte_nil this

/-- Non-vacuity. -/
example : (intersectSet refSolver [(some 1, [bytes 0 8, bytes 20 30])] [(some 1, [bytes 4 24])]).1 =
    [(some 1, [bytes 4 8, bytes 20 24])] := by decide

/-- C10. `clarify` only adds memory: bytes of the set are kept, and bytes of each location whose
aggregated location has no exact intersection with the set are added. -/
theorem clarify_adds (ob : Option Nat → Obj) (S : Solver) (s : MSet) (from_ : List (Loc × Loc))
    (h : SetWf ob s) (hf : ∀ q ∈ from_, WfLoc (ob q.1.ptr) (setNonCollapsable q.1)) :
    SetWf ob (clarify S s from_) ∧
    (∀ p b, SetByte s p b → SetByte (clarify S s from_) p b) ∧
    (∀ q ∈ from_, (∀ c ∈ locs s q.2.ptr, ∀ m, (intersect S false false threshold c q.2).1 ≠ .exact m) →
      ∀ b, Reach (setNonCollapsable q.1) b → SetByte (clarify S s from_) q.1.ptr b) := by
  unfold clarify
  simp only
  set new := from_.filterMap fun p =>
    if (locs s p.2.ptr).any fun c =>
        match (intersect S false false threshold c p.2).1 with
        | .exact _ => true
        | _ => false
    then none else some (setNonCollapsable p.1) with hnew
  have hnw : ∀ l ∈ new, WfLoc (ob l.ptr) l := by
    intro l hl
    obtain ⟨q, hq, hl⟩ := List.mem_filterMap.1 hl
    split at hl
    · simp at hl
    · obtain rfl := Option.some.inj hl
      exact hf q hq
  obtain ⟨h1, h2, _⟩ := insertAll_spec h hnw
  refine ⟨h1, fun p b hb => (h2 p b).2 (Or.inl hb), ?_⟩
  intro q hq hno b hb
  refine (h2 _ b).2 (Or.inr ⟨setNonCollapsable q.1, ?_, rfl, hb⟩)
  refine List.mem_filterMap.2 ⟨q, hq, ?_⟩
  rw [if_neg]
  intro hany
  obtain ⟨c, hc, he⟩ := List.any_eq_true.1 hany
  have := hno c hc
  cases hx : (intersect S false false threshold c q.2).1 <;> simp [hx] at he this

/-- Non-vacuity: the location `[0, 4)` aggregated to `[0, 40)` is not covered by `[100, 104)`. -/
example : clarify refSolver [(some 1, [bytes 100 104])] [(bytes 0 4, bytes 0 40)] =
    [(some 1, [setNonCollapsable (bytes 0 4), bytes 100 104])] := by decide

end Tsar.MemSet
