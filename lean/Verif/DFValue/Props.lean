import Verif.DFValue.Model
import Verif.MemSet.Props

/-!
# Properties of data-flow values (C11, C12)
-/

namespace Tsar.DFValue

open Tsar.Range Tsar.MemSet

/-- A byte `b` of the object with the pointer `p` belongs to a data-flow value; the full value
contains the whole memory. -/
def Val.Byte : Val → Option Nat → Nat → Prop
  | .full, _, _ => True
  | .mask s, p, b => SetByte s p b

/-- Well-formed values: all stored locations are well-formed. -/
def Val.Wf (ob : Option Nat → Obj) : Val → Prop
  | .full => True
  | .mask s => SetWf ob s

/-- All stored locations are byte ranges with known bounds. -/
def Val.KnownBytes : Val → Prop
  | .full => True
  | .mask s => ∀ l ∈ allLocs s, l.IsScalar

/-- Values used in examples. -/
def v1 : Val := .mask [(some 1, [bytes 0 8, bytes 8 12])]

theorem v1_set_wf : SetWf (fun _ => objA) [(some 1, [bytes 0 8, bytes 8 12])] := by
  refine ⟨by simp, ?_⟩
  intro e he
  simp only [List.mem_singleton] at he
  subst he
  refine ⟨by simp, ?_⟩
  intro l hl
  simp only [List.mem_cons, List.not_mem_nil, or_false] at hl
  rcases hl with rfl | rfl <;> exact ⟨rfl, bytes_wf (by omega)⟩

theorem v1_wf : v1.Wf (fun _ => objA) := v1_set_wf

/-! ## C11 -/

/-- C11. `merge` is the union, the full value contains the whole memory; the result 'false' means
that the value is not changed. -/
theorem merge_exact (ob : Option Nat → Obj) (v w : Val) (hv : v.Wf ob) (hw : w.Wf ob) :
    (v.merge w).1.Wf ob ∧ (∀ p b, (v.merge w).1.Byte p b ↔ v.Byte p b ∨ w.Byte p b) ∧
    ((v.merge w).2 = false → (v.merge w).1 = v) := by
  cases v with
  | full => simp [Val.merge, Val.Wf, Val.Byte]
  | mask s =>
    cases w with
    | full => simp [Val.merge, Val.Wf, Val.Byte]
    | mask t =>
      obtain ⟨h1, h2, h3⟩ := MemSet.merge_exact ob s t hv hw
      exact ⟨h1, h2, fun h => congrArg Val.mask (h3 h)⟩

/-- C11. A copy of a value consists of the same bytes. -/
theorem copy_exact (ob : Option Nat → Obj) (v : Val) (hv : v.Wf ob) :
    v.copy.Wf ob ∧ ∀ p b, v.copy.Byte p b ↔ v.Byte p b := by
  cases v with
  | full => exact ⟨trivial, fun _ _ => Iff.rfl⟩
  | mask s =>
    obtain ⟨h1, h2⟩ := insertions_exact ob (allLocs s) (allLocs_wf hv)
    exact ⟨h1, fun p b => (h2 p b).trans setByte_all.symm⟩

/-- C11. The full value is absorbing for `merge` and it is the neutral element of `intersect`,
the empty value is neutral for `merge` (the value is not changed) and absorbing for `intersect`. -/
theorem full_empty_laws (ob : Option Nat → Obj) (S : Solver) (v : Val) (hv : v.Wf ob) :
    (v.merge .full).1 = .full ∧ (Val.full.merge v).1 = .full ∧
    (v.intersect S .full) = (v, false) ∧ (∀ p b, (Val.full.intersect S v).1.Byte p b ↔ v.Byte p b) ∧
    v.merge .empty = (v, false) ∧ (Val.empty.intersect S v).1 = .empty := by
  refine ⟨by cases v <;> rfl, rfl, by cases v <;> rfl, ?_, ?_, ?_⟩
  · cases v with
    | full => exact fun _ _ => Iff.rfl
    | mask s => exact (copy_exact ob (.mask s) hv).2
  · cases v <;> simp [Val.merge, Val.empty, MemSet.merge, allLocs]
  · cases v <;> simp [Val.intersect, Val.empty, MemSet.intersectSet, allLocs]

/-- C11. `intersect` keeps only bytes which belong to both values. -/
theorem intersect_sound (ob : Option Nat → Obj) (S : Solver) (hS : SolverOK S) (v w : Val)
    (hv : v.Wf ob) (hw : w.Wf ob) :
    (v.intersect S w).1.Wf ob ∧
    ∀ p b, (v.intersect S w).1.Byte p b → v.Byte p b ∧ w.Byte p b := by
  cases w with
  | full => cases v <;> simp_all [Val.intersect, Val.Byte]
  | mask t =>
    cases v with
    | full =>
      obtain ⟨h1, h2⟩ := copy_exact ob (.mask t) hw
      exact ⟨h1, fun p b h => ⟨trivial, (h2 p b).1 h⟩⟩
    | mask s => exact intersectSet_sound_partial ob S hS s t hv hw

/-- C11. `intersect` is exactly the intersection for values formed by byte ranges with known
bounds. -/
theorem intersect_exact_partial (ob : Option Nat → Obj) (S : Solver) (hS : SolverOK S) (v w : Val)
    (hv : v.Wf ob) (hw : w.Wf ob) (bv : v.KnownBytes) (bw : w.KnownBytes) (p : Option Nat) (b : Nat) :
    (v.intersect S w).1.Byte p b ↔ v.Byte p b ∧ w.Byte p b := by
  cases w with
  | full => cases v <;> simp [Val.intersect, Val.Byte]
  | mask t =>
    cases v with
    | full => exact ((copy_exact ob (.mask t) hw).2 p b).trans (by simp [Val.Byte])
    | mask s => exact intersectSet_exact_bytes ob S hS s t hv hw bv bw p b

/-- Non-vacuity. -/
example : v1.Wf (fun _ => objA) ∧ v1.KnownBytes ∧
    (v1.intersect refSolver (.mask [(some 1, [bytes 4 10])])).1 =
      .mask [(some 1, [bytes 4 10])] ∧
    (v1.merge (.mask [(some 1, [bytes 20 24])])) =
      (.mask [(some 1, [bytes 0 8, bytes 8 12, bytes 20 24])], true) := by
  refine ⟨v1_wf, ?_, by decide, by decide⟩
  intro l hl
  simp only [allLocs, List.flatMap_cons, List.flatMap_nil, List.append_nil, List.mem_cons,
    List.not_mem_nil, or_false] at hl
  rcases hl with rfl | rfl
  · exact ⟨rfl, 0, 8, rfl, rfl⟩
  · exact ⟨rfl, 8, 12, rfl, rfl⟩

/-- C11. A change reported by `merge` does not mean that bytes were added: `[4, 12)` is merged to
`{[0, 8), [8, 12)}`. -/
theorem merge_changed_fails :
    ¬ ∀ (ob : Option Nat → Obj) (v w : Val), v.Wf ob → w.Wf ob → (v.merge w).2 = true →
      ∃ p b, (v.merge w).1.Byte p b ∧ ¬ v.Byte p b := by
  intro h
  have hw : SetWf (fun _ => objA) [(some 1, [bytes 4 12])] := by
    refine ⟨by simp, ?_⟩
    intro e he
    simp only [List.mem_singleton] at he
    subst he
    refine ⟨by simp, ?_⟩
    intro l hl
    simp only [List.mem_singleton] at hl
    subst hl
    exact ⟨rfl, bytes_wf (by omega)⟩
  obtain ⟨p, b, hb, hn⟩ := h (fun _ => objA) v1 (.mask [(some 1, [bytes 4 12])]) v1_wf hw (by decide)
  rcases ((MemSet.merge_exact _ _ _ v1_set_wf hw).2.1 p b).1 hb with h | h
  · exact hn h
  · apply hn
    obtain ⟨e, he, l, hl, hp, hr⟩ := h
    simp only [List.mem_singleton] at he
    subst he
    simp only [List.mem_singleton] at hl
    subst hl
    simp [Reach, bytes, Kind.default] at hr
    by_cases hlt : b < 8
    · exact ⟨_, List.mem_singleton.2 rfl, bytes 0 8, by simp, hp,
        by simp [Reach, bytes, Kind.default]; omega⟩
    · exact ⟨_, List.mem_singleton.2 rfl, bytes 8 12, by simp, hp,
        by simp [Reach, bytes, Kind.default]; omega⟩

/-- C11. `intersect` does not report removed locations. -/
theorem intersect_changed_fails :
    ¬ ∀ (S : Solver), SolverOK S → ∀ (ob : Option Nat → Obj) (v w : Val), v.Wf ob → w.Wf ob →
      (v.intersect S w).2 = false → ∀ p b, (v.intersect S w).1.Byte p b ↔ v.Byte p b := by
  intro h
  exact intersectSet_changed_fails fun S hS ob s w hs hw hf p b =>
    h S hS ob (.mask s) (.mask w) hs hw hf p b

/-- C11. Values which compare equal have the same bytes (byte ranges only, see C09). -/
theorem eq_sound_partial (ob : Option Nat → Obj) (v w : Val) (hv : v.Wf ob) (hw : w.Wf ob)
    (bv : v.KnownBytes) (bw : w.KnownBytes) (h : v.eq w = true) (p : Option Nat) (b : Nat) :
    v.Byte p b ↔ w.Byte p b := by
  have hb : ∀ {s : MSet}, (∀ l ∈ allLocs s, l.IsScalar) → BytesOnly s :=
    fun hs e he l hl => (hs l (List.mem_flatMap.2 ⟨e, he, hl⟩)).1
  cases v <;> cases w <;> simp only [Val.eq, Bool.false_eq_true] at h
  · exact Iff.rfl
  · exact eqSet_bytes_partial ob _ _ hv hw (hb bv) (hb bw) h p b

/-! ## C12 -/

/-- Queries `contain` and `overlap` are sound for each value. -/
theorem contain_overlap_sound (ob : Option Nat → Obj) (S : Solver) (hS : SolverOK S) (v : Val)
    (loc : Loc) (hv : v.Wf ob) (hl : WfLoc (ob loc.ptr) loc) :
    (v.contain S loc = true → ∀ b, Reach loc b → v.Byte loc.ptr b) ∧
    (v.overlap S loc = false → ∀ b, Reach loc b → ¬ v.Byte loc.ptr b) ∧
    (∀ b, ListByte (v.findCoveredBy S loc) loc.ptr b → v.Byte loc.ptr b ∧ Reach loc b) := by
  cases v with
  | full =>
    refine ⟨fun _ _ _ => trivial, by simp [Val.overlap], ?_⟩
    rintro b ⟨m, hm, _, hr⟩
    simp only [Val.findCoveredBy, List.mem_singleton] at hm
    subst hm
    exact ⟨trivial, hr⟩
  | mask s =>
    exact ⟨contain_sound ob S hS s loc hv hl, overlap_sound ob S hS s loc hv hl,
      (findCoveredBy_sound ob S hS s loc hv hl).1⟩

/-- C12. `cover` and `findCoveredBy` disagree for the full value: nothing is covered, but a
location is found. -/
theorem cover_findCoveredBy_fails :
    ¬ ∀ (S : Solver), SolverOK S → ∀ (ob : Option Nat → Obj) (v : Val) (loc : Loc), v.Wf ob →
      WfLoc (ob loc.ptr) loc → (v.cover S loc = true ↔ v.findCoveredBy S loc ≠ []) := by
  intro h
  have := (h refSolver refSolver_ok (fun _ => objA) .full (bytes 0 4) trivial
    (bytes_wf (by omega))).2 (by simp [Val.findCoveredBy])
  simp [Val.cover] at this

/-- C12, the part which holds: for values which are not full and consist of byte ranges with known
bounds, `cover` is true iff `findCoveredBy` finds a location. -/
theorem cover_findCoveredBy_partial (ob : Option Nat → Obj) (S : Solver) (s : MSet)
    (loc : Loc) (hs : SetWf ob s) (hl : WfLoc (ob loc.ptr) loc) (hk : loc.IsScalar)
    (hsc : ∀ c ∈ locs s loc.ptr, c.IsScalar) :
    (Val.mask s).cover S loc = true ↔ (Val.mask s).findCoveredBy S loc ≠ [] := by
  have key : ∀ c ∈ locs s loc.ptr, (∃ m, (intersect S false false threshold c loc).1 = .exact m) ↔
      (intersect S false false threshold c loc).1 ≠ .none := by
    intro c hc
    have hcw := locs_wf hs hc
    rw [intersect_scalars hcw.1 (by rw [hcw.1]; exact hl.1) (hsc c hc).1 hk.1]
    obtain ⟨ck, cl, cu, hcl, hcu⟩ := hsc c hc
    obtain ⟨lk, ll, lu, hll, hlu⟩ := hk
    simp only [intersectScalar, hcw.1, ne_eq, not_true, if_false, ck, lk, hcl, hcu, hll, hlu,
      Bool.false_eq_true, or_self]
    split <;> simp
  simp only [Val.cover, Val.findCoveredBy, MemSet.cover, coveredBy, List.any_eq_true,
    decide_eq_true_eq]
  constructor
  · rintro ⟨c, hc, hn⟩
    obtain ⟨m, hm⟩ := (key c hc).2 hn
    have : m ∈ (locs s loc.ptr).filterMap fun c =>
        match (intersect S false false threshold c loc).1 with
        | .exact m => some m
        | _ => none := List.mem_filterMap.2 ⟨c, hc, by simp [hm]⟩
    exact List.ne_nil_of_mem this
  · intro hne
    obtain ⟨m, hm⟩ := List.exists_mem_of_ne_nil _ hne
    obtain ⟨c, hc, hx⟩ := List.mem_filterMap.1 hm
    refine ⟨c, hc, (key c hc).1 ?_⟩
    cases hq : (intersect S false false threshold c loc).1 <;> simp [hq] at hx
    exact ⟨_, rfl⟩

/-- C12. `insert` on the full value reports an addition of a location which is already contained. -/
theorem insert_contained_fails :
    ¬ ∀ (S : Solver), SolverOK S → ∀ (ob : Option Nat → Obj) (v : Val) (loc : Loc), v.Wf ob →
      WfLoc (ob loc.ptr) loc → v.contain S loc = true → (v.insert loc).2 = false := by
  intro h
  have := h refSolver refSolver_ok (fun _ => objA) .full (bytes 0 4) trivial
    (bytes_wf (by omega)) rfl
  simp [Val.insert] at this

/-- C12. The same for values which are not full: a location covered by two touching ranges. -/
theorem insert_contained_mask_fails :
    ¬ ∀ (S : Solver), SolverOK S → ∀ (ob : Option Nat → Obj) (s : MSet) (loc : Loc), SetWf ob s →
      WfLoc (ob loc.ptr) loc → (Val.mask s).contain S loc = true →
      ((Val.mask s).insert loc).2 = false := by
  intro h
  have := h refSolver refSolver_ok (fun _ => objA) _ (bytes 2 10) v1_set_wf
    (bytes_wf (by omega)) (by decide)
  revert this
  decide

/-- C12, the part which holds: if `insert` does not add a non-empty byte range to a value formed by
byte ranges then `contain` is true. -/
theorem insert_false_contain_partial (ob : Option Nat → Obj) (S : Solver) (hS : SolverOK S)
    (v : Val) (loc : Loc) (hv : v.Wf ob) (hl : WfLoc (ob loc.ptr) loc) (hsolid : Solid loc)
    (hk : v.KnownBytes) (hf : (v.insert loc).2 = false) : v.contain S loc = true := by
  cases v with
  | full => rfl
  | mask s =>
    refine (contain_exact_bytes ob S hS s loc hv hl hsolid ?_).2
      (insert_false_contained ob s loc hv hl hf)
    intro c hc
    obtain ⟨e, he, hq⟩ := List.any_eq_true.1 (any_of_locs hc)
    simp only [decide_eq_true_eq] at hq
    rw [← hq, locs_of_mem hv he] at hc
    exact hk c (List.mem_flatMap.2 ⟨e, he, hc⟩)

/-- Non-vacuity: `[2, 6)` is not added to `{[0, 8), [8, 12)}`. -/
example : (v1.insert (bytes 2 6)).2 = false ∧ v1.contain refSolver (bytes 2 6) = true ∧
    Solid (bytes 2 6) := ⟨by decide, by decide, rfl, rfl, 2, 6, rfl, rfl, by omega⟩

/-- C12. Insertions add exactly bytes of locations to each value. -/
theorem insert_exact (ob : Option Nat → Obj) (v : Val) (loc : Loc) (hv : v.Wf ob)
    (hl : WfLoc (ob loc.ptr) loc) :
    (v.insert loc).1.Wf ob ∧
    ∀ p b, (v.insert loc).1.Byte p b ↔ v.Byte p b ∨ (p = loc.ptr ∧ Reach loc b) := by
  cases v with
  | full => simp [Val.insert, Val.Wf, Val.Byte]
  | mask s =>
    obtain ⟨h1, h2, _⟩ := insert_spec hv hl
    exact ⟨h1, h2⟩

/-- Range insertions, the result 'false' means that the value is not changed. -/
theorem insertAll_exact (ob : Option Nat → Obj) (v : Val) (ls : List Loc) (hv : v.Wf ob)
    (hl : ∀ l ∈ ls, WfLoc (ob l.ptr) l) :
    (v.insertAll ls).1.Wf ob ∧
    (∀ p b, (v.insertAll ls).1.Byte p b ↔ v.Byte p b ∨ ListByte ls p b) ∧
    ((v.insertAll ls).2 = false → (v.insertAll ls).1 = v) := by
  cases v with
  | full => simp [Val.insertAll, Val.Wf, Val.Byte]
  | mask s =>
    obtain ⟨h1, h2, h3⟩ := insertAll_spec hv hl
    exact ⟨h1, h2, fun h => congrArg Val.mask (h3 h)⟩

/-- `difference` keeps only locations without common bytes with the value; with the full value
nothing is kept. -/
theorem difference_sound (ob : Option Nat → Obj) (S : Solver) (hS : SolverOK S) (v : Val)
    (ls : List Loc) (hv : v.Wf ob) (hls : ∀ l ∈ ls, WfLoc (ob l.ptr) l) (l : Loc)
    (hl : l ∈ v.difference S ls) : l ∈ ls ∧ ∀ b, Reach l b → ¬ v.Byte l.ptr b := by
  cases v with
  | full => simp [Val.difference] at hl
  | mask s =>
    simp only [Val.difference, List.mem_append, List.mem_filter, Bool.not_eq_true'] at hl
    rcases hl with hl | hl
    · split at hl
      · rename_i hs; subst hs
        exact ⟨hl, fun b _ => setByte_nil⟩
      · simp at hl
    · exact ⟨hl.1, fun b hb => overlap_sound ob S hS s l hv (hls l hl.1) hl.2 b hb⟩

/-- `subtractFrom` does not clear its result for the full value: locations of `Compl` which were
there before are kept although nothing is left. -/
theorem subtractFrom_full_unchanged (S : Solver) (loc : Loc) :
    Val.full.subtractFrom S loc = (false, none) := rfl

end Tsar.DFValue
