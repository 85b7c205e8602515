import Verif.SrcLoop.Model

/-!
# Perfect loops
-/
namespace Tsar.SrcLoop

/-- The number of outermost `for` loops. -/
def cnt : Forest → Nat
  | .nil => 0
  | .node k h b r =>
    match k with
    | .forLoop _ => 1 + cnt r
    | _ => cnt h + cnt b + cnt r

/-- There is a statement outside `for` loops which is not a block. -/
def anyStmt : Forest → Bool
  | .nil => false
  | .node k h b r =>
    match k with
    | .forLoop _ => anyStmt r
    | .compound _ => anyStmt h || anyStmt b || anyStmt r
    | _ => true

theorem perfect_loops (f : Forest) (s : PSt) : (perfect f s).loops = s.loops + cnt f := by
  induction f generalizing s with
  | nil => simp [perfect, cnt]
  | node k h b r hh hb hr =>
    cases k <;> simp only [perfect, cnt, hh, hb, hr] <;> omega

theorem perfect_stmt (f : Forest) (s : PSt) : (perfect f s).stmt = (s.stmt || anyStmt f) := by
  induction f generalizing s with
  | nil => simp [perfect, anyStmt]
  | node k h b r hh hb hr =>
    cases k <;> simp [perfect, anyStmt, hh, hb, hr, Bool.or_assoc]

theorem cnt_zero (f : Forest) : cnt f = 0 ↔ noFor f := by
  induction f with
  | nil => simp [cnt, noFor]
  | node k h b r hh hb hr =>
    cases k <;> simp [cnt, noFor, ← hh, ← hb, ← hr, and_assoc]

theorem flat_all (f : Forest) :
    anyStmt f = false ↔ ∀ x ∈ flat f, ∃ id, x.1 = .forLoop id := by
  induction f with
  | nil => simp [anyStmt, flat]
  | node k h b r hh hb hr =>
    cases k <;> simp [anyStmt, flat, hh, hb, hr, or_imp, forall_and, and_assoc]

theorem flat_length (f : Forest) (h0 : anyStmt f = false) : (flat f).length = cnt f := by
  induction f with
  | nil => simp [cnt, flat]
  | node k h b r hh hb hr =>
    cases k <;> simp [anyStmt, flat, cnt] at h0 ⊢
    · rw [hr h0]; omega
    · rw [hh h0.1.1, hb h0.1.2, hr h0.2]; omega

/-- The test of `TraverseForStmt()` is the definition of a perfect loop. -/
theorem perfect_test (b : Forest) (fs : List Nat) :
    ((perfect b ⟨0, false, fs⟩).loops = 1 ∧ (perfect b ⟨0, false, fs⟩).stmt = false) ∨
      (perfect b ⟨0, false, fs⟩).loops = 0 ↔ Perfect b := by
  rw [perfect_loops, perfect_stmt]
  simp only [Nat.zero_add, Bool.false_or, Perfect, ← cnt_zero]
  rw [or_comm]
  refine or_congr Iff.rfl ?_
  constructor
  · rintro ⟨h1, h2⟩
    have h3 := flat_length b h2
    rw [h1, List.length_eq_one_iff] at h3
    obtain ⟨⟨k, h, b'⟩, h3⟩ := h3
    obtain ⟨id, h4⟩ := (flat_all b).1 h2 (k, h, b') (by simp [h3])
    simp only at h4
    subst h4
    exact ⟨id, h, b', h3⟩
  · rintro ⟨id, h, b', h3⟩
    have h2 : anyStmt b = false := by
      rw [flat_all, h3]
      simp
    refine ⟨?_, h2⟩
    rw [← flat_length b h2, h3]
    rfl

open Classical in
theorem perfect_found (f : Forest) (s : PSt) :
    (perfect f s).found = s.found ++ ((forsOf f).filter (fun x => Perfect x.2)).map Prod.fst := by
  induction f generalizing s with
  | nil => simp [perfect, forsOf]
  | node k h b r hh hb hr =>
    cases k with
    | forLoop id =>
      simp only [perfect, forsOf, hr, List.filter_append, List.map_append, List.filter_cons]
      have h1 := perfect_test b s.found
      by_cases hp : Perfect b
      · rw [if_pos (h1.2 hp)]
        simp [hp, hb]
      · rw [if_neg (fun h => hp (h1.1 h))]
        simp [hp, hb]
    | _ => simp [perfect, forsOf, hh, hb, hr, List.filter_append]

/-! ### C119 -/

/-- A `for` loop is recorded if and only if it is perfect: it is an innermost `for` or its body
consists of one `for`. This does not depend on fields which are not initialized. -/
theorem perfect_iff (f : Forest) (loops : Nat) (stmt : Bool) (id : Nat) :
    id ∈ (perfect f ⟨loops, stmt, []⟩).found ↔ ∃ b, (id, b) ∈ forsOf f ∧ Perfect b := by
  rw [perfect_found]
  simp

/-- A region is recorded if and only if it is the region of a perfect loop. -/
theorem perfect_region_iff (f : Forest) (loops : Nat) (stmt : Bool) (region : Nat → Option Nat)
    (R : Nat) : R ∈ perfectRegions region f ⟨loops, stmt, []⟩ ↔
      ∃ id b, (id, b) ∈ forsOf f ∧ Perfect b ∧ region id = some R := by
  simp only [perfectRegions, List.mem_filterMap, perfect_iff]
  constructor
  · rintro ⟨id, ⟨b, h1, h2⟩, h3⟩
    exact ⟨id, b, h1, h2, h3⟩
  · rintro ⟨id, b, h1, h2, h3⟩
    exact ⟨id, ⟨b, h1, h2⟩, h3⟩

/-- A `for` without parts of the header. -/
def mkFor (id : Nat) (b r : Forest) : Forest := .node (.forLoop id) .nil b r
/-- A block. -/
def mkBlock (id : Nat) (b r : Forest) : Forest := .node (.compound id) .nil b r
/-- Another statement. -/
def mkStmt (id : Nat) (r : Forest) : Forest := .node (.other id) .nil .nil r

/-- `for { { for { x; } } for?.. }`: the loop 1 has two inner loops, the loop 3 has one in a nested
block, 5 is innermost, the loop 6 has a statement beside an inner loop 7. -/
def sample : Forest :=
  mkFor 1 (mkBlock 2
    (mkFor 3 (mkBlock 4 (mkBlock 8 (mkFor 5 (mkBlock 9 (mkStmt 10 .nil) .nil) .nil) .nil) .nil)
    (mkFor 6 (mkBlock 11 (mkStmt 12 (mkFor 7 (mkStmt 13 .nil) .nil)) .nil) .nil)) .nil) .nil

example : (perfect sample ⟨17, true, []⟩).found = [5, 3, 7] := by decide +kernel

example : ∃ b, (3, b) ∈ forsOf sample ∧ Perfect b :=
  (perfect_iff sample 0 false 3).1 (by decide +kernel)

example : ¬ ∃ b, (6, b) ∈ forsOf sample ∧ Perfect b :=
  fun h => absurd ((perfect_iff sample 0 false 6).2 h) (by decide +kernel)

end Tsar.SrcLoop
