/-
Properties of the tables of directives (C49) and of prototypes (C68).
-/
import Verif.Directives.Model

namespace Tsar.Directives

/-! ### Specification -/

/-- A name `name` inside a parent `parent` identifies at most one record:
there are no two records with the same name and the same parent. -/
def Unambiguous (nameOf : Nat → Option String) (parentOf : Nat → Option Nat) : Prop :=
  ∀ i j n p, nameOf i = some n → nameOf j = some n → parentOf i = some p →
    parentOf j = some p → i = j

/-- Records with unambiguous names. -/
structure WellNamed (R : Records) : Prop where
  ns : ∀ i j n, getNsName R i = some n → getNsName R j = some n → i = j
  nsNonempty : ∀ i, getNsName R i ≠ some ""
  dirNonempty : ∀ i, getDirName R i ≠ some ""
  dir : Unambiguous (getDirName R) (getDirParent R)
  clause : Unambiguous (getClauseName R) (getClauseParent R)

/-! ### Lookups -/

theorem findFrom_spec (parentOf : Nat → Option Nat) (name : String) (parent : Nat) :
    ∀ (l : List String) (i : Nat),
      (∀ j : Nat, l[j]? = some name → (parentOf (i + j)).isSome) →
      (∃ j : Nat, findFrom parentOf name parent i l = .found (i + j) ∧ l[j]? = some name ∧
        parentOf (i + j) = some parent) ∨
      (findFrom parentOf name parent i l = .notFound ∧
        ∀ j : Nat, l[j]? = some name → parentOf (i + j) ≠ some parent)
  | [], i, _ => by right; simp [findFrom]
  | n :: ns, i, h => by
    have ih := findFrom_spec parentOf name parent ns (i + 1) (fun j hj => by
      have := h (j + 1) (by simpa using hj)
      rwa [show i + (j + 1) = i + 1 + j by omega] at this)
    have step : (findFrom parentOf name parent i (n :: ns) = findFrom parentOf name parent (i + 1) ns ∧
        (n = name → parentOf i ≠ some parent)) ∨
        (findFrom parentOf name parent i (n :: ns) = .found i ∧ n = name ∧
          parentOf i = some parent) := by
      by_cases hn : n = name
      · have h0 := h 0 (by simpa using hn)
        obtain ⟨p, hp⟩ := Option.isSome_iff_exists.1 h0
        simp only [Nat.add_zero] at hp
        by_cases hpp : p = parent
        · right; subst hpp; simp [findFrom, hn, hp]
        · left; simp [findFrom, hn, hp, hpp]
      · left; simp [findFrom, hn]
    rcases step with ⟨hs, hne⟩ | ⟨hs, hn, hp⟩
    · rw [hs]
      rcases ih with ⟨j, h1, h2, h3⟩ | ⟨h1, h2⟩
      · left
        refine ⟨j + 1, ?_, by simpa using h2, ?_⟩
        · rw [h1, show i + (j + 1) = i + 1 + j by omega]
        · rw [show i + (j + 1) = i + 1 + j by omega]; exact h3
      · right
        refine ⟨h1, fun j hj => ?_⟩
        cases j with
        | zero => exact hne (by simpa using hj)
        | succ j =>
          rw [show i + (j + 1) = i + 1 + j by omega]
          exact h2 j (by simpa using hj)
    · left; exact ⟨0, by simpa using hs, by simpa using hn, by simpa using hp⟩

theorem getDirName_iff (R : Records) (i : Nat) (n : String) :
    getDirName R i = some n ↔ 0 < i ∧ (dirNames R)[i]? = some n := by
  unfold getDirName
  constructor
  · intro h; split at h
    · rename_i hc; exact ⟨hc.1, h⟩
    · cases h
  · rintro ⟨h0, h⟩
    have := (List.getElem?_eq_some_iff.1 h).1
    rw [if_pos ⟨h0, this⟩]; exact h

theorem getClauseName_iff (R : Records) (i : Nat) (n : String) :
    getClauseName R i = some n ↔ 0 < i ∧ (clauseNames R)[i]? = some n := by
  unfold getClauseName
  constructor
  · intro h; split at h
    · rename_i hc; exact ⟨hc.1, h⟩
    · cases h
  · rintro ⟨h0, h⟩
    have := (List.getElem?_eq_some_iff.1 h).1
    rw [if_pos ⟨h0, this⟩]; exact h

theorem getNsName_iff (R : Records) (i : Nat) (n : String) :
    getNsName R i = some n ↔ 0 < i ∧ (nsNames R)[i]? = some n := by
  unfold getNsName
  constructor
  · intro h; split at h
    · rename_i hc; exact ⟨hc.1, h⟩
    · cases h
  · rintro ⟨h0, h⟩
    have := (List.getElem?_eq_some_iff.1 h).1
    rw [if_pos ⟨h0, this⟩]; exact h

theorem getDirParent_isSome (R : Records) (i : Nat) (n : String)
    (h : getDirName R i = some n) : (getDirParent R i).isSome := by
  have h' := (getDirName_iff R i n).1 h
  have hl := (List.getElem?_eq_some_iff.1 h'.2).1
  unfold getDirParent
  rw [if_pos ⟨h'.1, hl⟩, Option.isSome_iff_exists]
  have : i < (dirParents R).length := by simpa [dirNames, dirParents] using hl
  exact ⟨_, List.getElem?_eq_getElem this⟩

theorem getClauseParent_isSome (R : Records) (i : Nat) (n : String)
    (h : getClauseName R i = some n) : (getClauseParent R i).isSome := by
  have h' := (getClauseName_iff R i n).1 h
  have hl := (List.getElem?_eq_some_iff.1 h'.2).1
  unfold getClauseParent
  rw [if_pos ⟨h'.1, hl⟩, Option.isSome_iff_exists]
  have : i < (clauseParents R).length := by simpa [clauseNames, clauseParents] using hl
  exact ⟨_, List.getElem?_eq_getElem this⟩

theorem findFrom_table (nameOf : Nat → Option String) (parentOf : Nat → Option Nat)
    (table : List String) (bad name : String) (parent : Nat)
    (hn : ∀ i n, nameOf i = some n ↔ 0 < i ∧ (bad :: table)[i]? = some n)
    (hp : ∀ i n, nameOf i = some n → (parentOf i).isSome)
    (hu : Unambiguous nameOf parentOf) (hbad : name ≠ bad) (i : Nat) :
    (findFrom parentOf name parent 0 (bad :: table) = .found i ↔
      nameOf i = some name ∧ parentOf i = some parent) ∧
    (findFrom parentOf name parent 0 (bad :: table) = .notFound ↔
      ∀ j, ¬(nameOf j = some name ∧ parentOf j = some parent)) ∧
    findFrom parentOf name parent 0 (bad :: table) ≠ .assertion := by
  have key : ∀ j : Nat, (bad :: table)[j]? = some name → nameOf j = some name := by
    intro j hj
    cases j with
    | zero => simp at hj; exact absurd hj.symm hbad
    | succ j => exact (hn _ _).2 ⟨Nat.succ_pos _, hj⟩
  have hs := findFrom_spec parentOf name parent (bad :: table) 0
    (fun j hj => by rw [Nat.zero_add]; exact hp j name (key j hj))
  simp only [Nat.zero_add] at hs
  rcases hs with ⟨j, h1, h2, h3⟩ | ⟨h1, h2⟩
  · rw [h1]
    refine ⟨⟨fun h => ?_, fun h => ?_⟩, ⟨fun h => (by cases h), fun h => absurd ⟨key j h2, h3⟩ (h j)⟩,
      by simp⟩
    · rw [← Lookup.found.inj h]; exact ⟨key j h2, h3⟩
    · rw [hu j i name parent (key j h2) h.1 h3 h.2]
  · rw [h1]
    refine ⟨⟨fun h => (by cases h), fun h => ?_⟩, ⟨fun _ j hj => ?_, fun _ => rfl⟩, by simp⟩
    · exact absurd h.2 (h2 i ((hn _ _).1 h.1).2)
    · exact h2 j ((hn _ _).1 hj.1).2 hj.2

/-- **C49 (directives).** In well-named tables a directive is found in a
namespace iff it has this name and belongs to this namespace, `false` is
returned iff there is no such directive, and assertions are not violated. It
holds for all strings except the name of the reserved entry of the table. -/
theorem getTsarDirective_partial (R : Records) (hR : WellNamed R) (ns : Nat) (name : String)
    (hbad : name ≠ "not_directive") (i : Nat) :
    (getTsarDirective R ns name = .found i ↔
      getDirName R i = some name ∧ getDirParent R i = some ns) ∧
    (getTsarDirective R ns name = .notFound ↔
      ∀ j, ¬(getDirName R j = some name ∧ getDirParent R j = some ns)) ∧
    getTsarDirective R ns name ≠ .assertion := by
  unfold getTsarDirective
  by_cases he : name = ""
  · subst he
    simp [hR.dirNonempty]
  · rw [if_neg he]
    exact findFrom_table (getDirName R) (getDirParent R) _ _ name ns (getDirName_iff R)
      (getDirParent_isSome R) hR.dir hbad i

/-- **C49 (clauses).** The same for clauses of a directive; the empty name (of
a body of a directive) is allowed. -/
theorem getTsarClause_partial (R : Records) (hR : WellNamed R) (dir : Nat) (name : String)
    (hbad : name ≠ "not_clause") (i : Nat) :
    (getTsarClause R dir name = .found i ↔
      getClauseName R i = some name ∧ getClauseParent R i = some dir) ∧
    (getTsarClause R dir name = .notFound ↔
      ∀ j, ¬(getClauseName R j = some name ∧ getClauseParent R j = some dir)) ∧
    getTsarClause R dir name ≠ .assertion :=
  findFrom_table (getClauseName R) (getClauseParent R) _ _ name dir (getClauseName_iff R)
    (getClauseParent_isSome R) hR.clause hbad i

/-- **C49 (namespaces).** The same for namespaces. -/
theorem getTsarDirectiveNamespace_partial (R : Records) (hR : WellNamed R) (name : String)
    (hbad : name ≠ "not_namespace") (i : Nat) :
    (getTsarDirectiveNamespace R name = .found i ↔ getNsName R i = some name) ∧
    (getTsarDirectiveNamespace R name = .notFound ↔ ∀ j, getNsName R j ≠ some name) ∧
    getTsarDirectiveNamespace R name ≠ .assertion := by
  unfold getTsarDirectiveNamespace
  by_cases he : name = ""
  · subst he; simp [hR.nsNonempty]
  · rw [if_neg he]
    cases hf : (nsNames R).findIdx? (· == name) with
    | none =>
      have hno : ∀ j, getNsName R j ≠ some name := by
        intro j hj
        have := ((getNsName_iff R j name).1 hj).2
        have hm : name ∈ nsNames R := List.mem_of_getElem? this
        have := List.findIdx?_eq_none_iff.1 hf name hm
        simp at this
      simp [hno]
    | some k =>
      have hk : getNsName R k = some name := by
        obtain ⟨hl, h1, -⟩ := List.findIdx?_eq_some_iff_getElem.1 hf
        have h1' : (nsNames R)[k] = name := by simpa using h1
        refine (getNsName_iff R k name).2 ⟨?_, by rw [List.getElem?_eq_getElem hl, h1']⟩
        rcases Nat.eq_zero_or_pos k with hz | hz
        · subst hz
          exact absurd (by simpa [nsNames] using h1'.symm) hbad
        · exact hz
      refine ⟨⟨fun h => (by cases h; exact hk), fun h => by rw [hR.ns k i name hk h]⟩,
        ⟨fun h => (by cases h), fun h => absurd hk (h k)⟩, by simp⟩

/-! ### Records from Directives.td -/

/-- Pairs of names and parents of directives. -/
def dirPairs (R : Records) : List (String × Nat) :=
  R.directives.map (fun d => (d.name, nsEnum R d.parent))

/-- Pairs of names and parents of clauses. -/
def clausePairs (R : Records) : List (String × Nat) :=
  R.clauses.map (fun c => (c.name, dirEnum R c.parent))

theorem unambiguous_of_nodup {α : Type} (l : List α) (nm : α → String) (pr : α → Nat)
    (bad : String) (nameOf : Nat → Option String) (parentOf : Nat → Option Nat)
    (hn : ∀ i n, nameOf i = some n → 0 < i ∧ (bad :: l.map nm)[i]? = some n)
    (hp : ∀ i p, parentOf i = some p → (0 :: l.map pr)[i]? = some p)
    (hd : (l.map (fun a => (nm a, pr a))).Nodup) : Unambiguous nameOf parentOf := by
  intro i j n p hi hj hpi hpj
  obtain ⟨i0, hi⟩ := hn i n hi
  obtain ⟨j0, hj⟩ := hn j n hj
  have hpi := hp i p hpi
  have hpj := hp j p hpj
  obtain ⟨i, rfl⟩ : ∃ k, i = k + 1 := ⟨i - 1, by omega⟩
  obtain ⟨j, rfl⟩ : ∃ k, j = k + 1 := ⟨j - 1, by omega⟩
  simp only [List.getElem?_cons_succ, List.getElem?_map, Option.map_eq_some_iff] at hi hj hpi hpj
  obtain ⟨a, ha, ha'⟩ := hi
  obtain ⟨b, hb, hb'⟩ := hj
  obtain ⟨a2, ha2, ha2'⟩ := hpi
  obtain ⟨b2, hb2, hb2'⟩ := hpj
  obtain rfl : a = a2 := by rw [ha] at ha2; exact Option.some.inj ha2
  obtain rfl : b = b2 := by rw [hb] at hb2; exact Option.some.inj hb2
  have e1 : (l.map (fun a => (nm a, pr a)))[i]? = some (n, p) := by
    simp [ha, ha', ha2']
  have e2 : (l.map (fun a => (nm a, pr a)))[j]? = some (n, p) := by
    simp [hb, hb', hb2']
  have hl := (List.getElem?_eq_some_iff.1 e1).1
  have := (List.getElem?_inj hl hd).1 (e1.trans e2.symm)
  omega

theorem wellNamed_of_nodup (R : Records) (h1 : (R.namespaces.map (·.2)).Nodup)
    (h2 : "" ∉ R.namespaces.map (·.2)) (h3 : "" ∉ R.directives.map (·.name))
    (h4 : (dirPairs R).Nodup) (h5 : (clausePairs R).Nodup) : WellNamed R where
  ns := by
    intro i j n hi hj
    obtain ⟨i0, hi⟩ := (getNsName_iff R i n).1 hi
    obtain ⟨j0, hj⟩ := (getNsName_iff R j n).1 hj
    obtain ⟨i, rfl⟩ : ∃ k, i = k + 1 := ⟨i - 1, by omega⟩
    obtain ⟨j, rfl⟩ : ∃ k, j = k + 1 := ⟨j - 1, by omega⟩
    simp only [nsNames, List.getElem?_cons_succ] at hi hj
    have hl := (List.getElem?_eq_some_iff.1 hi).1
    have := (List.getElem?_inj hl h1).1 (hi.trans hj.symm)
    omega
  nsNonempty := by
    intro i hi
    obtain ⟨i0, hi⟩ := (getNsName_iff R i "").1 hi
    obtain ⟨i, rfl⟩ : ∃ k, i = k + 1 := ⟨i - 1, by omega⟩
    simp only [nsNames, List.getElem?_cons_succ] at hi
    exact h2 (List.mem_of_getElem? hi)
  dirNonempty := by
    intro i hi
    obtain ⟨i0, hi⟩ := (getDirName_iff R i "").1 hi
    obtain ⟨i, rfl⟩ : ∃ k, i = k + 1 := ⟨i - 1, by omega⟩
    simp only [dirNames, List.getElem?_cons_succ] at hi
    exact h3 (List.mem_of_getElem? hi)
  dir := unambiguous_of_nodup R.directives (·.name) (fun d => nsEnum R d.parent) "not_directive"
    _ _ (fun i n h => (getDirName_iff R i n).1 h)
    (fun i p h => by
      unfold getDirParent at h
      split at h
      · exact h
      · cases h) h4
  clause := unambiguous_of_nodup R.clauses (·.name) (fun c => dirEnum R c.parent) "not_clause"
    _ _ (fun i n h => (getClauseName_iff R i n).1 h)
    (fun i p h => by
      unfold getClauseParent at h
      split at h
      · exact h
      · cases h) h5

/-- Names of records of Directives.td are unambiguous. -/
theorem tsar_wellNamed : WellNamed tsar :=
  wellNamed_of_nodup tsar (by decide +kernel) (by decide +kernel) (by decide +kernel)
    (by decide +kernel) (by decide +kernel)

/-- **C49.** Each directive of TSAR is found by its name in its namespace. -/
theorem directive_roundtrip (i ns : Nat) (n : String) (hn : getDirName tsar i = some n)
    (hp : getDirParent tsar i = some ns) : getTsarDirective tsar ns n = .found i := by
  refine ((getTsarDirective_partial tsar tsar_wellNamed ns n ?_ i).1).2 ⟨hn, hp⟩
  rintro rfl
  obtain ⟨h0, h⟩ := (getDirName_iff _ _ _).1 hn
  obtain ⟨i, rfl⟩ : ∃ k, i = k + 1 := ⟨i - 1, by omega⟩
  simp only [dirNames, List.getElem?_cons_succ] at h
  exact absurd (List.mem_of_getElem? h) (by decide +kernel)

/-- **C49.** Each clause of TSAR is found by its name in its directive. -/
theorem clause_roundtrip (i d : Nat) (n : String) (hn : getClauseName tsar i = some n)
    (hp : getClauseParent tsar i = some d) : getTsarClause tsar d n = .found i := by
  refine ((getTsarClause_partial tsar tsar_wellNamed d n ?_ i).1).2 ⟨hn, hp⟩
  rintro rfl
  obtain ⟨h0, h⟩ := (getClauseName_iff _ _ _).1 hn
  obtain ⟨i, rfl⟩ : ∃ k, i = k + 1 := ⟨i - 1, by omega⟩
  simp only [clauseNames, List.getElem?_cons_succ] at h
  exact absurd (List.mem_of_getElem? h) (by decide +kernel)

/-- **C49.** Each namespace of TSAR is found by its name. -/
theorem namespace_roundtrip (i : Nat) (n : String) (hn : getNsName tsar i = some n) :
    getTsarDirectiveNamespace tsar n = .found i := by
  refine ((getTsarDirectiveNamespace_partial tsar tsar_wellNamed n ?_ i).1).2 hn
  rintro rfl
  obtain ⟨h0, h⟩ := (getNsName_iff _ _ _).1 hn
  obtain ⟨i, rfl⟩ : ∃ k, i = k + 1 := ⟨i - 1, by omega⟩
  simp only [nsNames, List.getElem?_cons_succ] at h
  exact absurd (List.mem_of_getElem? h) (by decide +kernel)

/-- A parent of each record of TSAR is a record of TSAR (so the generated
code can be compiled). -/
theorem tsar_parents_exist :
    (∀ d ∈ tsar.directives, (getNsName tsar (nsEnum tsar d.parent)).isSome) ∧
    (∀ c ∈ tsar.clauses, (getDirName tsar (dirEnum tsar c.parent)).isSome) := by
  decide +kernel

/-- **C49 fails** for the names of reserved entries: the namespace with the
name "not_namespace" does not exist, but it is found. A search for a directive
(a clause) with the name of a reserved entry violates an assertion. -/
theorem lookup_reserved_fails :
    (getTsarDirectiveNamespace tsar "not_namespace" = .found 0 ∧ getNsName tsar 0 = none) ∧
    (∀ ns, getTsarDirective tsar ns "not_directive" = .assertion) ∧
    (∀ d, getTsarClause tsar d "not_clause" = .assertion) := by
  refine ⟨by decide +kernel, fun ns => ?_, fun d => ?_⟩
  · rfl
  · rfl

/-- The documented relation (Directives.h:84-86): a directive has a body iff
it has a clause with the empty name. It holds for all directives except two. -/
theorem hasBody_partial (i : Nat) (n : String) (hn : getDirName tsar i = some n)
    (h1 : i ≠ dirEnum tsar "DvmRealign") (h2 : i ≠ dirEnum tsar "DvmRegion") :
    hasBody tsar i = some true ↔ ∃ c, getTsarClause tsar i "" = .found c := by
  have hl : i < 20 := by
    have := (List.getElem?_eq_some_iff.1 ((getDirName_iff _ _ _).1 hn).2).1
    simpa [dirNames, tsar] using this
  have h0 := ((getDirName_iff _ _ _).1 hn).1
  have all : ∀ i : Fin 20, 0 < i.1 → i.1 ≠ dirEnum tsar "DvmRealign" →
      i.1 ≠ dirEnum tsar "DvmRegion" →
      (hasBody tsar i = some true ↔ (match getTsarClause tsar i "" with
        | .found _ => true | _ => false) = true) := by decide +kernel
  rw [all ⟨i, hl⟩ h0 h1 h2]
  cases getTsarClause tsar i "" <;> simp

/-- **C49 fails** for bodies: the directive `realign` has a body but there is
no prototype of this body, and the directive `region` has no body but a
prototype for its body is declared (Directives.td:239). -/
theorem hasBody_fails :
    (hasBody tsar (dirEnum tsar "DvmRealign") = some true ∧
      getTsarClause tsar (dirEnum tsar "DvmRealign") "" = .notFound) ∧
    (hasBody tsar (dirEnum tsar "DvmRegion") = some false ∧
      ∃ c, getTsarClause tsar (dirEnum tsar "DvmRegion") "" = .found c) := by
  refine ⟨by decide +kernel, by decide +kernel, 16, by decide +kernel⟩

/-- Non-vacuity: two directives have the same name `parallel` but different
namespaces, and two clauses have the same name `replace`. -/
example : getTsarDirective tsar 2 "parallel" = .found 17 ∧
    getTsarDirective tsar 1 "parallel" = .found 10 ∧
    getTsarDirective tsar 2 "parallels" = .notFound ∧
    getTsarClause tsar 19 "replace" = .found 41 ∧ getTsarClause tsar 16 "replace" = .found 42 ∧
    getDirName tsar 17 = some "parallel" ∧ getClauseName tsar 41 = some "replace" := by
  decide +kernel

example : tsar.directives.length = 19 ∧ tsar.clauses.length = 43 := by decide +kernel

/-! ### Prototypes -/

theorem genSize_eq (es : Exprs) : genSize es = (flatten es).length := by
  induction es with
  | nil => rfl
  | tok k r ih => simp [genSize, flatten, ih]; omega
  | block b body r ih1 ih2 => simp [genSize, flatten, ih1, ih2]; omega

theorem offsets_get (cs : List ClauseRec) (off i : Nat) (hi : i ≤ cs.length) :
    (offsets off cs)[i]? = some (off + ((cs.take i).map (fun c => (flatten c.exprs).length)).sum) := by
  induction cs generalizing off i with
  | nil =>
    simp at hi; subst hi; simp [offsets]
  | cons c cs ih =>
    cases i with
    | zero => simp [offsets]
    | succ i =>
      simp only [offsets, List.getElem?_cons_succ]
      rw [ih _ _ (by simpa using hi)]
      simp [genSize_eq]; omega

theorem offsets_length (cs : List ClauseRec) (off : Nat) :
    (offsets off cs).length = cs.length + 1 := by
  induction cs generalizing off with
  | nil => rfl
  | cons c cs ih => simp [offsets, ih]

theorem flatten_split (cs : List (List EK)) (i : Nat) (c : List EK) (h : cs[i]? = some c) :
    (cs.flatten.drop ((cs.take i).map List.length).sum).take c.length = c := by
  induction cs generalizing i with
  | nil => simp at h
  | cons a cs ih =>
    cases i with
    | zero =>
      simp at h; subst h; simp
    | succ i =>
      simp only [List.take_succ_cons, List.map_cons, List.sum_cons, List.flatten_cons]
      rw [List.drop_append, List.drop_eq_nil_of_le (by omega), List.nil_append, Nat.add_sub_cancel_left]
      exact ih i (by simpa using h)

/-- **C68 (prototypes).** For all lists of records, a prototype of a clause
which is obtained from the generated tables is a flattened list of
expressions of this clause. -/
theorem prototype_eq (R : Records) (i : Nat) (c : ClauseRec) (h : R.clauses[i]? = some c) :
    prototype R (i + 1) = some (flatten c.exprs) := by
  have hl := (List.getElem?_eq_some_iff.1 h).1
  unfold prototype
  rw [if_pos ⟨Nat.succ_pos _, by simpa [clauseNames] using hl⟩]
  have e1 := offsets_get R.clauses 0 i (by omega)
  have e2 := offsets_get R.clauses 0 (i + 1) (by omega)
  have hz : (offsetTable R)[i + 1]? =
      some (((R.clauses.take i).map (fun c => (flatten c.exprs).length)).sum,
        ((R.clauses.take (i + 1)).map (fun c => (flatten c.exprs).length)).sum) := by
    simp only [offsetTable, List.getElem?_cons_succ]
    rw [List.getElem?_zip_eq_some]
    refine ⟨by simpa using e1, ?_⟩
    rw [List.getElem?_tail]; simpa using e2
  rw [hz]
  simp only [Option.some.injEq]
  have hsum : ((R.clauses.take (i + 1)).map (fun c => (flatten c.exprs).length)).sum -
      ((R.clauses.take i).map (fun c => (flatten c.exprs).length)).sum = (flatten c.exprs).length := by
    rw [List.take_add_one, h]
    simp
  rw [hsum]
  have := flatten_split (R.clauses.map (fun c => flatten c.exprs)) i (flatten c.exprs) (by simp [h])
  rw [← List.map_take, List.map_map] at this
  exact this

/-- Non-vacuity: the prototype of the clause `reverse`. -/
example : prototype tsar 32 = some [.single .LParen, .block .OneOf, .single .PPIdentifier,
    .single .NumericConstant, .anchor, .single .RParen] := by decide +kernel

/-! ### Anchors -/

theorem findAnchorFrom_flatten (es : Exprs) (n i : Nat) (post : List EK) :
    findAnchorFrom n i (flatten es ++ post) = findAnchorFrom n (i + (flatten es).length) post := by
  induction es generalizing n i post with
  | nil => simp [flatten]
  | tok k r ih =>
    simp only [flatten, List.cons_append, findAnchorFrom, isSingle, reduceCtorEq, if_false,
      if_true, List.length_cons]
    rw [ih]; congr 1; omega
  | block b body r ih1 ih2 =>
    simp only [flatten, List.cons_append, List.append_assoc, findAnchorFrom, isSingle,
      reduceCtorEq, if_false, Bool.false_eq_true]
    rw [ih1]
    simp only [findAnchorFrom, if_true, Nat.succ_pos, gt_iff_lt, Nat.add_sub_cancel]
    rw [ih2]; congr 1; simp; omega

/-- **C68 (anchors).** For all prototypes, `findAnchor` which is called for the
beginning of a complex expression finds the anchor which ends this
expression. -/
theorem findAnchor_block (pre post : List EK) (b : Block) (body : Exprs) :
    findAnchor (pre ++ .block b :: (flatten body ++ .anchor :: post)) pre.length =
      some (pre.length + 1 + (flatten body).length) := by
  unfold findAnchor
  rw [List.getElem?_append_right (Nat.le_refl _)]
  simp only [Nat.sub_self, List.getElem?_cons_zero]
  have : (pre ++ EK.block b :: (flatten body ++ .anchor :: post)).drop (pre.length + 1) =
      flatten body ++ .anchor :: post := by
    rw [show pre ++ EK.block b :: (flatten body ++ .anchor :: post) =
      (pre ++ [EK.block b]) ++ (flatten body ++ .anchor :: post) by simp]
    rw [List.drop_append, List.drop_eq_nil_of_le (by simp)]; simp
  rw [this, findAnchorFrom_flatten]
  simp [findAnchorFrom]

/-- **C68 (anchors).** `findAnchor` which is called for a single expression
inside a complex one finds the anchor which ends the complex expression. -/
theorem findAnchor_single (pre post : List EK) (k : Single) (es : Exprs) :
    findAnchor (pre ++ .single k :: (flatten es ++ .anchor :: post)) pre.length =
      some (pre.length + 1 + (flatten es).length) := by
  unfold findAnchor
  rw [List.getElem?_append_right (Nat.le_refl _)]
  simp only [Nat.sub_self, List.getElem?_cons_zero]
  have : (pre ++ EK.single k :: (flatten es ++ .anchor :: post)).drop (pre.length + 1) =
      flatten es ++ .anchor :: post := by
    rw [show pre ++ EK.single k :: (flatten es ++ .anchor :: post) =
      (pre ++ [EK.single k]) ++ (flatten es ++ .anchor :: post) by simp]
    rw [List.drop_append, List.drop_eq_nil_of_le (by simp)]; simp
  rw [this, findAnchorFrom_flatten]
  simp [findAnchorFrom]

/-- `findAnchor` which is called for an anchor finds this anchor. -/
theorem findAnchor_anchor (pre post : List EK) :
    findAnchor (pre ++ .anchor :: post) pre.length = some pre.length := by
  unfold findAnchor
  rw [List.getElem?_append_right (Nat.le_refl _)]
  simp

/-- Non-vacuity: anchors of the clause `replace` of `metadata`. -/
example : findAnchor (flatten (E [zm [t .Comma, oneOf [one [t .Identifier]]], t .RParen])) 0 =
    some 7 := by decide +kernel

end Tsar.Directives
