import Verif.BitTrait.Model
import Mathlib.Tactic.IntervalCases

/-!
# Properties of bitwise memory traits (C13, C14, C56)
-/

namespace Tsar.BitTrait

/-! ## Specification -/

/-- Documented traits: alternatives, privatizable alternatives together with the shared flag
(`Private | SharedJoin`) and unit flags. -/
inductive Documented : Trait → Prop
  | noAccess : Documented NoAccess
  | readonly : Documented Readonly
  | shared : Documented Shared
  | priv : Documented Private
  | firstPrivate : Documented FirstPrivate
  | secondToLastPrivate : Documented SecondToLastPrivate
  | lastPrivate : Documented LastPrivate
  | dynamicPrivate : Documented DynamicPrivate
  | dependency : Documented Dependency
  | reduction : Documented Reduction
  | induction : Documented Induction
  | sharedPriv : Documented (Private ||| SharedJoin)
  | sharedFirst : Documented (FirstPrivate ||| SharedJoin)
  | sharedSecond : Documented (SecondToLastPrivate ||| SharedJoin)
  | sharedLast : Documented (LastPrivate ||| SharedJoin)
  | sharedDynamic : Documented (DynamicPrivate ||| SharedJoin)
  | unit (u : UnitTrait) : Documented u.mask

/-- Traits obtained by joining (`&`) of documented traits. -/
inductive Joined : Trait → Prop
  | base {t} : Documented t → Joined t
  | join {s t} : Joined s → Joined t → Joined (s &&& t)

/-- The join of a list of traits (a trait is `NoAccess` by default). -/
def joinAll (ts : List Trait) : Trait := ts.foldl (· &&& ·) NoAccess

/-- `hasNoDep`, MemoryTrait.h:280-282. -/
def Dptr.hasNoDep (d : Dptr) : Bool := d.dep .noAccess || d.dep .readonly || d.dep .shared

/-! ## Split of a trait into the dependence part and unit flags -/

/-- Dependence part of a trait. -/
def hi (t : Trait) : BitVec 9 := t.extractLsb' 10 9

theorem hi_and (s t : Trait) : hi (s &&& t) = hi s &&& hi t := by
  apply BitVec.eq_of_getLsbD_eq
  intro i hi'
  simp [hi, hi', BitVec.getLsbD_extractLsb']

theorem dropUnit_eq (t : Trait) : dropUnitFlag t = hi t ++ BitVec.allOnes 10 := by
  apply BitVec.eq_of_getLsbD_eq
  intro i h
  have h1 : ~~~AllUnitFlags = (0#9 ++ BitVec.allOnes 10 : BitVec 19) := by decide
  simp only [dropUnitFlag, h1, BitVec.getLsbD_or, BitVec.getLsbD_append, hi,
    BitVec.getLsbD_extractLsb', BitVec.getLsbD_allOnes, BitVec.getLsbD_zero]
  by_cases hlt : i < 10
  · simp [hlt]
  · have h9 : i - 10 < 9 := by omega
    have he : 10 + (i - 10) = i := by omega
    simp [hlt, h9, he]

theorem dropUnit_drop (t : Trait) :
    dropUnitFlag (dropSharedFlag t) = (hi t &&& 0b111111110#9) ++ BitVec.allOnes 10 := by
  rw [dropUnit_eq, dropSharedFlag, hi_and]
  congr 2

theorem hasSharedJoin_eq (t : Trait) : hasSharedJoin t = decide (hi t &&& 1#9 ≠ 0) := by
  have h1 : t &&& SharedJoin &&& AllUnitFlags = (hi t &&& 1#9) ++ 0#10 := by
    apply BitVec.eq_of_getLsbD_eq
    intro i h
    have h2 : SharedJoin &&& AllUnitFlags = (1#9 ++ 0#10 : BitVec 19) := by decide
    rw [BitVec.and_assoc, h2]
    simp only [BitVec.getLsbD_and, BitVec.getLsbD_append, hi, BitVec.getLsbD_extractLsb',
      BitVec.getLsbD_zero]
    by_cases hlt : i < 10
    · simp [hlt]
    · have h9 : i - 10 < 9 := by omega
      have he : 10 + (i - 10) = i := by omega
      simp [hlt, h9, he]
  unfold hasSharedJoin
  rw [h1]
  have : ∀ x : BitVec 9, decide ((x ++ 0#10 : BitVec 19) ≠ 0) = decide (x ≠ 0) := by
    decide +kernel
  exact this _

/-- `depCalls` depends on the dependence part only. -/
theorem depCalls_hi (t : Trait) : depCalls t = depCalls (hi t ++ BitVec.allOnes 10) := by
  have hh : hi (hi t ++ BitVec.allOnes 10 : BitVec 19) = hi t := by
    have : ∀ x : BitVec 9, hi (x ++ BitVec.allOnes 10 : BitVec 19) = x := by decide +kernel
    exact this _
  unfold depCalls
  rw [dropUnit_drop, dropUnit_drop, dropUnit_eq, dropUnit_eq, hasSharedJoin_eq, hasSharedJoin_eq, hh]

/-- Dependence parts of all joins of documented traits. -/
def parts : List (BitVec 9) :=
  [0b000000000, 0b000000100, 0b000000101, 0b000000110, 0b000000111, 0b000001100, 0b000001101,
   0b000001110, 0b000001111, 0b000010100, 0b000010101, 0b000010110, 0b000010111, 0b000011100,
   0b000011101, 0b000011110, 0b000011111, 0b001000000, 0b010000000, 0b100000101, 0b100111101,
   0b111111111]

theorem parts_closed : ∀ a ∈ parts, ∀ b ∈ parts, a &&& b ∈ parts := by decide +kernel

theorem hi_mem {t : Trait} (h : Joined t) : hi t ∈ parts := by
  induction h with
  | base h => cases h with
    | unit u => cases u <;> decide +kernel
    | _ => decide +kernel
  | join _ _ h1 h2 => rw [hi_and]; exact parts_closed _ h1 _ h2

/-- Position of the bit which represents a unit trait. -/
def UnitTrait.bit : UnitTrait → Nat
  | .addressAccess => 9 | .headerAccess => 8 | .explicitAccess => 7 | .lock => 6
  | .redundant => 5 | .noRedundant => 4 | .noPromotedScalar => 3 | .directAccess => 2
  | .indirectAccess => 1 | .useAfterLoop => 0

theorem toUnit_eq (t : Trait) (u : UnitTrait) : toUnit t u = !t.getLsbD u.bit := by
  have h : ∀ u : UnitTrait, ~~~u.mask = BitVec.twoPow 19 u.bit := by intro u; cases u <;> decide
  have hb : u.bit < 19 := by cases u <;> decide
  unfold toUnit
  rw [h u, BitVec.and_twoPow]
  cases hx : t.getLsbD u.bit
  · simp
  · have : ∀ u : UnitTrait, (BitVec.twoPow 19 u.bit = 0#19) = False := by
      intro u; cases u <;> decide
    simp [this]

/-! ## C13 -/

theorem noAccess_bit : ∀ i < 19, NoAccess.getLsbD i = true := by decide

theorem noAccess_and (t : Trait) : NoAccess &&& t = t := by
  apply BitVec.eq_of_getLsbD_eq
  intro i h
  rw [BitVec.getLsbD_and, noAccess_bit i h, Bool.true_and]

theorem and_noAccess (t : Trait) : t &&& NoAccess = t := by
  rw [BitVec.and_comm, noAccess_and]

theorem foldl_and (ts : List Trait) (a : Trait) : ts.foldl (· &&& ·) a = a &&& joinAll ts := by
  induction ts generalizing a with
  | nil => simp only [List.foldl_nil, joinAll, and_noAccess]
  | cons t ts ih =>
    have h1 : joinAll (t :: ts) = t &&& joinAll ts := by
      rw [joinAll, List.foldl_cons, ih, noAccess_and]
    rw [List.foldl_cons, ih, h1, BitVec.and_assoc]

theorem joinAll_bit (ts : List Trait) (i : Nat) (h : i < 19) :
    (joinAll ts).getLsbD i = ts.all fun t => t.getLsbD i := by
  induction ts with
  | nil => simpa [joinAll] using noAccess_bit i h
  | cons t ts ih =>
    rw [joinAll, List.foldl_cons, foldl_and, noAccess_and, BitVec.getLsbD_and, ih, List.all_cons]

/-- C13. The result of joining of any number of traits does not depend on their order and
on repetitions: only the set of joined traits matters. -/
theorem joinAll_set (ts us : List Trait) (h : ∀ t, t ∈ ts ↔ t ∈ us) : joinAll ts = joinAll us := by
  apply BitVec.eq_of_getLsbD_eq
  intro i hi'
  rw [joinAll_bit _ _ hi', joinAll_bit _ _ hi', Bool.eq_iff_iff]
  simp only [List.all_eq_true, h]

/-- C13. Joining in parts, for example, for descendants of a node and then for the node. -/
theorem joinAll_append (ts us : List Trait) :
    joinAll (ts ++ us) = joinAll ts &&& joinAll us := by
  rw [joinAll, List.foldl_append, foldl_and]; rfl

/-- C13. A join which contains a dependency is a dependency, independently of other traits. -/
theorem dependency_absorbing (ts : List Trait) (t : Trait) (ht : t ∈ ts)
    (hd : dropUnitFlag t = Dependency) : dropUnitFlag (joinAll ts) = Dependency := by
  rw [dropUnit_eq] at hd ⊢
  have hz : hi t = 0 := by
    have : ∀ x : BitVec 9, (x ++ BitVec.allOnes 10 : BitVec 19) = Dependency → x = 0 := by
      decide +kernel
    exact this _ hd
  have hj : joinAll ts = t &&& joinAll ts := by
    apply BitVec.eq_of_getLsbD_eq
    intro i hi'
    rw [BitVec.getLsbD_and, joinAll_bit _ _ hi']
    cases hx : t.getLsbD i
    · simp only [Bool.false_and]
      exact List.all_eq_false.2 ⟨t, ht, by simp [hx]⟩
    · simp
  rw [hj, hi_and, hz, show (0 &&& hi (joinAll ts) : BitVec 9) = 0 by simp]
  decide

/-- C13. A unit trait is set in a join iff it is set in some of joined traits. -/
theorem joinAll_unit (ts : List Trait) (u : UnitTrait) :
    toUnit (joinAll ts) u = ts.any fun t => toUnit t u := by
  have hb : u.bit < 19 := by cases u <;> decide
  rw [toUnit_eq, joinAll_bit _ _ hb, Bool.eq_iff_iff]
  simp [toUnit_eq]

theorem joined_joinAll {ts : List Trait} (h : ∀ t ∈ ts, Joined t) : Joined (joinAll ts) := by
  have : ∀ (ts : List Trait) (a : Trait), Joined a → (∀ t ∈ ts, Joined t) →
      Joined (ts.foldl (· &&& ·) a) := by
    intro ts
    induction ts with
    | nil => intro a ha _; exact ha
    | cons t ts ih =>
      intro a ha h
      exact ih _ (.join ha (h t (by simp))) (fun t ht => h t (by simp [ht]))
  exact this ts _ (.base .noAccess) h

/-- The order of traits with respect to loss of information: each trait is listed with traits to
which it may be weakened by one join. -/
theorem documented_order :
    Readonly &&& LastPrivate = LastPrivate &&& FirstPrivate ∧
    Readonly &&& Private = FirstPrivate ∧
    Readonly &&& SecondToLastPrivate = SecondToLastPrivate &&& FirstPrivate ∧
    Readonly &&& DynamicPrivate = DynamicPrivate &&& FirstPrivate ∧
    Readonly &&& Shared = Shared ∧
    LastPrivate &&& SecondToLastPrivate = DynamicPrivate ∧
    Private &&& LastPrivate = LastPrivate ∧
    Private &&& SecondToLastPrivate = SecondToLastPrivate ∧
    Private &&& FirstPrivate = FirstPrivate ∧
    Reduction &&& Induction = Dependency ∧
    Reduction &&& Private = Dependency ∧
    Induction &&& Readonly = Dependency := by decide

/-- C13. `dropSharedFlag` and `dropUnitFlag` drop only flags they are named after: the first one
keeps all unit traits and the second one drops all of them and keeps the dependence part. -/
theorem drop_flags (t : Trait) (u : UnitTrait) :
    toUnit (dropSharedFlag t) u = toUnit t u ∧ toUnit (dropUnitFlag t) u = false ∧
    dropUnitFlag (dropSharedFlag t) = dropSharedFlag (dropUnitFlag t) ∧
    hasSharedJoin (dropSharedFlag t) = false ∧ hasSharedJoin (dropUnitFlag t) = hasSharedJoin t := by
  have hm : ∀ u : UnitTrait, (dropUnitFlag (~~~SharedJoin)).getLsbD u.bit = true ∧
      (~~~AllUnitFlags).getLsbD u.bit = true := by
    intro u; cases u <;> decide
  have hh : ∀ x : BitVec 9, hi (x ++ BitVec.allOnes 10 : BitVec 19) = x := by decide +kernel
  refine ⟨?_, ?_, ?_, ?_, ?_⟩
  · rw [toUnit_eq, toUnit_eq, dropSharedFlag, BitVec.getLsbD_and, (hm u).1, Bool.and_true]
  · rw [toUnit_eq, dropUnitFlag, BitVec.getLsbD_or, (hm u).2, Bool.or_true, Bool.not_true]
  · have : ∀ x : BitVec 9, ((x &&& 0b111111110#9) ++ BitVec.allOnes 10 : BitVec 19) =
        dropSharedFlag (x ++ BitVec.allOnes 10 : BitVec 19) := by decide +kernel
    rw [dropUnit_drop, dropUnit_eq, this]
  · have : ∀ x : BitVec 9, decide (x &&& 0b111111110#9 &&& 1#9 ≠ 0) = false := by decide +kernel
    rw [hasSharedJoin_eq, dropSharedFlag, hi_and,
      show hi (dropUnitFlag (~~~SharedJoin)) = 0b111111110#9 by decide, this]
  · rw [hasSharedJoin_eq, hasSharedJoin_eq, dropUnit_eq, hh]

/-- C13. Privatizable traits with the shared flag: the flag is found and may be dropped. -/
theorem shared_flag :
    ∀ t ∈ [Private, FirstPrivate, SecondToLastPrivate, LastPrivate, DynamicPrivate,
      FirstPrivate &&& LastPrivate, FirstPrivate &&& SecondToLastPrivate,
      FirstPrivate &&& DynamicPrivate],
    hasSharedJoin t = false ∧ hasSharedJoin (t ||| SharedJoin) = true ∧
    dropSharedFlag (t ||| SharedJoin) = t := by
  intro t ht
  simp only [List.mem_cons, List.not_mem_nil, or_false] at ht
  rcases ht with rfl | rfl | rfl | rfl | rfl | rfl | rfl | rfl <;> decide +kernel

/-! ## C14 -/

/-- The descriptor of alternatives produced for a dependence part. -/
def depOfPart (x : BitVec 9) : Option (DepTrait → Bool) :=
  (depCalls (x ++ BitVec.allOnes 10)).map fun ls => ls.foldl setDep fun _ => false

theorem toDescriptor_part (t : Trait) :
    toDescriptor t = (depOfPart (hi t)).map fun d => ⟨toUnit t, d⟩ := by
  unfold toDescriptor depOfPart
  rw [depCalls_hi]
  cases depCalls (hi t ++ BitVec.allOnes 10) <;> rfl

theorem part_round_trip : ∀ x ∈ parts,
    ∃ d, depOfPart x = some d ∧ ofDep d = (x ++ BitVec.allOnes 10 : BitVec 19) := by
  have : ∀ x ∈ parts, (depOfPart x).map ofDep = some (x ++ BitVec.allOnes 10 : BitVec 19) := by
    decide +kernel
  intro x hx
  have h := this x hx
  cases hd : depOfPart x with
  | none => simp [hd] at h
  | some d => exact ⟨d, rfl, by simpa [hd] using h⟩

theorem unitIf_bit (d : UnitTrait → Bool) (u : UnitTrait) (i : Nat) (h : i < 19) :
    (unitIf d u).getLsbD i = !(decide (i = u.bit) && d u) := by
  unfold unitIf
  have h1 : ∀ u : UnitTrait, ∀ i < 19, u.mask.getLsbD i = !decide (i = u.bit) := by
    intro u; cases u <;> decide
  split
  · rename_i hd; rw [h1 u i h]; simp [hd]
  · rename_i hd
    simp only [Bool.not_eq_true] at hd
    rw [noAccess_bit i h, hd, Bool.and_false, Bool.not_false]

/-- C14. `toDescriptor` never reaches `llvm_unreachable` for any join of documented traits, and the
trait built from the result is equal to the source trait (including all unit flags). -/
theorem descriptor_round_trip (t : Trait) (h : Joined t) :
    ∃ d, toDescriptor t = some d ∧ ofDescriptor d = t := by
  obtain ⟨d, hd, hb⟩ := part_round_trip _ (hi_mem h)
  refine ⟨⟨toUnit t, d⟩, by rw [toDescriptor_part, hd]; rfl, ?_⟩
  apply BitVec.eq_of_getLsbD_eq
  intro i hlt
  unfold ofDescriptor
  simp only [BitVec.getLsbD_and, unitIf_bit _ _ _ hlt, hb, toUnit_eq]
  have hna : NoAccess.getLsbD i = true := noAccess_bit i hlt
  rw [hna, BitVec.getLsbD_append]
  by_cases h10 : i < 10
  · simp only [h10, ↓reduceIte, BitVec.getLsbD_allOnes, decide_true, Bool.and_true, Bool.true_and]
    interval_cases i <;> simp [UnitTrait.bit]
  · have h9 : i - 10 < 9 := by omega
    have he : 10 + (i - 10) = i := by omega
    have hne : ∀ u : UnitTrait, decide (i = u.bit) = false := by
      intro u
      have : u.bit < 10 := by cases u <;> decide
      simp; omega
    simp [hne, h10, hi, BitVec.getLsbD_extractLsb', h9, he]

/-- C14. The descriptor of any join of documented traits is consistent: traits which are set belong
to one union (alternatives are not mixed) and at least one of them is set. -/
theorem descriptor_consistent (t : Trait) (h : Joined t) :
    ∃ d, toDescriptor t = some d ∧ (∃ a, d.dep a = true) ∧
      ∃ u ∈ DepTrait.unions, ∀ a, d.dep a = true → a ∈ u := by
  have hall : ∀ x ∈ parts, ∃ d, depOfPart x = some d ∧ (∃ a, d a = true) ∧
      ∃ u ∈ DepTrait.unions, ∀ a, d a = true → a ∈ u := by
    have enum : ∀ (p : DepTrait → Bool),
        (([.noAccess, .readonly, .reduction, .induction, .flow, .anti, .output, .priv, .shared,
          .lastPrivate, .firstPrivate, .secondToLastPrivate, .dynamicPrivate] :
            List DepTrait).all p) = true → ∀ a, p a = true := by
      intro p hp a
      rw [List.all_eq_true] at hp
      apply hp
      cases a <;> decide
    have key : ∀ x ∈ parts, ((depOfPart x).map fun d =>
        (([.noAccess, .readonly, .reduction, .induction, .flow, .anti, .output, .priv, .shared,
          .lastPrivate, .firstPrivate, .secondToLastPrivate, .dynamicPrivate] :
            List DepTrait).any d) &&
        (DepTrait.unions.any fun u => ([.noAccess, .readonly, .reduction, .induction, .flow, .anti,
          .output, .priv, .shared, .lastPrivate, .firstPrivate, .secondToLastPrivate,
          .dynamicPrivate] : List DepTrait).all fun a => !d a || u.contains a)) = some true := by
      decide +kernel
    intro x hx
    have hk := key x hx
    cases hd : depOfPart x with
    | none => simp [hd] at hk
    | some d =>
      simp only [hd, Option.map_some, Option.some.injEq, Bool.and_eq_true] at hk
      obtain ⟨h1, h2⟩ := hk
      obtain ⟨a, _, ha⟩ := List.any_eq_true.1 h1
      obtain ⟨u, hu, hua⟩ := List.any_eq_true.1 h2
      refine ⟨d, rfl, ⟨a, ha⟩, u, hu, fun a ha => ?_⟩
      have := enum _ hua a
      simpa [ha] using this
  obtain ⟨d, hd, h1, h2⟩ := hall _ (hi_mem h)
  exact ⟨⟨toUnit t, d⟩, by rw [toDescriptor_part, hd]; rfl, h1, h2⟩

/-- C13/C14. Absence of dependencies: the descriptor of a join of documented traits reports that
there is no dependence iff descriptors of all joined traits do. -/
theorem joinAll_hasNoDep (ts : List Trait) (h : ∀ t ∈ ts, Joined t) :
    (toDescriptor (joinAll ts)).map Dptr.hasNoDep =
      some (ts.all fun t => (toDescriptor t).map Dptr.hasNoDep == some true) := by
  have key : ∀ x ∈ parts, ((depOfPart x).map fun d => d .noAccess || d .readonly || d .shared) =
      some (x.getLsbD 0) := by decide +kernel
  have one : ∀ t, Joined t → (toDescriptor t).map Dptr.hasNoDep = some (t.getLsbD 10) := by
    intro t ht
    rw [toDescriptor_part, Option.map_map]
    have hk := key _ (hi_mem ht)
    have hb : (hi t).getLsbD 0 = t.getLsbD 10 := by simp [hi, BitVec.getLsbD_extractLsb']
    rw [hb] at hk
    rw [← hk]
    rfl
  rw [one _ (joined_joinAll h), joinAll_bit _ _ (by decide)]
  congr 1
  rw [Bool.eq_iff_iff]
  simp only [List.all_eq_true]
  constructor
  · intro hh t ht; rw [one t (h t ht), hh t ht]; decide
  · intro hh t ht
    have := hh t ht
    rw [one t (h t ht)] at this
    simpa using this

/-- C13/C14. A join of documented traits is read-only iff all joined traits are read-only or not
accessed, and at least one of them is read-only. -/
theorem joinAll_readonly (ts : List Trait) (h : ∀ t ∈ ts, Joined t) :
    dropUnitFlag (joinAll ts) = Readonly ↔
      (∀ t ∈ ts, dropUnitFlag t = Readonly ∨ dropUnitFlag t = NoAccess) ∧
      ∃ t ∈ ts, dropUnitFlag t = Readonly := by
  have eqv : ∀ x : BitVec 9, ((x ++ BitVec.allOnes 10 : BitVec 19) = Readonly ↔ x = 0b100111101#9) ∧
      ((x ++ BitVec.allOnes 10 : BitVec 19) = NoAccess ↔ x = 0b111111111#9) := by decide +kernel
  have step : ∀ a ∈ parts, ∀ b ∈ parts, (a &&& b = 0b100111101#9 ↔
      (a = 0b100111101#9 ∨ a = 0b111111111#9) ∧ (b = 0b100111101#9 ∨ b = 0b111111111#9) ∧
      (a = 0b100111101#9 ∨ b = 0b100111101#9)) := by decide +kernel
  have stepn : ∀ a ∈ parts, ∀ b ∈ parts, (a &&& b = 0b111111111#9 ↔
      a = 0b111111111#9 ∧ b = 0b111111111#9) := by decide +kernel
  simp only [dropUnit_eq, (eqv _).1, (eqv _).2]
  have hn : ∀ ts : List Trait, (∀ t ∈ ts, Joined t) →
      (hi (joinAll ts) = 0b111111111#9 ↔ ∀ t ∈ ts, hi t = 0b111111111#9) := by
    intro ts
    induction ts with
    | nil => intro _; simp; decide
    | cons t ts ih =>
      intro h
      have hj := joined_joinAll (ts := ts) (fun t ht => h t (by simp [ht]))
      rw [show joinAll (t :: ts) = t &&& joinAll ts by
        rw [show t :: ts = [t] ++ ts by rfl, joinAll_append]
        congr 1
        apply BitVec.eq_of_getLsbD_eq; intro i hlt; rw [joinAll_bit _ _ hlt]; simp, hi_and,
        stepn _ (hi_mem (h t (by simp))) _ (hi_mem hj), ih (fun t ht => h t (by simp [ht]))]
      simp
  induction ts with
  | nil => simp; decide
  | cons t ts ih =>
    have hts : ∀ t ∈ ts, Joined t := fun t ht => h t (by simp [ht])
    have hj := joined_joinAll hts
    have ih' : _ ↔ _ := ih hts
    rw [show joinAll (t :: ts) = t &&& joinAll ts by
      rw [show t :: ts = [t] ++ ts by rfl, joinAll_append]
      congr 1
      apply BitVec.eq_of_getLsbD_eq; intro i hlt; rw [joinAll_bit _ _ hlt]; simp, hi_and,
      step _ (hi_mem (h t (by simp))) _ (hi_mem hj), ih', hn ts hts]
    simp only [List.mem_cons, forall_eq_or_imp, exists_eq_or_imp]
    constructor
    · rintro ⟨h1, h2, h3⟩
      refine ⟨⟨h1, ?_⟩, ?_⟩
      · rcases h2 with h2 | h2
        · exact h2.1
        · exact fun t ht => Or.inr (h2 t ht)
      · rcases h3 with h3 | h3
        · exact Or.inl h3
        · exact Or.inr h3.2
    · rintro ⟨⟨h1, h2⟩, h3⟩
      refine ⟨h1, ?_, ?_⟩
      · by_cases hex : ∃ x ∈ ts, hi x = 0b100111101#9
        · exact Or.inl ⟨h2, hex⟩
        · refine Or.inr fun x hx => ?_
          rcases h2 x hx with h | h
          · exact absurd ⟨x, hx, h⟩ hex
          · exact h
      · rcases h3 with h3 | h3
        · exact Or.inl h3
        · exact Or.inr ⟨h2, h3⟩

/-- Non-vacuity: a read-only part, a last private part and a header access of the same memory. -/
example : Joined (joinAll [Readonly, LastPrivate ||| SharedJoin, HeaderAccess]) ∧
    (toDescriptor (joinAll [Readonly, LastPrivate ||| SharedJoin, HeaderAccess])).map
      (fun d => (d.dep .shared, d.dep .firstPrivate, d.dep .lastPrivate, d.dep .flow,
        d.unit .headerAccess, d.unit .lock)) = some (true, true, true, false, true, false) := by
  refine ⟨joined_joinAll ?_, by decide +kernel⟩
  intro t ht
  simp only [List.mem_cons, List.not_mem_nil, or_false] at ht
  rcases ht with rfl | rfl | rfl
  · exact .base .readonly
  · exact .base .sharedLast
  · exact .base (.unit .headerAccess)

/-- Not every bit pattern is a join of documented traits: `toDescriptor` may reach
`llvm_unreachable` otherwise. -/
theorem toDescriptor_arbitrary_fails : ¬ ∀ t : Trait, toDescriptor t ≠ none := by
  intro h
  exact h 0b0001000001111111111#19 (by decide +kernel)

/-! ## C56 -/

/-- C56. Counters of a memory statistic are mixed up: the counter of explicitly accessed locations
counts accesses in a loop header and vice versa. -/
theorem statistic_counter_fails : ¬ ∀ tag ∈ statTags, counterOf tag = some tag := by
  intro h
  have := h (.unit .explicitAccess) (by decide)
  revert this
  decide

/-- C56, the part which holds: all other counters count the trait they are named after. -/
theorem statistic_counter_partial (tag : StatTag) (h : tag ∈ statTags)
    (h1 : tag ≠ .unit .explicitAccess) (h2 : tag ≠ .unit .headerAccess) :
    counterOf tag = some tag := by
  have : ∀ tag ∈ statTags, tag ≠ .unit .explicitAccess → tag ≠ .unit .headerAccess →
    counterOf tag = some tag := by decide
  exact this tag h h1 h2

/-- C56. For any join of documented traits, `toDescriptor` counts exactly traits of the resulting
descriptor (except `NoAccess` which has no counter). -/
theorem counted_exact (t : Trait) (h : Joined t) :
    ∃ d c, toDescriptor t = some d ∧ counted t = some c ∧
      (∀ u, StatTag.unit u ∈ c ↔ d.unit u = true) ∧
      (∀ a, StatTag.dep a ∈ c ↔ d.dep a = true ∧ a ≠ .noAccess) ∧ c.Nodup := by
  have key : ∀ x ∈ parts, ∃ ls, depCalls (x ++ BitVec.allOnes 10) = some ls ∧ ls.Nodup ∧
      ∀ a, (ls.foldl setDep fun _ => false) a = true ↔ a ∈ ls := by
    have : ∀ x ∈ parts, ((depCalls (x ++ BitVec.allOnes 10)).map fun ls => decide ls.Nodup &&
        ([.noAccess, .readonly, .reduction, .induction, .flow, .anti,
          .output, .priv, .shared, .lastPrivate, .firstPrivate, .secondToLastPrivate,
          .dynamicPrivate] : List DepTrait).all fun a =>
            (ls.foldl setDep fun _ => false) a == ls.contains a) = some true := by decide +kernel
    intro x hx
    have hk := this x hx
    cases hd : depCalls (x ++ BitVec.allOnes 10) with
    | none => rw [hd, Option.map_none] at hk; cases hk
    | some ls =>
      simp only [hd, Option.map_some, Option.some.injEq, Bool.and_eq_true, decide_eq_true_eq,
        List.all_eq_true, beq_iff_eq] at hk
      refine ⟨ls, rfl, hk.1, fun a => ?_⟩
      rw [hk.2 a (by cases a <;> decide)]
      simp
  obtain ⟨ls, hls, hnd, hmem⟩ := key _ (hi_mem h)
  have hc : depCalls t = some ls := by rw [depCalls_hi]; exact hls
  refine ⟨_, _, by rw [toDescriptor, hc]; rfl, by rw [counted, hc]; rfl, ?_, ?_, ?_⟩
  · intro u
    simp only [List.mem_append, List.mem_map, List.mem_filter, StatTag.unit.injEq, exists_eq_right,
      reduceCtorEq, and_false, exists_false, or_false]
    refine ⟨fun h => h.2, fun h => ⟨?_, h⟩⟩
    cases u <;> decide
  · intro a
    simp only [List.mem_append, List.mem_map, List.mem_filter, StatTag.dep.injEq, exists_eq_right,
      reduceCtorEq, and_false, exists_false, false_or, hmem, decide_eq_true_eq]
  · refine List.nodup_append.2 ⟨?_, ?_, ?_⟩
    · refine List.Nodup.map (fun _ _ h => StatTag.unit.inj h) (List.Nodup.filter _ (by decide))
    · exact List.Nodup.map (fun _ _ h => StatTag.dep.inj h) (List.Nodup.filter _ hnd)
    · intro a ha b hb
      obtain ⟨_, _, rfl⟩ := List.mem_map.1 ha
      obtain ⟨_, _, rfl⟩ := List.mem_map.1 hb
      simp

/-- A descriptor which respects alternatives and is saturated with respect to dependencies:
BitMemoryTrait does not distinguish flow, anti and output dependencies. -/
def Dptr.sets : List (List DepTrait) :=
  [[.noAccess], [.readonly], [.reduction], [.induction], [.flow, .anti, .output], [.shared],
   [.priv], [.priv, .shared], [.firstPrivate], [.firstPrivate, .shared],
   [.lastPrivate], [.lastPrivate, .shared], [.lastPrivate, .firstPrivate],
   [.lastPrivate, .firstPrivate, .shared],
   [.secondToLastPrivate], [.secondToLastPrivate, .shared], [.secondToLastPrivate, .firstPrivate],
   [.secondToLastPrivate, .firstPrivate, .shared],
   [.dynamicPrivate], [.dynamicPrivate, .shared], [.dynamicPrivate, .firstPrivate],
   [.dynamicPrivate, .firstPrivate, .shared]]

/-- C14. For descriptors: traits of a consistent descriptor are restored from its bitwise
representation. -/
theorem trait_round_trip (unit : UnitTrait → Bool) (ls : List DepTrait) (h : ls ∈ Dptr.sets) :
    toDescriptor (ofDescriptor ⟨unit, fun a => ls.contains a⟩) =
      some ⟨unit, fun a => ls.contains a⟩ := by
  have key : ∀ ls ∈ Dptr.sets, hi (ofDep fun a => ls.contains a) ∈ parts ∧
      (ofDep fun a => ls.contains a) = hi (ofDep fun a => ls.contains a) ++ BitVec.allOnes 10 ∧
      ((depOfPart (hi (ofDep fun a => ls.contains a))).map fun d =>
        ([.noAccess, .readonly, .reduction, .induction, .flow, .anti,
          .output, .priv, .shared, .lastPrivate, .firstPrivate, .secondToLastPrivate,
          .dynamicPrivate] : List DepTrait).all fun a => d a == ls.contains a) = some true := by
    decide +kernel
  obtain ⟨_, h2, h3⟩ := key ls h
  set p := ofDep fun a => ls.contains a with hp
  have hbit : ∀ i < 19, (ofDescriptor ⟨unit, fun a => ls.contains a⟩).getLsbD i =
      (p.getLsbD i && ([.addressAccess, .explicitAccess, .headerAccess, .lock, .redundant,
        .noRedundant, .noPromotedScalar, .directAccess, .indirectAccess, .useAfterLoop] :
          List UnitTrait).all fun u => !(decide (i = u.bit) && unit u)) := by
    intro i hlt
    have hna : NoAccess.getLsbD i = true := noAccess_bit i hlt
    unfold ofDescriptor
    simp only [BitVec.getLsbD_and, unitIf_bit _ _ _ hlt, hna, ← hp, List.all_cons, List.all_nil]
    ac_rfl
  have hhi : hi (ofDescriptor ⟨unit, fun a => ls.contains a⟩) = hi p := by
    apply BitVec.eq_of_getLsbD_eq
    intro i hlt
    have hne : ∀ u : UnitTrait, decide (10 + i = u.bit) = false := by
      intro u
      have : u.bit < 10 := by cases u <;> decide
      simp; omega
    simp only [hi, BitVec.getLsbD_extractLsb', hlt, decide_true, Bool.true_and]
    rw [hbit (10 + i) (by omega)]
    simp [hne]
  have hunit : toUnit (ofDescriptor ⟨unit, fun a => ls.contains a⟩) = unit := by
    funext u
    have hb : u.bit < 10 := by cases u <;> decide
    have hpb : p.getLsbD u.bit = true := by
      rw [h2, BitVec.getLsbD_append, if_pos hb, BitVec.getLsbD_allOnes, decide_eq_true hb]
    rw [toUnit_eq, hbit _ (by omega), hpb]
    cases u <;> simp [UnitTrait.bit]
  rw [toDescriptor_part, hhi, hunit]
  cases hd : depOfPart (hi p) with
  | none => simp [hd] at h3
  | some d =>
    simp only [hd, Option.map_some, Option.some.injEq, List.all_eq_true, beq_iff_eq] at h3
    have : d = fun a => ls.contains a := by
      funext a
      exact h3 a (by cases a <;> decide)
    rw [this]; rfl

/-- Non-vacuity, and the loss of information: a flow dependence becomes a flow, anti and output
dependence. -/
example : [DepTrait.lastPrivate, .firstPrivate, .shared] ∈ Dptr.sets ∧
    (toDescriptor (ofDescriptor ⟨fun _ => false, fun a => decide (a = .flow)⟩)).map
      (fun d => (d.dep .flow, d.dep .anti, d.dep .output)) = some (true, true, true) := by
  refine ⟨by decide, by decide +kernel⟩

end Tsar.BitTrait
