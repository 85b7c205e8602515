import Verif.Parallel.Model
import Verif.BitTrait.Props
import Mathlib.Data.List.Sublists

/-!
# Traits of alias nodes are safe joins of traits of memory locations (C72)
-/

namespace Tsar
namespace Parallel

open BitTrait

variable {M N V : Type} [DecidableEq M] [DecidableEq N] [DecidableEq V]

/-! ## Specification -/

/-- A descriptor of a memory location respects alternatives: at least one alternative is set and all of them
belong to a common union (this is what the external class `TraitDescriptor` maintains). -/
def Legal (d : Dptr) : Prop := (∃ a, d.dep a = true) ∧ ∃ u ∈ DepTrait.unions, ∀ a, d.dep a = true → a ∈ u

/-- Traits of locations satisfy assertions of `combineTraits` (DIDependenceAnalysis.cpp:729-734, 778-783). -/
def Elem.WF (e : Elem M N V) : Prop := Legal e.dptr ∧ ¬ (e.redundant = true ∧ e.noRedundant = true)

/-- A location which is accessed only with the help of other locations of the same alias node, traits of these
other locations are known and they are not ignored as redundant. -/
def CoveredByOthers (ir : Bool) (elems : List (Elem M N V)) (e : Elem M N V) : Prop :=
  e.dptr.unit .indirectAccess = true ∧ e.dptr.unit .directAccess = false ∧
  ∃ l, e.indirect = some l ∧ ∀ m ∈ l, ∃ c ∈ elems, c.mem = m ∧ ¬ (ir = true ∧ c.redundant = true)

/-- A location is taken into account if it is neither redundant (if redundant memory should be ignored) nor
accessed through other locations only. -/
def Counted (ir : Bool) (elems : List (Elem M N V)) (e : Elem M N V) : Prop :=
  e ∈ elems ∧ ¬ (ir = true ∧ e.redundant = true) ∧ ¬ CoveredByOthers ir elems e

/-- The kinds of loop-carried dependencies. -/
def IsDepKind (k : DepTrait) : Prop := k = .flow ∨ k = .anti ∨ k = .output

/-! ## Descriptors -/

theorem legal_table : ∀ u ∈ DepTrait.unions, ∀ l ∈ u.sublists, l ≠ [] →
    (hi (ofDep fun a => l.contains a) ∈ parts ∧
     (ofDep fun a => l.contains a) = hi (ofDep fun a => l.contains a) ++ BitVec.allOnes 10 ∧
     (hi (ofDep fun a => l.contains a)).getLsbD 0 =
       (l.contains .noAccess || l.contains .readonly || l.contains .shared) ∧
     ((l.contains .flow || l.contains .anti || l.contains .output) = true →
       hi (ofDep fun a => l.contains a) = 0 ∧
       (l.contains .noAccess || l.contains .readonly || l.contains .shared) = false) ∧
     ((l.contains .reduction || l.contains .induction) = true →
       (l.contains .noAccess || l.contains .readonly || l.contains .shared) = false) ∧
     (l.contains .noAccess = true → hi (ofDep fun a => l.contains a) = BitVec.allOnes 9) ∧
     (depOfPart (hi (ofDep fun a => l.contains a))).map (fun d => d .priv) = some (l.contains .priv)) := by
  decide +kernel

theorem legal_list {d : Dptr} (h : Legal d) :
    ∃ u ∈ DepTrait.unions, ∃ l ∈ u.sublists, l ≠ [] ∧ d.dep = fun a => l.contains a := by
  obtain ⟨⟨a, ha⟩, u, hu, hs⟩ := h
  refine ⟨u, hu, u.filter d.dep, List.mem_sublists.2 List.filter_sublist, ?_, ?_⟩
  · intro h0
    have : a ∈ u.filter d.dep := List.mem_filter.2 ⟨hs a ha, ha⟩
    rw [h0] at this
    cases this
  · funext b
    rw [Bool.eq_iff_iff]
    simp only [List.contains_iff_mem, List.mem_filter]
    exact ⟨fun hb => ⟨hs b hb, hb⟩, fun hb => hb.2⟩

theorem ofDescriptor_bit (d : Dptr) (i : Nat) (h : i < 19) :
    (ofDescriptor d).getLsbD i = ((ofDep d.dep).getLsbD i &&
      ([.addressAccess, .explicitAccess, .headerAccess, .lock, .redundant, .noRedundant, .noPromotedScalar,
        .directAccess, .indirectAccess, .useAfterLoop] : List UnitTrait).all fun u =>
          !(decide (i = u.bit) && d.unit u)) := by
  have hna : NoAccess.getLsbD i = true := noAccess_bit i h
  unfold ofDescriptor
  simp only [BitVec.getLsbD_and, unitIf_bit _ _ _ h, hna, List.all_cons, List.all_nil]
  ac_rfl

theorem hi_ofDescriptor (d : Dptr) : hi (ofDescriptor d) = hi (ofDep d.dep) := by
  apply BitVec.eq_of_getLsbD_eq
  intro i hlt
  have hne : ∀ u : UnitTrait, decide (10 + i = u.bit) = false := by
    intro u
    have : u.bit < 10 := by cases u <;> decide
    simp; omega
  simp only [hi, BitVec.getLsbD_extractLsb', hlt, decide_true, Bool.true_and]
  rw [ofDescriptor_bit _ (10 + i) (by omega)]
  simp [hne]

/-- `hasNoDep` of a descriptor. -/
theorem legal_bit {d : Dptr} (h : Legal d) : (hi (ofDescriptor d)).getLsbD 0 = d.hasNoDep := by
  obtain ⟨u, hu, l, hl, hne, hd⟩ := legal_list h
  have := (legal_table u hu l hl hne).2.2.1
  rw [hi_ofDescriptor, hd, this, Dptr.hasNoDep, hd]

theorem legal_parts {d : Dptr} (h : Legal d) : hi (ofDescriptor d) ∈ parts := by
  obtain ⟨u, hu, l, hl, hne, hd⟩ := legal_list h
  rw [hi_ofDescriptor, hd]
  exact (legal_table u hu l hl hne).1

theorem legal_dep {d : Dptr} (h : Legal d) {k : DepTrait} (hk : IsDepKind k) (hd : d.dep k = true) :
    hi (ofDescriptor d) = 0 ∧ d.hasNoDep = false := by
  obtain ⟨u, hu, l, hl, hne, he⟩ := legal_list h
  rw [hi_ofDescriptor, he, Dptr.hasNoDep, he]
  refine (legal_table u hu l hl hne).2.2.2.1 ?_
  rw [he] at hd
  rcases hk with rfl | rfl | rfl
  · rw [show l.contains DepTrait.flow = true from hd]; rfl
  · rw [show l.contains DepTrait.anti = true from hd, Bool.or_true]; rfl
  · rw [show l.contains DepTrait.output = true from hd, Bool.or_true]

theorem legal_red {d : Dptr} (h : Legal d) (hd : d.dep .reduction = true) : d.hasNoDep = false := by
  obtain ⟨u, hu, l, hl, hne, he⟩ := legal_list h
  rw [Dptr.hasNoDep, he]
  refine (legal_table u hu l hl hne).2.2.2.2.1 ?_
  rw [he] at hd
  rw [show l.contains DepTrait.reduction = true from hd]; rfl

theorem legal_noAccess {d : Dptr} (h : Legal d) (hd : d.dep .noAccess = true) :
    hi (ofDescriptor d) = BitVec.allOnes 9 := by
  obtain ⟨u, hu, l, hl, hne, he⟩ := legal_list h
  rw [hi_ofDescriptor, he]
  refine (legal_table u hu l hl hne).2.2.2.2.2.1 ?_
  rw [he] at hd
  exact hd

theorem legal_priv {d : Dptr} (h : Legal d) :
    (depOfPart (hi (ofDescriptor d))).map (fun d => d .priv) = some (d.dep .priv) := by
  obtain ⟨u, hu, l, hl, hne, he⟩ := legal_list h
  rw [hi_ofDescriptor, he]
  exact (legal_table u hu l hl hne).2.2.2.2.2.2

theorem ofDescriptor_unit {d : Dptr} (h : Legal d) (u : UnitTrait) :
    toUnit (ofDescriptor d) u = d.unit u := by
  obtain ⟨w, hw, l, hl, hne, he⟩ := legal_list h
  have h2 := (legal_table w hw l hl hne).2.1
  have hb : u.bit < 10 := by cases u <;> decide
  have hpb : (ofDep d.dep).getLsbD u.bit = true := by
    rw [he, h2, BitVec.getLsbD_append, if_pos hb, BitVec.getLsbD_allOnes, decide_eq_true hb]
  rw [toUnit_eq, ofDescriptor_bit _ _ (by omega), hpb]
  cases u <;> simp [UnitTrait.bit]

theorem part_table : ∀ x ∈ parts, ((depOfPart x).map fun d => d .noAccess || d .readonly || d .shared) =
    some (x.getLsbD 0) := by decide +kernel

theorem part_zero : (depOfPart 0).map (fun d => (d .flow && d .anti && d .output)) = some true := by decide +kernel

theorem part_legal : ∀ x ∈ parts, (depOfPart x).map (fun d =>
    (!(d .flow || d .anti || d .output) ||
      allDeps.all fun a => !d a || a == .flow || a == .anti || a == .output)) = some true := by decide +kernel

theorem part_some {x : BitVec 9} (h : x ∈ parts) : ∃ d, depOfPart x = some d := by
  have := part_table x h
  cases hd : depOfPart x with
  | none => simp [hd] at this
  | some d => exact ⟨d, rfl⟩

theorem mem_allDeps (a : DepTrait) : a ∈ allDeps := by cases a <;> decide

/-! ## The loop -/

/-- Elements which are really joined by the loop. -/
def joins (ir : Bool) (elems l : List (Elem M N V)) : List (Elem M N V) :=
  l.filter fun e => !(e.redundant && ir) && ignored ir elems e == some false

/-- What is known about local variables after elements `l` have been visited. -/
structure RunSpec (ir : Bool) (n : N) (elems l : List (Elem M N V)) (a : Acc) : Prop where
  hiCt : hi a.ct = (joins ir elems l).foldl (fun x e => x &&& hi (ofDescriptor e.dptr)) (BitVec.allOnes 9)
  unit : ∀ u, u ≠ .redundant →
    toUnit a.ct u = (joins ir elems l).any fun e => toUnit (ofDescriptor e.dptr) u
  num : a.num = ((joins ir elems l).filter fun e => !e.dptr.dep .noAccess).length
  spur : a.spur = (joins ir elems l).any fun e => hasSpuriousDep e.dptr
  dep : ∀ k, a.dep k = (joins ir elems l).any fun e => e.dptr.dep k && (k == .flow || k == .anti || k == .output)

theorem toUnit_and (s t : Trait) (u : UnitTrait) : toUnit (s &&& t) u = (toUnit s u || toUnit t u) := by
  simp only [toUnit_eq, BitVec.getLsbD_and, Bool.not_and]

theorem toUnit_noAccess (u : UnitTrait) : toUnit NoAccess u = false := by cases u <;> decide

theorem hi_redundant : hi BitTrait.Redundant = BitVec.allOnes 9 := by decide

theorem toUnit_redundant (u : UnitTrait) (h : u ≠ .redundant) : toUnit BitTrait.Redundant u = false := by
  cases u <;> first | decide | exact absurd rfl h

theorem flags_ct (a : Acc) (n : N) (e : Elem M N V) :
    hi (a.flags n e).ct = hi a.ct ∧ ∀ u, u ≠ .redundant → toUnit (a.flags n e).ct u = toUnit a.ct u := by
  unfold Acc.flags
  simp only
  split
  · refine ⟨?_, fun u hu => ?_⟩
    · rw [hi_and, hi_redundant, BitVec.and_allOnes]
    · rw [toUnit_and, toUnit_redundant u hu, Bool.or_false]
  · exact ⟨rfl, fun _ _ => rfl⟩

theorem run_spec (ir : Bool) (n : N) (elems : List (Elem M N V)) : ∀ (l pre : List (Elem M N V)) (a b : Acc),
    RunSpec ir n elems pre a → Acc.run ir n elems l a = some b → RunSpec ir n elems (pre ++ l) b := by
  intro l
  induction l with
  | nil =>
    intro pre a b ha hr
    simp only [Acc.run, Option.some.injEq] at hr
    rw [List.append_nil, ← hr]
    exact ha
  | cons e l ih =>
    intro pre a b ha hr
    simp only [Acc.run] at hr
    obtain ⟨c, hc, hr⟩ := Option.bind_eq_some_iff.1 hr
    have := ih (pre ++ [e]) c b ?_ hr
    · rwa [List.append_assoc, List.singleton_append] at this
    have hj : joins ir elems (pre ++ [e]) = joins ir elems pre ++
        (if (!(e.redundant && ir) && ignored ir elems e == some false) = true then [e] else []) := by
      unfold joins
      rw [List.filter_append, List.filter_cons, List.filter_nil]
    have hskip : (joins ir elems (pre ++ [e]) = joins ir elems pre) →
        c = a.flags n e → RunSpec ir n elems (pre ++ [e]) c := by
      intro h1 h2
      obtain ⟨hf1, hf2⟩ := flags_ct a n e
      subst h2
      constructor
      · rw [h1, hf1, ha.hiCt]
      · intro u hu; rw [h1, hf2 u hu, ha.unit u hu]
      · rw [h1]; exact ha.num
      · rw [h1]; exact ha.spur
      · intro k; rw [h1]; exact ha.dep k
    unfold Acc.step at hc
    by_cases hrd : (e.redundant && ir) = true
    · rw [if_pos hrd] at hc
      refine hskip ?_ (Option.some.inj hc).symm
      rw [hj, if_neg (by simp [hrd]), List.append_nil]
    · rw [if_neg hrd] at hc
      obtain ⟨ig, hig, hc⟩ := Option.map_eq_some_iff.1 hc
      cases ig with
      | true =>
        refine hskip ?_ (by simpa using hc.symm)
        rw [hj, if_neg (by rw [hig]; simp), List.append_nil]
      | false =>
        simp only [Bool.false_eq_true, ↓reduceIte] at hc
        rw [if_pos (by rw [hig]; simp [hrd])] at hj
        obtain ⟨hf1, hf2⟩ := flags_ct a n e
        subst hc
        constructor
        · rw [hj, List.foldl_append]
          simp only [Acc.join, hi_and, List.foldl_cons, List.foldl_nil]
          rw [hf1, ha.hiCt]
        · intro u hu
          rw [hj, List.any_append]
          simp only [Acc.join, toUnit_and, List.any_cons, List.any_nil, Bool.or_false]
          rw [hf2 u hu, ha.unit u hu]
        · rw [hj, List.filter_append, List.length_append]
          simp only [Acc.join, Acc.flags, ha.num]
          cases h0 : e.dptr.dep .noAccess <;> simp [h0]
        · rw [hj, List.any_append]
          simp only [Acc.join, Acc.flags, ha.spur, List.any_cons, List.any_nil, Bool.or_false]
        · intro k
          rw [hj, List.any_append]
          simp only [Acc.join, Acc.flags, ha.dep k, List.any_cons, List.any_nil, Bool.or_false]

theorem init_spec (ir : Bool) (n : N) (elems : List (Elem M N V)) : RunSpec ir n elems [] Acc.init := by
  constructor
  · simp only [joins, List.filter_nil, List.foldl_nil]; decide
  · intro u _; simp only [joins, List.filter_nil, List.any_nil]; exact toUnit_noAccess u
  · rfl
  · rfl
  · intro k; rfl

theorem ignored_iff (ir : Bool) (elems : List (Elem M N V)) (e : Elem M N V) (b : Bool)
    (h : ignored ir elems e = some b) : b = true → CoveredByOthers ir elems e := by
  intro hb
  subst hb
  unfold ignored at h
  split at h
  · rename_i hc
    simp only [Bool.and_eq_true, Bool.not_eq_eq_eq_not, Bool.not_true] at hc
    obtain ⟨l, hl, hall⟩ := Option.map_eq_some_iff.1 h
    refine ⟨hc.1, hc.2, l, hl, fun m hm => ?_⟩
    have := List.all_eq_true.1 hall m hm
    cases hf : elems.find? (fun c => decide (c.mem = m)) with
    | none => simp [hf] at this
    | some c =>
      simp only [hf, Bool.not_eq_true', Bool.and_eq_false_iff] at this
      refine ⟨c, List.mem_of_find?_eq_some hf, by simpa using List.find?_some hf, ?_⟩
      rintro ⟨h1, h2⟩
      rcases this with h | h
      · rw [h1] at h; cases h
      · rw [h2] at h; cases h
  · cases h

theorem run_defined (ir : Bool) (n : N) (elems : List (Elem M N V)) : ∀ (l : List (Elem M N V)) (a b : Acc),
    Acc.run ir n elems l a = some b → ∀ e ∈ l, (e.redundant && ir) = false → ∃ ig, ignored ir elems e = some ig := by
  intro l
  induction l with
  | nil => intro _ _ _ e he; cases he
  | cons x l ih =>
    intro a b hr e he hnr
    simp only [Acc.run] at hr
    obtain ⟨c, hc, hr⟩ := Option.bind_eq_some_iff.1 hr
    rcases List.mem_cons.1 he with rfl | he
    · unfold Acc.step at hc
      rw [if_neg (by simp [hnr])] at hc
      obtain ⟨ig, hig, _⟩ := Option.map_eq_some_iff.1 hc
      exact ⟨ig, hig⟩
    · exact ih c b hr e he hnr

/-- Counted locations are joined. -/
theorem counted_joins {ir : Bool} {n : N} {elems : List (Elem M N V)} {a : Acc}
    (hr : Acc.run ir n elems elems Acc.init = some a) {e : Elem M N V} (hc : Counted ir elems e) :
    e ∈ joins ir elems elems := by
  obtain ⟨he, hnr, hnc⟩ := hc
  have hb : (e.redundant && ir) = false := by
    cases h1 : e.redundant <;> cases h2 : ir <;> simp_all
  obtain ⟨ig, hig⟩ := run_defined ir n elems elems _ a hr e he hb
  refine List.mem_filter.2 ⟨he, ?_⟩
  rw [hb, hig]
  cases ig with
  | false => simp
  | true => exact absurd (ignored_iff ir elems e _ hig rfl) hnc

/-- Joined locations are counted: each location occurs once. -/
theorem joins_counted {ir : Bool} {elems : List (Elem M N V)} (hnd : (elems.map Elem.mem).Nodup)
    {e : Elem M N V} (hj : e ∈ joins ir elems elems) : Counted ir elems e := by
  obtain ⟨hm, hb⟩ := List.mem_filter.1 hj
  simp only [Bool.and_eq_true, Bool.not_eq_eq_eq_not, Bool.not_true, beq_iff_eq] at hb
  refine ⟨hm, ?_, ?_⟩
  · rintro ⟨h1, h2⟩
    rw [h1, h2] at hb
    exact absurd hb.1 (by decide)
  · rintro ⟨h1, h2, l, hl, hall⟩
    have hig := hb.2
    unfold ignored at hig
    rw [if_pos (by simp [h1, h2]), hl] at hig
    simp only [Option.map_some, Option.some.injEq] at hig
    rw [List.all_eq_false] at hig
    obtain ⟨m, hml, hmf⟩ := hig
    obtain ⟨c, hce, hcm, hcr⟩ := hall m hml
    cases hf : elems.find? (fun c => decide (c.mem = m)) with
    | none =>
      rw [List.find?_eq_none] at hf
      exact absurd (by simpa using hcm) (hf c hce)
    | some c' =>
      rw [hf] at hmf
      have hcc : c' = c := List.inj_on_of_nodup_map hnd (List.mem_of_find?_eq_some hf) hce
        ((by simpa using List.find?_some hf : c'.mem = m).trans hcm.symm)
      subst hcc
      apply hmf
      cases h3 : ir <;> cases h4 : c'.redundant <;> simp_all

theorem foldl_hi (l : List (Elem M N V)) (x : BitVec 9) (i : Nat) :
    (l.foldl (fun x e => x &&& hi (ofDescriptor e.dptr)) x).getLsbD i =
      (x.getLsbD i && l.all fun e => (hi (ofDescriptor e.dptr)).getLsbD i) := by
  induction l generalizing x with
  | nil => simp
  | cons e l ih => rw [List.foldl_cons, ih, List.all_cons, BitVec.getLsbD_and, Bool.and_assoc]

theorem foldl_parts (l : List (Elem M N V)) (x : BitVec 9) (hx : x ∈ parts) (h : ∀ e ∈ l, Legal e.dptr) :
    l.foldl (fun x e => x &&& hi (ofDescriptor e.dptr)) x ∈ parts := by
  induction l generalizing x with
  | nil => exact hx
  | cons e l ih =>
    exact ih _ (parts_closed _ hx _ (legal_parts (h e (by simp)))) (fun e he => h e (by simp [he]))

theorem allOnes_parts : BitVec.allOnes 9 ∈ parts := by decide

/-- The dependence part of the joined traits of several locations. -/
theorem hi_several (t : Trait) : hi (several t) =
    if hi t = BitVec.allOnes 9 then BitVec.allOnes 9
    else if hi t = 0b100111101#9 then 0b100111101#9
    else if (hi t).getLsbD 0 then 0b100000101#9 else 0 := by
  have hor : hi (t ||| AllUnitFlags) = BitVec.allOnes 9 := by
    apply BitVec.eq_of_getLsbD_eq
    intro i hlt
    have : ∀ i < 9, AllUnitFlags.getLsbD (10 + i) = true := by decide
    rw [hi, BitVec.getLsbD_extractLsb', BitVec.getLsbD_or, this i hlt, BitVec.getLsbD_allOnes, Bool.or_true,
      Bool.and_true]
  have eqv : ∀ x : BitVec 9, ((x ++ BitVec.allOnes 10 : BitVec 19) = Readonly ↔ x = 0b100111101#9) ∧
      ((x ++ BitVec.allOnes 10 : BitVec 19) = NoAccess ↔ x = BitVec.allOnes 9) := by decide +kernel
  have hsh : hasSharedJoin t = (hi t).getLsbD 0 := by
    rw [hasSharedJoin_eq]
    generalize hi t = x
    revert x
    decide +kernel
  unfold several
  rw [hi_and, hor, BitVec.allOnes_and, dropUnit_eq]
  simp only [(eqv _).1, (eqv _).2, hsh]
  split
  · decide
  · split
    · decide
    · split <;> decide

theorem toUnit_several (t : Trait) (u : UnitTrait) : toUnit (several t) u = toUnit t u := by
  have hx : ∀ x ∈ [NoAccess, Readonly, Shared, Dependency], toUnit x u = false := by
    intro x hx
    rw [toUnit_eq]
    simp only [List.mem_cons, List.not_mem_nil, or_false] at hx
    rcases hx with rfl | rfl | rfl | rfl <;> cases u <;> decide
  have hm : (if dropUnitFlag t = NoAccess then NoAccess
     else if dropUnitFlag t = Readonly then Readonly
     else if hasSharedJoin t then Shared else Dependency) ∈ [NoAccess, Readonly, Shared, Dependency] := by
    split
    · simp
    · split
      · simp
      · split <;> simp
  unfold several
  rw [toUnit_and, hx _ hm, Bool.or_false, toUnit_eq, toUnit_eq, BitVec.getLsbD_or]
  have : AllUnitFlags.getLsbD u.bit = false := by cases u <;> decide
  rw [this, Bool.or_false]

/-- `updateDep` keeps dependencies of the first descriptor. -/
theorem updateDep_kind (f d : DepTrait → Bool) (k : DepTrait) (hk : IsDepKind k) : updateDep f d k = f k := by
  rcases hk with rfl | rfl | rfl <;>
    (simp only [updateDep, List.foldl_cons, List.foldl_nil]
     cases h1 : f .flow <;> cases h2 : f .anti <;> cases h3 : f .output <;>
       simp [setDep, DepTrait.compatible, DepTrait.unions])

/-- `updateDep` never sets other traits. -/
theorem updateDep_other (f d : DepTrait → Bool) (k : DepTrait) (hk : ¬ IsDepKind k) :
    updateDep f d k = (d k && !(f .flow || f .anti || f .output)) := by
  have hc : ∀ x, IsDepKind x → DepTrait.compatible k x = false := by
    rintro x (rfl | rfl | rfl) <;> revert hk <;> cases k <;> unfold IsDepKind <;> decide
  have hne : k ≠ .flow ∧ k ≠ .anti ∧ k ≠ .output := by
    refine ⟨?_, ?_, ?_⟩ <;> rintro rfl <;> exact hk (by simp [IsDepKind])
  simp only [updateDep, List.foldl_cons, List.foldl_nil]
  have c1 := hc .flow (by simp [IsDepKind])
  have c2 := hc .anti (by simp [IsDepKind])
  have c3 := hc .output (by simp [IsDepKind])
  cases h1 : f .flow <;> cases h2 : f .anti <;> cases h3 : f .output <;>
    simp [setDep, c1, c2, c3, hne.1, hne.2.1, hne.2.2]

/-- Everything which is used about the result of `combineTraits` for several locations. -/
theorem combine_spec {ir : Bool} {n : N} {elems : List (Elem M N V)} (hw : ∀ e ∈ elems, Legal e.dptr)
    (hlen : elems.length ≠ 1) {d : Dptr} (h : combineTraits ir n elems = some d) :
    ∃ (a : Acc) (dd : DepTrait → Bool), Acc.run ir n elems elems Acc.init = some a ∧
      RunSpec ir n elems elems a ∧ hi a.ct ∈ parts ∧
      depOfPart (hi (if a.num > 1 then several a.ct else a.ct)) = some dd ∧
      d.dep = (if a.spur then dd else updateDep a.dep dd) ∧
      (∀ u, u ∈ [UnitTrait.addressAccess, .headerAccess, .useAfterLoop, .lock] → d.unit u = toUnit a.ct u) := by
  have hm : combineTraits ir n elems = (Acc.run ir n elems elems Acc.init).bind Acc.finish := by
    match elems, hlen with
    | [], _ => rfl
    | [_], h => exact absurd rfl h
    | _ :: _ :: _, _ => rfl
  rw [hm] at h
  obtain ⟨a, ha, hf⟩ := Option.bind_eq_some_iff.1 h
  have hs := run_spec ir n elems elems [] _ a (init_spec ir n elems) ha
  rw [List.nil_append] at hs
  have hp : hi a.ct ∈ parts := by
    rw [hs.hiCt]
    exact foldl_parts _ _ allOnes_parts (fun e he => hw e (List.mem_filter.1 he).1)
  unfold Acc.finish at hf
  rw [toDescriptor_part, Option.map_map] at hf
  obtain ⟨dd, hdd, hf⟩ := Option.map_eq_some_iff.1 hf
  refine ⟨a, dd, ha, hs, hp, hdd, by rw [← hf]; rfl, fun u hu => ?_⟩
  have htu : toUnit (if a.num > 1 then several a.ct else a.ct) u = toUnit a.ct u := by
    split
    · exact toUnit_several _ _
    · rfl
  simp only [List.mem_cons, List.not_mem_nil, or_false] at hu
  rw [← hf, ← htu]
  rcases hu with rfl | rfl | rfl | rfl <;> rfl

/-- The dependence part after several locations have been taken into account: it is free of dependencies iff it
was. -/
theorem hi_choice_bit (b : Prop) [Decidable b] (t : Trait) :
    (hi (if b then several t else t)).getLsbD 0 = (hi t).getLsbD 0 := by
  by_cases hb : b
  · rw [if_pos hb, hi_several]
    generalize hi t = x
    revert x
    decide +kernel
  · rw [if_neg hb]

theorem several_parts (b : Prop) [Decidable b] (t : Trait) (h : hi t ∈ parts) :
    hi (if b then several t else t) ∈ parts := by
  by_cases hb : b
  · rw [if_pos hb, hi_several]
    split
    · decide
    · split
      · decide
      · split <;> decide
  · rwa [if_neg hb]

/-- C72. No dependence is lost: if a counted location has a flow, anti or output dependence then the alias node
has it. -/
theorem combine_keeps_dependence {ir : Bool} {n : N} {elems : List (Elem M N V)} (hw : ∀ e ∈ elems, e.WF)
    {d : Dptr} (h : combineTraits ir n elems = some d) {e : Elem M N V} (hc : Counted ir elems e)
    {k : DepTrait} (hk : IsDepKind k) (he : e.dptr.dep k = true) : d.dep k = true := by
  by_cases hlen : elems.length = 1
  · obtain ⟨x, rfl⟩ := List.length_eq_one_iff.1 hlen
    have : e = x := by simpa using hc.1
    subst this
    simp only [combineTraits, Option.some.injEq] at h
    have hb : (ir && e.redundant) = false := by
      have := hc.2.1
      cases h1 : e.redundant <;> cases h2 : ir <;> simp_all
    rw [← h]
    simp only [single, hb]
    exact he
  · obtain ⟨a, dd, ha, hs, hp, hdd, hdep, _⟩ := combine_spec (fun e he => (hw e he).1) hlen h
    have hj := counted_joins ha hc
    have hl := (hw e hc.1).1
    have h0 : hi a.ct = 0 := by
      apply BitVec.eq_of_getLsbD_eq
      intro i _
      rw [hs.hiCt, foldl_hi]
      have : ((joins ir elems elems).all fun e => (hi (ofDescriptor e.dptr)).getLsbD i) = false := by
        rw [List.all_eq_false]
        refine ⟨e, hj, ?_⟩
        rw [(legal_dep hl hk he).1]
        simp
      rw [this]
      simp
    rw [hdep]
    by_cases hsp : a.spur = true
    · rw [if_pos hsp]
      have : hi (if a.num > 1 then several a.ct else a.ct) = 0 := by
        split
        · rw [hi_several, h0]; decide
        · exact h0
      rw [this] at hdd
      have hz := part_zero
      rw [hdd] at hz
      simp only [Option.map_some, Option.some.injEq, Bool.and_eq_true] at hz
      rcases hk with rfl | rfl | rfl
      · exact hz.1.1
      · exact hz.1.2
      · exact hz.2
    · rw [if_neg hsp, updateDep_kind _ _ _ hk, hs.dep k, List.any_eq_true]
      refine ⟨e, hj, ?_⟩
      rw [he]
      rcases hk with rfl | rfl | rfl <;> rfl

/-- Traits of an alias node with a dependence are dependencies only. -/
theorem combine_dep_only {ir : Bool} {n : N} {elems : List (Elem M N V)} (hw : ∀ e ∈ elems, Legal e.dptr)
    (hlen : elems.length ≠ 1) {d : Dptr} (h : combineTraits ir n elems = some d) {k : DepTrait} (hk : IsDepKind k)
    (hd : d.dep k = true) : ∀ a, d.dep a = true → IsDepKind a := by
  obtain ⟨a, dd, ha, hs, hp, hdd, hdep, _⟩ := combine_spec hw hlen h
  intro b hb
  by_contra hnb
  rw [hdep] at hd hb
  split at hd
  · rename_i hsp
    rw [if_pos hsp] at hb
    have := part_legal _ (several_parts (a.num > 1) a.ct hp)
    rw [hdd] at this
    simp only [Option.map_some, Option.some.injEq] at this
    have h1 : (dd .flow || dd .anti || dd .output) = true := by
      rcases hk with rfl | rfl | rfl <;> simp [hd]
    rw [h1, Bool.not_true, Bool.false_or, List.all_eq_true] at this
    have := this b (mem_allDeps b)
    rw [hb] at this
    simp only [Bool.not_true, Bool.false_or, Bool.or_eq_true, beq_iff_eq] at this
    exact hnb (by unfold IsDepKind; tauto)
  · rename_i hsp
    rw [if_neg hsp] at hb
    rw [updateDep_kind _ _ _ hk] at hd
    rw [updateDep_other _ _ _ hnb] at hb
    have h1 : (a.dep .flow || a.dep .anti || a.dep .output) = true := by
      rcases hk with rfl | rfl | rfl <;> simp [hd]
    rw [h1] at hb
    simp at hb

/-- C72. The alias node is free of dependencies (read-only, shared or not accessed) iff all counted locations
are. -/
theorem combine_noDep {ir : Bool} {n : N} {elems : List (Elem M N V)} (hw : ∀ e ∈ elems, e.WF)
    (hnd : (elems.map Elem.mem).Nodup) (hlen : elems.length ≠ 1) {d : Dptr}
    (h : combineTraits ir n elems = some d) :
    d.hasNoDep = true ↔ ∀ e, Counted ir elems e → e.dptr.hasNoDep = true := by
  obtain ⟨a, dd, ha, hs, hp, hdd, hdep, _⟩ := combine_spec (fun e he => (hw e he).1) hlen h
  have h2 := part_table _ (several_parts (a.num > 1) a.ct hp)
  rw [hdd] at h2
  simp only [Option.map_some, Option.some.injEq] at h2
  rw [hi_choice_bit, hs.hiCt, foldl_hi] at h2
  constructor
  · intro hd e hc
    have hj := counted_joins ha hc
    have h1 : (dd .noAccess || dd .readonly || dd .shared) = true := by
      unfold Dptr.hasNoDep at hd
      rw [hdep] at hd
      split at hd
      · exact hd
      · rw [updateDep_other _ _ _ (by simp [IsDepKind]), updateDep_other _ _ _ (by simp [IsDepKind]),
          updateDep_other _ _ _ (by simp [IsDepKind])] at hd
        revert hd
        cases dd .noAccess <;> cases dd .readonly <;> cases dd .shared <;> simp
    rw [h1] at h2
    have h3 := (Bool.and_eq_true_iff.1 h2.symm).2
    rw [← legal_bit (hw e hc.1).1]
    exact List.all_eq_true.1 h3 e hj
  · intro hall
    have hall' : ∀ e ∈ joins ir elems elems, e.dptr.hasNoDep = true :=
      fun e he => hall e (joins_counted hnd he)
    have h1 : (dd .noAccess || dd .readonly || dd .shared) = true := by
      rw [h2, Bool.and_eq_true_iff]
      refine ⟨by decide, List.all_eq_true.2 fun e he => ?_⟩
      rw [legal_bit (hw e (List.mem_filter.1 he).1).1]
      exact hall' e he
    unfold Dptr.hasNoDep
    rw [hdep]
    split
    · exact h1
    · have hz : ∀ k, IsDepKind k → a.dep k = false := by
        intro k hk
        rw [hs.dep k, List.any_eq_false]
        intro e he hek
        have := (legal_dep (hw e (List.mem_filter.1 he).1).1 hk (Bool.and_eq_true_iff.1 hek).1).2
        rw [hall' e he] at this
        cases this
      rw [updateDep_other _ _ _ (by simp [IsDepKind]), updateDep_other _ _ _ (by simp [IsDepKind]),
          updateDep_other _ _ _ (by simp [IsDepKind]), hz _ (by simp [IsDepKind]), hz _ (by simp [IsDepKind]),
          hz _ (by simp [IsDepKind])]
      simpa using h1

/-- C72. An address of memory of an alias node is accessed iff an address of a counted location is accessed; the
same holds for accesses in a header of a loop and for uses after a loop. -/
theorem combine_flags {ir : Bool} {n : N} {elems : List (Elem M N V)} (hw : ∀ e ∈ elems, e.WF)
    (hnd : (elems.map Elem.mem).Nodup)
    (hlen : elems.length ≠ 1) {d : Dptr} (h : combineTraits ir n elems = some d) {u : UnitTrait}
    (hu : u ∈ [UnitTrait.addressAccess, .headerAccess, .useAfterLoop, .lock]) :
    d.unit u = true ↔ ∃ e, Counted ir elems e ∧ e.dptr.unit u = true := by
  obtain ⟨a, dd, ha, hs, hp, hdd, hdep, hunit⟩ := combine_spec (fun e he => (hw e he).1) hlen h
  rw [hunit u hu, hs.unit u (by rintro rfl; simp at hu), List.any_eq_true]
  constructor
  · rintro ⟨e, hj, he⟩
    have hc := joins_counted hnd hj
    rw [ofDescriptor_unit (hw e hc.1).1] at he
    exact ⟨e, hc, he⟩
  · rintro ⟨e, hc, he⟩
    exact ⟨e, counted_joins ha hc, by rw [ofDescriptor_unit (hw e hc.1).1]; exact he⟩

/-- A location may be privatized. -/
def Privatizable (d : Dptr) : Prop :=
  d.dep .priv = true ∨ d.dep .lastPrivate = true ∨ d.dep .firstPrivate = true ∨ d.dep .secondToLastPrivate = true ∨
    d.dep .dynamicPrivate = true

theorem spurious_iff (d : Dptr) : hasSpuriousDep d = true ↔
    (d.hasNoDep = false ∧ ∀ k, IsDepKind k → d.dep k = false) ∨ Privatizable d := by
  have hk : (∀ k, IsDepKind k → d.dep k = false) ↔ (d.dep .flow = false ∧ d.dep .anti = false ∧ d.dep .output = false) := by
    constructor
    · intro h
      exact ⟨h _ (by simp [IsDepKind]), h _ (by simp [IsDepKind]), h _ (by simp [IsDepKind])⟩
    · rintro ⟨a, b, c⟩ k (rfl | rfl | rfl) <;> assumption
  rw [hk]
  unfold hasSpuriousDep Dptr.hasNoDep Privatizable
  simp only [Bool.or_eq_true, Bool.and_eq_true, Bool.not_eq_eq_eq_not, Bool.not_true, Bool.or_eq_false_iff]
  tauto

/-- C72. If each counted location either is free of dependencies or has a flow, anti or output dependence, and
there are no privatizable locations, then kinds of dependencies of the alias node are exactly kinds of dependencies of
counted locations. -/
theorem combine_exact {ir : Bool} {n : N} {elems : List (Elem M N V)} (hw : ∀ e ∈ elems, e.WF)
    (hnd : (elems.map Elem.mem).Nodup) (hlen : elems.length ≠ 1) {d : Dptr}
    (h : combineTraits ir n elems = some d)
    (hp : ∀ e, Counted ir elems e → (e.dptr.hasNoDep = true ∨ ∃ k, IsDepKind k ∧ e.dptr.dep k = true) ∧
      ¬ Privatizable e.dptr) {k : DepTrait} (hk : IsDepKind k) :
    d.dep k = true ↔ ∃ e, Counted ir elems e ∧ e.dptr.dep k = true := by
  constructor
  · intro hd
    obtain ⟨a, dd, ha, hs, _, hdd, hdep, _⟩ := combine_spec (fun e he => (hw e he).1) hlen h
    have hsp : a.spur = false := by
      rw [hs.spur, List.any_eq_false]
      intro e he hc
      obtain ⟨h1, h2⟩ := hp e (joins_counted hnd he)
      rcases (spurious_iff _).1 hc with ⟨h3, h4⟩ | h3
      · rcases h1 with h1 | ⟨k, hk, h1⟩
        · rw [h3] at h1; cases h1
        · rw [h4 k hk] at h1; cases h1
      · exact h2 h3
    rw [hdep, hsp, if_neg (by simp), updateDep_kind _ _ _ hk, hs.dep, List.any_eq_true] at hd
    obtain ⟨e, he, hek⟩ := hd
    exact ⟨e, joins_counted hnd he, (Bool.and_eq_true_iff.1 hek).1⟩
  · rintro ⟨e, hc, he⟩
    exact combine_keeps_dependence hw h hc hk he

/-- C72. A reduction, an induction or a privatizable location (which is not shared) that is aliased with another
accessed location: the alias node has all kinds of dependencies. -/
theorem combine_conservative {ir : Bool} {n : N} {elems : List (Elem M N V)} (hw : ∀ e ∈ elems, e.WF)
    {d : Dptr} (h : combineTraits ir n elems = some d) {e e' : Elem M N V} (hc : Counted ir elems e)
    (hc' : Counted ir elems e') (hne : e ≠ e') (ha' : e'.dptr.dep .noAccess = false)
    (hd : e.dptr.hasNoDep = false) (hs : ∀ k, IsDepKind k → e.dptr.dep k = false) {k : DepTrait} (hk : IsDepKind k) :
    d.dep k = true := by
  have hlen : elems.length ≠ 1 := by
    intro hl
    obtain ⟨x, rfl⟩ := List.length_eq_one_iff.1 hl
    exact hne ((List.mem_singleton.1 hc.1).trans (List.mem_singleton.1 hc'.1).symm)
  obtain ⟨a, dd, ha, hsp, hp, hdd, hdep, _⟩ := combine_spec (fun e he => (hw e he).1) hlen h
  have hj := counted_joins ha hc
  have hj' := counted_joins ha hc'
  have hspur : a.spur = true := by
    rw [hsp.spur, List.any_eq_true]
    exact ⟨e, hj, (spurious_iff _).2 (Or.inl ⟨hd, hs⟩)⟩
  have hna : e.dptr.dep .noAccess = false := by
    unfold Dptr.hasNoDep at hd
    revert hd
    cases e.dptr.dep .noAccess <;> simp
  have hnum : a.num > 1 := by
    rw [hsp.num]
    have h1 : e ∈ (joins ir elems elems).filter fun e => !e.dptr.dep .noAccess :=
      List.mem_filter.2 ⟨hj, by rw [hna]; rfl⟩
    have h2 : e' ∈ (joins ir elems elems).filter fun e => !e.dptr.dep .noAccess :=
      List.mem_filter.2 ⟨hj', by rw [ha']; rfl⟩
    revert h1 h2
    generalize (joins ir elems elems).filter (fun e => !e.dptr.dep .noAccess) = l
    intro h1 h2
    match l with
    | [] => cases h1
    | [x] => exact absurd ((List.mem_singleton.1 h1).trans (List.mem_singleton.1 h2).symm) hne
    | x :: y :: l => simp
  have hbit : (hi a.ct).getLsbD 0 = false := by
    rw [hsp.hiCt, foldl_hi]
    have : ((joins ir elems elems).all fun e => (hi (ofDescriptor e.dptr)).getLsbD 0) = false := by
      rw [List.all_eq_false]
      refine ⟨e, hj, ?_⟩
      rw [legal_bit (hw e hc.1).1, hd]
      simp
    rw [this, Bool.and_false]
  have h0 : hi (several a.ct) = 0 := by
    rw [hi_several]
    revert hbit
    generalize hi a.ct = x
    revert x
    decide +kernel
  rw [if_pos hnum, h0] at hdd
  rw [hdep, if_pos hspur]
  have hz := part_zero
  rw [hdd] at hz
  simp only [Option.map_some, Option.some.injEq, Bool.and_eq_true] at hz
  rcases hk with rfl | rfl | rfl
  · exact hz.1.1
  · exact hz.1.2
  · exact hz.2

/-- C72. Traits of an alias node are always computed if lists of locations, which are used to access a location
indirectly, are attached. -/
theorem combine_defined (ir : Bool) (n : N) (elems : List (Elem M N V)) (hw : ∀ e ∈ elems, e.WF)
    (ha : ∀ e ∈ elems, e.dptr.unit .indirectAccess = true → e.indirect ≠ none) :
    ∃ d, combineTraits ir n elems = some d := by
  have hrun : ∀ (l : List (Elem M N V)) (a : Acc), (∀ e ∈ l, e ∈ elems) →
      ∃ b, Acc.run ir n elems l a = some b := by
    intro l
    induction l with
    | nil => intro a _; exact ⟨a, rfl⟩
    | cons e l ih =>
      intro a hl
      have : ∃ c, Acc.step ir n elems a e = some c := by
        unfold Acc.step
        split
        · exact ⟨_, rfl⟩
        · have : ∃ ig, ignored ir elems e = some ig := by
            unfold ignored
            split
            · rename_i hc
              cases hi : e.indirect with
              | none => exact absurd hi (ha e (hl e (by simp)) (Bool.and_eq_true_iff.1 hc).1)
              | some l => exact ⟨_, rfl⟩
            · exact ⟨_, rfl⟩
          obtain ⟨ig, hig⟩ := this
          rw [hig]
          exact ⟨_, rfl⟩
      obtain ⟨c, hc⟩ := this
      obtain ⟨b, hb⟩ := ih c (fun e he => hl e (by simp [he]))
      exact ⟨b, by simp only [Acc.run, hc, Option.bind_some, hb]⟩
  have hgen : ∃ d, (Acc.run ir n elems elems Acc.init).bind Acc.finish = some d := by
    obtain ⟨b, hb⟩ := hrun elems Acc.init (fun _ h => h)
    have hs := run_spec ir n elems elems [] _ b (init_spec ir n elems) hb
    rw [List.nil_append] at hs
    have hp : hi b.ct ∈ parts := by
      rw [hs.hiCt]
      exact foldl_parts _ _ allOnes_parts (fun e he => (hw e (List.mem_filter.1 he).1).1)
    obtain ⟨dd, hdd⟩ := part_some (several_parts (b.num > 1) b.ct hp)
    rw [hb, Option.bind_some, Acc.finish, toDescriptor_part, hdd]
    exact ⟨_, rfl⟩
  match elems, hgen with
  | [], h => exact h
  | [e], _ => exact ⟨_, rfl⟩
  | _ :: _ :: _, h => exact h

/-! ## Examples -/

/-- A location without attached descriptions. -/
def exElem (m : Nat) (us : List UnitTrait) (ds : List DepTrait) : Elem Nat Nat Nat :=
  ⟨m, 0, ⟨fun u => us.contains u, fun d => ds.contains d⟩, none, none, none, none, some (false, 0)⟩

theorem exElem_wf (m : Nat) (us : List UnitTrait) (ds : List DepTrait) (hne : ds ≠ [])
    (hu : ∃ u ∈ DepTrait.unions, ∀ a ∈ ds, a ∈ u) (hr : ¬ (.redundant ∈ us ∧ .noRedundant ∈ us)) :
    (exElem m us ds).WF := by
  refine ⟨⟨?_, ?_⟩, ?_⟩
  · cases ds with
    | nil => exact absurd rfl hne
    | cons d ds => exact ⟨d, by simp [exElem]⟩
  · obtain ⟨u, hu, h⟩ := hu
    exact ⟨u, hu, fun a ha => h a (by simpa [exElem] using ha)⟩
  · simpa [exElem, Elem.redundant, Elem.noRedundant] using hr

/-- A shared location and a location with a flow dependence: both are counted and the flow dependence (and no other
dependence) is a trait of the alias node. -/
example : (∀ e ∈ [exElem 1 [.noRedundant] [.shared], exElem 2 [.noRedundant] [.flow]], e.WF) ∧
    Counted true [exElem 1 [.noRedundant] [.shared], exElem 2 [.noRedundant] [.flow]]
      (exElem 2 [.noRedundant] [.flow]) ∧
    (combineTraits true 0 [exElem 1 [.noRedundant] [.shared], exElem 2 [.noRedundant] [.flow]]).map
      (fun d => (d.dep .flow, d.dep .anti, d.dep .output, d.dep .shared, d.unit .noRedundant)) =
      some (true, false, false, false, true) := by
  refine ⟨?_, ⟨by simp, ?_, ?_⟩, by decide +kernel⟩
  · intro e he
    simp only [List.mem_cons, List.not_mem_nil, or_false] at he
    rcases he with rfl | rfl <;> exact exElem_wf _ _ _ (by decide) (by decide) (by decide)
  · decide
  · rintro ⟨h, _⟩
    exact absurd h (by decide)

/-- Two shared locations, an address of one of them is accessed. -/
example : (combineTraits true 0 [exElem 1 [.noRedundant] [.shared], exElem 2 [.noRedundant, .addressAccess] [.readonly]]).map
      (fun d => (d.hasNoDep, d.dep .shared, d.unit .addressAccess)) = some (true, true, true) := by decide +kernel

/-- A reduction variable which is aliased with a shared location. -/
example : (combineTraits true 0 [exElem 1 [.noRedundant] [.reduction], exElem 2 [.noRedundant] [.shared]]).map
      (fun d => (d.dep .flow, d.dep .anti, d.dep .output, d.dep .reduction)) = some (true, true, true, false) := by
  decide +kernel

/-- Operations on unsigned integers which correspond to kinds of reductions. -/
def RedKind.op : RedKind → Option (Nat → Nat → Nat)
  | .noReduction => none
  | .add => some (· + ·)
  | .mult => some (· * ·)
  | .or => some (· ||| ·)
  | .and => some (· &&& ·)
  | .xor => some (· ^^^ ·)
  | .max => some Nat.max
  | .min => some Nat.min

/-- Operations of recurrences (rounding and signedness are not distinguished). -/
def RecurKind.op : RecurKind → Option (Nat → Nat → Nat)
  | .add => some (· + ·)
  | .fadd => some (· + ·)
  | .fmulAdd => some (· + ·)
  | .mul => some (· * ·)
  | .fmul => some (· * ·)
  | .or => some (· ||| ·)
  | .and => some (· &&& ·)
  | .xor => some (· ^^^ ·)
  | .fmax => some Nat.max
  | .smax => some Nat.max
  | .umax => some Nat.max
  | .fmin => some Nat.min
  | .smin => some Nat.min
  | .umin => some Nat.min
  | .selectICmp => none
  | .selectFCmp => none

/-- The kind of a reduction describes the operation of the recurrence. -/
theorem getReductionKind_op (k : RecurKind) : (getReductionKind k).op = k.op := by cases k <;> rfl

end Parallel
end Tsar
