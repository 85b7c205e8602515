import Verif.DIDep.Model
import Verif.Parallel.Combine

/-!
# Combination of metadata-level dependencies (C80)
-/

namespace Tsar
namespace DIDep

open BitTrait Parallel

/-! ## Specification -/

/-- A vector of distances (a distance for each level of a loop nest) satisfies all known bounds. -/
def Within (d : Nat → Int) (l : List Range) : Prop :=
  ∀ i r, l[i]? = some r → (∀ lo, r.1 = some lo → lo ≤ d i) ∧ (∀ hi, r.2 = some hi → d i ≤ hi)

/-- A trait does not exclude a dependence of kind `k` with distances `d`. If kinds of dependencies are not known
(`spurious`) everything is possible, otherwise the kind must be set and distances must satisfy attached bounds (if
there is an attached value). -/
def Trait.Allows (t : Trait) (k : Tag) (d : Nat → Int) : Prop :=
  (t.is k = true ∧ ∀ r, t.rep k = some r → Within d r.dist) ∨ (t.is k = false ∧ t.spurious = true)

/-- A well-formed trait: alternatives are legal and values are attached to traits which are set. -/
structure Trait.WF (t : Trait) : Prop where
  legal : Legal t.dptr
  attached : ∀ k, (t.rep k).isSome = true → t.is k = true

/-! ## Lists of distances -/

theorem low_le {a b : Option Int} {c : Int} (h : low a b = some c) :
    (∃ x, a = some x ∧ c ≤ x) ∧ ∃ x, b = some x ∧ c ≤ x := by
  cases a with
  | none => cases h
  | some x =>
    cases b with
    | none => cases h
    | some y =>
      simp only [low, Option.some.injEq] at h
      refine ⟨⟨x, rfl, ?_⟩, y, rfl, ?_⟩ <;> split at h <;> omega

theorem high_ge {a b : Option Int} {c : Int} (h : high a b = some c) :
    (∃ x, a = some x ∧ x ≤ c) ∧ ∃ x, b = some x ∧ x ≤ c := by
  cases a with
  | none => cases h
  | some x =>
    cases b with
    | none => cases h
    | some y =>
      simp only [high, Option.some.injEq] at h
      refine ⟨⟨x, rfl, ?_⟩, y, rfl, ?_⟩ <;> split at h <;> omega

theorem trim_cons (x : Range) (l : List Range) :
    trim (x :: l) = if (trim l).isEmpty && x.1.isNone && x.2.isNone then [] else x :: trim l := rfl

theorem trim_get : ∀ (l : List Range) (i : Nat), (trim l)[i]? = l[i]? ∨ ((trim l)[i]? = none ∧ ∀ r, l[i]? = some r → r = (none, none))
  | [], i => Or.inl rfl
  | x :: l, i => by
    rw [trim_cons]
    split
    · rename_i h
      simp only [Bool.and_eq_true, List.isEmpty_iff, Option.isNone_iff_eq_none] at h
      right
      refine ⟨rfl, fun r hr => ?_⟩
      cases i with
      | zero =>
        simp only [List.getElem?_cons_zero, Option.some.injEq] at hr
        rw [← hr]; exact Prod.ext h.1.2 h.2
      | succ i =>
        rw [List.getElem?_cons_succ] at hr
        rcases trim_get l i with h' | h'
        · rw [h.1.1, hr] at h'; cases h'
        · exact h'.2 r hr
    · cases i with
      | zero => left; rfl
      | succ i => simpa using trim_get l i

theorem within_trim {d : Nat → Int} {l : List Range} : Within d (trim l) ↔ Within d l := by
  constructor
  · intro h i r hr
    rcases trim_get l i with h' | h'
    · exact h i r (h' ▸ hr)
    · rw [h'.2 r hr]; exact ⟨by simp, by simp⟩
  · intro h i r hr
    rcases trim_get l i with h' | h'
    · exact h i r (h' ▸ hr)
    · rw [h'.1] at hr; cases hr

theorem within_nil (d : Nat → Int) : Within d [] := by
  intro i r hr; cases hr

theorem joinIR_get : ∀ (xs ys zs : List Range), joinIR xs ys = some zs → ∀ (i : Nat) (r : Range), zs[i]? = some r →
    r = (none, none) ∨ ∃ x y, xs[i]? = some x ∧ ys[i]? = some y ∧ r = (low x.1 y.1, high x.2 y.2)
  | [], ys, zs, h, i, r, hr => by
    rw [joinIR, Option.some.injEq] at h; subst h; cases hr
  | x :: xs, [], zs, h, i, r, hr => by
    rw [joinIR] at h
    split at h
    · cases h
    · obtain ⟨w, hw, rfl⟩ := Option.map_eq_some_iff.1 h
      cases i with
      | zero => left; simpa using hr.symm
      | succ i =>
        rcases joinIR_get xs [] w hw i r (by simpa using hr) with h' | ⟨_, _, _, h', _⟩
        · exact Or.inl h'
        · cases h'
  | x :: xs, y :: ys, zs, h, i, r, hr => by
    rw [joinIR] at h
    obtain ⟨w, hw, rfl⟩ := Option.map_eq_some_iff.1 h
    cases i with
    | zero => right; exact ⟨x, y, rfl, rfl, by simpa using hr.symm⟩
    | succ i => simpa using joinIR_get xs ys w hw i r (by simpa using hr)

theorem joinDI_get : ∀ (xs ys : List Range) (i : Nat) (r : Range), (joinDI xs ys)[i]? = some r →
    ∃ x y, xs[i]? = some x ∧ ys[i]? = some y ∧ r = (low x.1 y.1, high x.2 y.2)
  | [], _, i, r, hr => by simp [joinDI] at hr
  | _ :: _, [], i, r, hr => by simp [joinDI] at hr
  | x :: xs, y :: ys, i, r, hr => by
    rw [joinDI] at hr
    cases i with
    | zero => exact ⟨x, y, rfl, rfl, by simpa using hr.symm⟩
    | succ i => simpa using joinDI_get xs ys i r (by simpa using hr)

theorem within_join {d : Nat → Int} {xs ys zs : List Range}
    (h : ∀ (i : Nat) (r : Range), zs[i]? = some r →
      r = (none, none) ∨ ∃ x y, xs[i]? = some x ∧ ys[i]? = some y ∧ r = (low x.1 y.1, high x.2 y.2))
    (hd : Within d xs ∨ Within d ys) : Within d zs := by
  intro i r hr
  rcases h i r hr with rfl | ⟨x, y, hx, hy, rfl⟩
  · exact ⟨by simp, by simp⟩
  · constructor
    · intro lo hlo
      obtain ⟨⟨a, ha, hla⟩, b, hb, hlb⟩ := low_le hlo
      rcases hd with hd | hd
      · have := (hd i x hx).1 a ha; omega
      · have := (hd i y hy).1 b hb; omega
    · intro hi hhi
      obtain ⟨⟨a, ha, hla⟩, b, hb, hlb⟩ := high_ge hhi
      rcases hd with hd | hd
      · have := (hd i x hx).2 a ha; omega
      · have := (hd i y hy).2 b hb; omega

/-! ## One step -/

theorem Tag.isKind (k : Tag) : IsDepKind k.dep := by cases k <;> simp [IsDepKind, Tag.dep]

theorem Tag.dep_inj {j k : Tag} : j.dep = k.dep ↔ j = k := by cases j <;> cases k <;> simp [Tag.dep]

theorem Tag.compat (j k : Tag) : DepTrait.compatible j.dep k.dep = true := by cases j <;> cases k <;> decide

/-- A dependence of some kind and privatization are not compatible. -/
theorem legal_not_spurious {d : Dptr} (h : Legal d) {k : Tag} (hk : d.dep k.dep = true) : hasSpuriousDep d = false := by
  obtain ⟨_, u, hu, hs⟩ := h
  have hf := hs _ hk
  rw [Bool.eq_false_iff]
  intro hsp
  rw [spurious_iff] at hsp
  rcases hsp with ⟨_, h2⟩ | h2
  · rw [h2 _ k.isKind] at hk; cases hk
  · have hu' : u = [.flow, .anti, .output] := by
      revert u; cases k <;> simp [DepTrait.unions, Tag.dep]
    subst hu'
    rcases h2 with h2 | h2 | h2 | h2 | h2 <;> exact absurd (hs _ h2) (by decide)

theorem set_is (t : Trait) (k j : Tag) (r : Rep) : (t.set k r).is j = (decide (j = k) || t.is j) := by
  unfold Trait.is Trait.set setDep
  simp only [Tag.compat, Bool.and_true, Tag.dep_inj]

theorem set_rep (t : Trait) (k j : Tag) (r : Rep) : (t.set k r).rep j = if j = k then some r else t.rep j := rfl

theorem set_legal (t : Trait) (k : Tag) (r : Rep) : Legal (t.set k r).dptr := by
  refine ⟨⟨k.dep, by simp [Trait.set, setDep]⟩, [.flow, .anti, .output], by decide, ?_⟩
  intro a ha
  simp only [Trait.set, setDep, Bool.or_eq_true, decide_eq_true_eq, Bool.and_eq_true] at ha
  rcases ha with rfl | ⟨_, h⟩
  · cases k <;> decide
  · revert h; cases a <;> cases k <;> decide

theorem set_spurious (t : Trait) (k : Tag) (r : Rep) : (t.set k r).spurious = false :=
  legal_not_spurious (set_legal t k r) (k := k) (by simp [Trait.set, setDep])

theorem set_unit (t : Trait) (k : Tag) (r : Rep) : (t.set k r).dptr.unit = t.dptr.unit := rfl

theorem set_wf {t : Trait} (h : ∀ k, (t.rep k).isSome = true → t.is k = true) (k : Tag) (r : Rep) : (t.set k r).WF := by
  refine ⟨set_legal t k r, fun j hj => ?_⟩
  rw [set_is]
  by_cases hjk : j = k
  · simp [hjk]
  · rw [set_rep, if_neg hjk] at hj
    rw [h j hj, Bool.or_true]

/-- What a call of `combineIf` does with the trait `t`. -/
structure StepSpec (m : Trait) (k : Tag) (t t' : Trait) : Prop where
  wf : t'.WF
  unit : t'.dptr.unit = t.dptr.unit
  is' : ∀ j, t'.is j = (t.is j || (decide (j = k) && (m.rep k).isSome))
  other : ∀ j, j ≠ k → t'.rep j = t.rep j
  same : m.rep k = none → t'.dptr = t.dptr
  spur : (m.rep k).isSome = true → t'.spurious = false
  cover : ∀ r, t'.rep k = some r → ∀ d, (m.Allows k d ∨ t.Allows k d) → Within d r.dist
  attach : (t'.rep k).isSome = ((m.rep k).isSome || (t.rep k).isSome)
  may : ∀ r, t'.rep k = some r → r.flags.may = true →
    (m.is k = true → ∃ x, m.rep k = some x ∧ x.flags.may = true) ∧
    (t.is k = true → ∃ x, t.rep k = some x ∧ x.flags.may = true) ∧ (m.is k = false → m.spurious = false) ∧
    (t.is k = false → t.spurious = false)
  cause : ∀ r x, t'.rep k = some r → (m.rep k = some x ∨ t.rep k = some x) →
    (x.flags.loadStore = true → r.flags.loadStore = true) ∧ (x.flags.call = true → r.flags.call = true) ∧
    (x.flags.unknown = true → r.flags.unknown = true) ∧ (x.flags.confused = true → r.flags.confused = true)

theorem flags_join (a b : Flags) :
    ((a.join b).may = (a.may && b.may)) ∧ ((a.join b).loadStore = (a.loadStore || b.loadStore)) ∧
    ((a.join b).call = (a.call || b.call)) ∧ ((a.join b).unknown = (a.unknown || b.unknown)) ∧
    ((a.join b).confused = (a.confused || b.confused)) := by
  unfold Flags.join Flags.or
  cases a.may <;> cases b.may <;> simp

theorem setDep_same {d : Dptr} (h : Legal d) {k : Tag} (hk : d.dep k.dep = true) : setDep d.dep k.dep = d.dep := by
  obtain ⟨_, u, hu, hs⟩ := h
  have hf := hs _ hk
  have hu' : u = [.flow, .anti, .output] := by
    revert u; cases k <;> simp [DepTrait.unions, Tag.dep]
  subst hu'
  funext a
  unfold setDep
  by_cases ha : a = k.dep
  · rw [ha, hk]; simp
  · rw [decide_eq_false ha, Bool.false_or]
    cases hda : d.dep a with
    | false => rfl
    | true =>
      have := hs a hda
      have hc : DepTrait.compatible a k.dep = true := by
        revert this; cases a <;> cases k <;> decide
      rw [hc]; rfl

/-- The abstract version of `combineIf`. -/
theorem step_of {m t t' : Trait} {k : Tag} (hm : m.WF) (ht : t.WF)
    (h : (∃ x, m.rep k = some x ∧ ∃ r, t' = t.set k r ∧
            ((t.rep k = none ∧ t.spurious = false ∧ t.is k = false ∧ r.flags = x.flags ∧
                (∀ d, Within d x.dist → Within d r.dist)) ∨
             (t.rep k = none ∧ r = ⟨x.flags.weaken, []⟩) ∨
             ∃ y, t.rep k = some y ∧ r.flags = x.flags.join y.flags ∧
               ∀ d, Within d x.dist ∨ Within d y.dist → Within d r.dist)) ∨
         (m.rep k = none ∧ ∃ y, t.rep k = some y ∧ (m.spurious || m.is k) = true ∧ t' = t.set k ⟨y.flags.weaken, []⟩) ∨
         (m.rep k = none ∧ (∀ y, t.rep k = some y → (m.spurious || m.is k) = false) ∧ t' = t)) : StepSpec m k t t' := by
  rcases h with ⟨x, hx, r, rfl, hr⟩ | ⟨hx, y, hy, hsp, rfl⟩ | ⟨hx, hsp, rfl⟩
  · have hmk : m.is k = true := hm.attached k (by rw [hx]; rfl)
    have hAm : ∀ d, m.Allows k d → Within d x.dist := by
      rintro d (⟨_, h⟩ | ⟨h, _⟩)
      · exact h x hx
      · rw [hmk] at h; cases h
    refine ⟨set_wf ht.attached k r, rfl, fun j => ?_, fun j hj => by rw [set_rep, if_neg hj], fun h => (by rw [hx] at h; cases h),
      fun _ => set_spurious t k r, ?_, by rw [set_rep, if_pos rfl, hx]; rfl, ?_, ?_⟩
    · rw [set_is, hx, Bool.or_comm]; simp
    · intro r' hr' d hd
      rw [set_rep, if_pos rfl, Option.some.injEq] at hr'
      subst hr'
      rcases hr with ⟨h0, h1, h2, _, h3⟩ | ⟨_, rfl⟩ | ⟨y, hy, _, h3⟩
      · rcases hd with hd | hd
        · exact h3 d (hAm d hd)
        · rcases hd with ⟨h, _⟩ | ⟨_, h⟩
          · rw [h2] at h; cases h
          · rw [h1] at h; cases h
      · exact within_nil d
      · refine h3 d ?_
        rcases hd with hd | hd
        · exact Or.inl (hAm d hd)
        · rcases hd with ⟨_, h⟩ | ⟨h, _⟩
          · exact Or.inr (h y hy)
          · rw [ht.attached k (by rw [hy]; rfl)] at h; cases h
    · intro r' hr' hmay
      rw [set_rep, if_pos rfl, Option.some.injEq] at hr'
      subst hr'
      rcases hr with ⟨h0, h1, h2, h3, _⟩ | ⟨_, rfl⟩ | ⟨y, hy, h3, _⟩
      · rw [h3] at hmay
        exact ⟨fun _ => ⟨x, hx, hmay⟩, fun h => (by rw [h2] at h; cases h), fun h => (by rw [hmk] at h; cases h), fun _ => h1⟩
      · simp [Flags.weaken] at hmay
      · rw [h3, (flags_join _ _).1, Bool.and_eq_true] at hmay
        exact ⟨fun _ => ⟨x, hx, hmay.1⟩, fun _ => ⟨y, hy, hmay.2⟩, fun h => (by rw [hmk] at h; cases h),
          fun h => by rw [ht.attached k (by rw [hy]; rfl)] at h; cases h⟩
    · intro r' z hr' hz
      rw [set_rep, if_pos rfl, Option.some.injEq] at hr'
      subst hr'
      rcases hr with ⟨h0, h1, h2, h3, _⟩ | ⟨h0, rfl⟩ | ⟨y, hy, h3, _⟩
      · rcases hz with hz | hz
        · rw [hx, Option.some.injEq] at hz; subst hz; rw [h3]; tauto
        · rw [h0] at hz; cases hz
      · rcases hz with hz | hz
        · rw [hx, Option.some.injEq] at hz; subst hz
          simp only [Flags.weaken]; tauto
        · rw [h0] at hz; cases hz
      · rw [h3]
        obtain ⟨_, f1, f2, f3, f4⟩ := flags_join x.flags y.flags
        rw [f1, f2, f3, f4]
        rcases hz with hz | hz
        · rw [hx, Option.some.injEq] at hz; subst hz
          simp only [Bool.or_eq_true]; tauto
        · rw [hy, Option.some.injEq] at hz; subst hz
          simp only [Bool.or_eq_true]; tauto
  · have htk : t.is k = true := ht.attached k (by rw [hy]; rfl)
    have hdp : (t.set k ⟨y.flags.weaken, []⟩).dptr = t.dptr := by
      unfold Trait.set
      rw [setDep_same ht.legal htk]
    refine ⟨set_wf ht.attached k _, rfl, fun j => ?_, fun j hj => by rw [set_rep, if_neg hj], fun _ => hdp,
      fun h => (by rw [hx] at h; cases h), ?_, by rw [set_rep, if_pos rfl, hx, hy]; rfl, ?_, ?_⟩
    · unfold Trait.is; rw [hdp, hx]; simp
    · intro r' hr' d _
      rw [set_rep, if_pos rfl, Option.some.injEq] at hr'
      subst hr'
      exact within_nil d
    · intro r' hr' hmay
      rw [set_rep, if_pos rfl, Option.some.injEq] at hr'
      subst hr'
      simp [Flags.weaken] at hmay
    · intro r' z hr' hz
      rw [set_rep, if_pos rfl, Option.some.injEq] at hr'
      subst hr'
      rcases hz with hz | hz
      · rw [hx] at hz; cases hz
      · rw [hy, Option.some.injEq] at hz; subst hz
        simp only [Flags.weaken]; tauto
  · refine ⟨ht, rfl, fun j => by rw [hx]; simp, fun _ _ => rfl, fun _ => rfl, fun h => (by rw [hx] at h; cases h), ?_, by rw [hx]; rfl,
      ?_, ?_⟩
    · intro r hr d hd
      have h0 := hsp r hr
      rw [Bool.or_eq_false_iff] at h0
      rcases hd with hd | hd
      · rcases hd with ⟨h, _⟩ | ⟨_, h⟩
        · rw [h0.2] at h; cases h
        · rw [h0.1] at h; cases h
      · rcases hd with ⟨_, h⟩ | ⟨h, _⟩
        · exact h r hr
        · rw [ht.attached k (by rw [hr]; rfl)] at h; cases h
    · intro r hr hmay
      have h0 := hsp r hr
      rw [Bool.or_eq_false_iff] at h0
      exact ⟨fun h => (by rw [h0.2] at h; cases h), fun _ => ⟨r, hr, hmay⟩, fun _ => h0.1,
        fun h => by rw [ht.attached k (by rw [hr]; rfl)] at h; cases h⟩
    · intro r z hr hz
      rcases hz with hz | hz
      · rw [hx] at hz; cases hz
      · rw [hr, Option.some.injEq] at hz; subst hz; tauto

theorem combineIf_step {m t t' : Trait} {k : Tag} (hm : m.WF) (ht : t.WF) (h : combineIf m k t = some t') :
    StepSpec m k t t' := by
  refine step_of hm ht ?_
  unfold combineIf at h
  cases hx : m.rep k with
  | some x =>
    rw [hx] at h
    left
    refine ⟨x, rfl, ?_⟩
    obtain ⟨r, hr, rfl⟩ := Option.map_eq_some_iff.1 h
    refine ⟨r, rfl, ?_⟩
    unfold combineRep at hr
    cases hy : t.rep k with
    | none =>
      rw [hy] at hr
      simp only at hr
      split at hr
      · rename_i hc
        simp only [Bool.and_eq_true, Bool.not_eq_true'] at hc
        left
        rw [Option.some.injEq] at hr; subst hr
        exact ⟨rfl, hc.1, hc.2, rfl, fun d hd => within_trim.2 hd⟩
      · right; left
        exact ⟨rfl, (Option.some.inj hr).symm⟩
    | some y =>
      rw [hy] at hr
      right; right
      obtain ⟨l, hl, rfl⟩ := Option.map_eq_some_iff.1 hr
      exact ⟨y, rfl, rfl, fun d hd => within_trim.2 (within_join (joinIR_get _ _ _ hl) hd)⟩
  | none =>
    rw [hx] at h
    right
    simp only at h
    cases hy : t.rep k with
    | none =>
      rw [hy] at h
      right
      exact ⟨rfl, by simp, (Option.some.inj h).symm⟩
    | some y =>
      rw [hy] at h
      simp only at h
      split at h
      · rename_i hc
        left
        exact ⟨rfl, y, rfl, hc, (Option.some.inj h).symm⟩
      · rename_i hc
        right
        exact ⟨rfl, fun _ _ => Bool.eq_false_iff.2 hc, (Option.some.inj h).symm⟩

theorem combineIfDI_step {m t : Trait} {k : Tag} (hm : m.WF) (ht : t.WF) : StepSpec m k t (combineIfDI m k t) := by
  refine step_of hm ht ?_
  unfold combineIfDI
  cases hx : m.rep k with
  | some x =>
    left
    refine ⟨x, rfl, combineRepDI x t k, rfl, ?_⟩
    unfold combineRepDI
    cases hy : t.rep k with
    | none =>
      simp only
      split
      · rename_i hc
        simp only [Bool.and_eq_true, Bool.not_eq_true'] at hc
        left
        exact ⟨trivial, hc.1, hc.2, rfl, fun d hd => hd⟩
      · right; left; exact ⟨trivial, rfl⟩
    | some y =>
      right; right
      exact ⟨y, rfl, rfl, fun d hd => within_trim.2 (within_join (fun i r hr => Or.inr (joinDI_get _ _ i r hr)) hd)⟩
  | none =>
    right
    cases hy : t.rep k with
    | none => right; exact ⟨rfl, by simp, rfl⟩
    | some y =>
      simp only
      split
      · rename_i hc; left; exact ⟨trivial, y, rfl, hc, rfl⟩
      · rename_i hc; right; exact ⟨trivial, fun _ _ => Bool.eq_false_iff.2 hc, rfl⟩

/-! ## Three steps -/

/-- What three calls of `combineIf` do. The hypothesis `spur` says that a kind of a dependence is processed while
`hasSpuriousDep` is the same as initially. -/
structure AllSpec (m t t' : Trait) : Prop where
  wf : t'.WF
  unit : t'.dptr.unit = t.dptr.unit
  is' : ∀ j, t'.is j = (t.is j || (m.rep j).isSome)
  same : (∀ k, m.rep k = none) → t'.dptr = t.dptr
  attach : ∀ k, (t'.rep k).isSome = ((m.rep k).isSome || (t.rep k).isSome)
  cover : (t.spurious = false ∨ ∀ j k, (m.rep j).isSome = true → (m.rep k).isSome = true → j = k) →
    ∀ k r, t'.rep k = some r → ∀ d, (m.Allows k d ∨ t.Allows k d) → Within d r.dist
  may : (t.spurious = false ∨ ∀ j k, (m.rep j).isSome = true → (m.rep k).isSome = true → j = k) →
    ∀ k r, t'.rep k = some r → r.flags.may = true →
    (m.is k = true → ∃ x, m.rep k = some x ∧ x.flags.may = true) ∧
    (t.is k = true → ∃ x, t.rep k = some x ∧ x.flags.may = true) ∧ (m.is k = false → m.spurious = false) ∧
    (t.is k = false → t.spurious = false)
  cause : ∀ k r x, t'.rep k = some r → (m.rep k = some x ∨ t.rep k = some x) →
    (x.flags.loadStore = true → r.flags.loadStore = true) ∧ (x.flags.call = true → r.flags.call = true) ∧
    (x.flags.unknown = true → r.flags.unknown = true) ∧ (x.flags.confused = true → r.flags.confused = true)

/-- A step does not change the answer of `hasSpuriousDep` for steps which depend on it. -/
theorem step_spurious {m t t' : Trait} {k : Tag} (h : StepSpec m k t t')
    (hc : t.spurious = false ∨ (m.rep k).isSome = false) : t'.spurious = t.spurious := by
  cases hk : m.rep k with
  | none => unfold Trait.spurious; rw [h.same hk]
  | some x =>
    rw [h.spur (by rw [hk]; rfl)]
    rcases hc with hc | hc
    · exact hc.symm
    · rw [hk] at hc; cases hc

theorem step_allows {m t t' : Trait} {k : Tag} (h : StepSpec m k t t')
    (hc : t.spurious = false ∨ (m.rep k).isSome = false) {j : Tag} (hj : j ≠ k) (d : Nat → Int) :
    t'.Allows j d ↔ t.Allows j d := by
  unfold Trait.Allows
  rw [step_spurious h hc, h.other j hj, h.is' j, decide_eq_false hj, Bool.false_and, Bool.or_false]

/-- The answer of `hasSpuriousDep` and the value attached to `k` are unchanged (or `k` has no value in `m`). -/
def Pre (m t t' : Trait) (k : Tag) : Prop :=
  t'.rep k = t.rep k ∧ t'.is k = t.is k ∧ ((m.rep k).isSome = true → t'.spurious = t.spurious)

theorem tags_all {P : Tag → Prop} (h1 : P .flow) (h2 : P .anti) (h3 : P .output) : ∀ k, P k := by
  intro k; cases k <;> assumption

theorem spur_irrelevant {m t t' : Trait} {k : Tag} (h : t'.is k = t.is k) (hr : t'.rep k = t.rep k)
    (hs : (m.rep k).isSome = true → t'.spurious = t.spurious) (hw : t.WF) (hx : (m.rep k).isSome = true ∨ (t.rep k).isSome = true)
    (d : Nat → Int) : t'.Allows k d ↔ t.Allows k d := by
  unfold Trait.Allows
  rw [h, hr]
  rcases hx with hx | hx
  · rw [hs hx]
  · rw [hw.attached k hx]; simp

theorem all_of {m t t1 t2 t3 : Trait} (hw : t.WF) (h1 : StepSpec m .flow t t1)
    (h2 : StepSpec m .anti t1 t2) (h3 : StepSpec m .output t2 t3) : AllSpec m t t3 := by
  have hrep : ∀ k, t3.rep k = (match k with | .flow => t1.rep .flow | .anti => t2.rep .anti | .output => t3.rep .output) := by
    intro k
    cases k with
    | flow => rw [h3.other _ (by decide), h2.other _ (by decide)]
    | anti => rw [h3.other _ (by decide)]
    | output => rfl
  have e1a : t1.rep .anti = t.rep .anti := h1.other _ (by decide)
  have e1o : t2.rep .output = t.rep .output := by rw [h2.other _ (by decide), h1.other _ (by decide)]
  have i1a : t1.is .anti = t.is .anti := by rw [h1.is']; simp
  have i1o : t2.is .output = t.is .output := by rw [h2.is', h1.is']; simp
  have hsa : (t.spurious = false ∨ ∀ j k, (m.rep j).isSome = true → (m.rep k).isSome = true → j = k) →
      ((m.rep .anti).isSome = true → t1.spurious = t.spurious) := by
    intro hc hsome
    refine step_spurious h1 ?_
    rcases hc with hc | hc
    · exact Or.inl hc
    · right
      rw [Bool.eq_false_iff]
      intro h
      exact absurd (hc _ _ h hsome) (by decide)
  have hso : (t.spurious = false ∨ ∀ j k, (m.rep j).isSome = true → (m.rep k).isSome = true → j = k) →
      ((m.rep .output).isSome = true → t2.spurious = t.spurious) := by
    intro hc hsome
    have a1 : t1.spurious = t.spurious := by
      refine step_spurious h1 ?_
      rcases hc with hc | hc
      · exact Or.inl hc
      · right
        rw [Bool.eq_false_iff]
        intro h
        exact absurd (hc _ _ h hsome) (by decide)
    rw [← a1]
    refine step_spurious h2 ?_
    rcases hc with hc | hc
    · exact Or.inl (a1.trans hc)
    · right
      rw [Bool.eq_false_iff]
      intro h
      exact absurd (hc _ _ h hsome) (by decide)
  have att : ∀ k, (t3.rep k).isSome = ((m.rep k).isSome || (t.rep k).isSome) := by
    intro k
    rw [hrep]
    cases k with
    | flow => exact h1.attach
    | anti => rw [← e1a]; exact h2.attach
    | output => rw [← e1o]; exact h3.attach
  have some_or : ∀ {k r}, t3.rep k = some r → (m.rep k).isSome = true ∨ (t.rep k).isSome = true := by
    intro k r hr
    have := att k
    rw [hr] at this
    rw [Option.isSome_some, eq_comm, Bool.or_eq_true] at this
    exact this
  refine ⟨h3.wf, by rw [h3.unit, h2.unit, h1.unit], ?_, ?_, att, ?_, ?_, ?_⟩
  · intro j
    rw [h3.is', h2.is', h1.is']
    cases j <;> simp
  · intro h
    rw [h3.same (h _), h2.same (h _), h1.same (h _)]
  · intro hc k r hr d hd
    have hso' := some_or hr
    rw [hrep] at hr
    cases k with
    | flow => exact h1.cover r hr d hd
    | anti =>
      refine h2.cover r hr d (hd.imp id fun h => ?_)
      exact (spur_irrelevant i1a e1a (hsa hc) hw hso' d).2 h
    | output =>
      refine h3.cover r hr d (hd.imp id fun h => ?_)
      exact (spur_irrelevant i1o e1o (hso hc) hw hso' d).2 h
  · intro hc k r hr hmay
    have hso' := some_or hr
    rw [hrep] at hr
    have fix : ∀ {t' : Trait} {k : Tag}, t'.is k = t.is k → ((m.rep k).isSome = true → t'.spurious = t.spurious) →
        ((m.rep k).isSome = true ∨ (t.rep k).isSome = true) → (t'.is k = false → t'.spurious = false) →
        (t.is k = false → t.spurious = false) := by
      intro t' k hi hs hx h h0
      rcases hx with hx | hx
      · rw [← hs hx]; exact h (hi.trans h0)
      · rw [hw.attached k hx] at h0; cases h0
    cases k with
    | flow => exact h1.may r hr hmay
    | anti =>
      obtain ⟨a, b, c, e⟩ := h2.may r hr hmay
      rw [e1a] at b
      exact ⟨a, fun h => b (i1a.trans h), c, fix i1a (hsa hc) hso' e⟩
    | output =>
      obtain ⟨a, b, c, e⟩ := h3.may r hr hmay
      rw [e1o] at b
      exact ⟨a, fun h => b (i1o.trans h), c, fix i1o (hso hc) hso' e⟩
  · intro k r x hr hx
    rw [hrep] at hr
    cases k with
    | flow => exact h1.cause r x hr hx
    | anti => rw [← e1a] at hx; exact h2.cause r x hr hx
    | output => rw [← e1o] at hx; exact h3.cause r x hr hx

/-! ## The final update -/

/-- Dependence parts of descriptors with unknown kinds of dependencies. -/
def spurParts : List (BitVec 9) :=
  parts.filter fun x => (depOfPart x).any fun d => hasSpuriousDep ⟨fun _ => false, d⟩

theorem spur_table : ∀ u ∈ DepTrait.unions, ∀ l ∈ u.sublists, l ≠ [] →
    hasSpuriousDep ⟨fun _ => false, fun a => l.contains a⟩ = true → hi (ofDep fun a => l.contains a) ∈ spurParts := by
  decide +kernel

theorem spur_join : ∀ x ∈ spurParts, ∀ y ∈ parts, (depOfPart (x &&& y)).map (fun d =>
    hasSpuriousDep ⟨fun _ => false, d⟩ || (d .flow && d .anti && d .output)) = some true := by
  decide +kernel

theorem legal_spur {d : Dptr} (h : Legal d) (hs : hasSpuriousDep d = true) : hi (ofDescriptor d) ∈ spurParts := by
  obtain ⟨u, hu, l, hl, hne, hd⟩ := legal_list h
  rw [hi_ofDescriptor, hd]
  refine spur_table u hu l hl hne ?_
  rw [← hd]; exact hs

/-- Alternatives which are produced for a join of traits are legal. -/
theorem part_isLegal : ∀ x ∈ parts, (depOfPart x).map (fun d => allDeps.any d &&
    DepTrait.unions.any fun u => allDeps.all fun a => !d a || u.contains a) = some true := by decide +kernel

/-- The result of `finish` in terms of parts. -/
theorem finish_spec {em : Bool} {m t t' r : Trait} (hm : m.WF) (ht' : t'.WF) (hr : finish em m t t' = some r) :
    ∃ d, depOfPart (hi (ofDescriptor t'.dptr) &&& hi (ofDescriptor m.dptr)) = some d ∧
      r.dptr.dep = (if (m.spurious || t.spurious) = true then d
        else updateDep (fun k => t.dptr.dep k || m.dptr.dep k) d) ∧
      (∀ k, r.rep k = if r.is k = true ∧ d k.dep = true then t'.rep k else none) ∧
      (∀ u, r.dptr.unit u = ((t'.dptr.unit u || m.dptr.unit u) &&
        !(decide (u = .redundant) && (t'.dptr.unit .noRedundant || m.dptr.unit .noRedundant)) &&
        !(em && decide (u = .indirectAccess) && (t'.dptr.unit .directAccess || m.dptr.unit .directAccess)))) := by
  unfold finish at hr
  rw [toDescriptor_part] at hr
  simp only [Option.map_map] at hr
  obtain ⟨d, hd, rfl⟩ := Option.map_eq_some_iff.1 hr
  rw [hi_and] at hd
  refine ⟨d, hd, ?_, ?_, ?_⟩
  · simp only [Function.comp, Trait.update]
    split <;> rfl
  · intro k
    simp only [Function.comp, Trait.update, Trait.is]
    generalize (if (m.spurious || t.spurious) = true then (⟨_, d⟩ : Dptr) else _).dep k.dep = b
    by_cases hd2 : d k.dep = true <;> cases b <;> simp [hd2]
  · intro u
    have hu : ∀ u, toUnit (ofDescriptor t'.dptr &&& ofDescriptor m.dptr) u = (t'.dptr.unit u || m.dptr.unit u) := by
      intro u; rw [toUnit_and, ofDescriptor_unit ht'.legal, ofDescriptor_unit hm.legal]
    have hif : ∀ (c : Prop) [Decidable c] (d : DepTrait → Bool) (f : (DepTrait → Bool) → DepTrait → Bool) (w : UnitTrait → Bool),
        (if c then (⟨w, d⟩ : Dptr) else ⟨w, f d⟩).unit = w := by
      intro c _ d f w; split <;> rfl
    simp only [Function.comp, Trait.update]
    rw [hif _ d (fun d => updateDep (fun k => t.dptr.dep k || m.dptr.dep k) d)]
    simp only [hu]
    cases em <;> cases u <;> simp <;> cases t'.dptr.unit .noRedundant <;> cases m.dptr.unit .noRedundant <;>
      cases t'.dptr.unit .directAccess <;> cases m.dptr.unit .directAccess <;> simp

theorem finish_defined (em : Bool) {m t t' : Trait} (hm : m.WF) (ht' : t'.WF) : ∃ r, finish em m t t' = some r := by
  unfold finish
  rw [toDescriptor_part, hi_and]
  obtain ⟨d, hd⟩ := part_some (parts_closed _ (legal_parts ht'.legal) _ (legal_parts hm.legal))
  rw [hd]
  exact ⟨_, rfl⟩

theorem spurious_dep {d e : Dptr} (h : d.dep = e.dep) : hasSpuriousDep d = hasSpuriousDep e := by
  unfold hasSpuriousDep; rw [h]

theorem part_zero_all {d : DepTrait → Bool} (h : depOfPart 0 = some d) (k : Tag) : d k.dep = true := by
  have := part_zero
  rw [h, Option.map_some, Option.some.injEq, Bool.and_eq_true, Bool.and_eq_true] at this
  cases k
  · exact this.1.1
  · exact this.1.2
  · exact this.2

/-- The condition under which the order of calls of `combineIf` is not important: either kinds of dependencies of the
initial metadata-level trait are known or a value is attached to at most one of traits of the second operand. -/
def Ordered (m t : Trait) : Prop :=
  t.spurious = false ∨ ∀ j k, (m.rep j).isSome = true → (m.rep k).isSome = true → j = k

theorem finish_covers {em : Bool} {m t t' r : Trait} (hm : m.WF) (ht : t.WF) (ha : AllSpec m t t')
    (hr : finish em m t t' = some r) (ho : Ordered m t) (k : Tag) (d : Nat → Int)
    (h : m.Allows k d ∨ t.Allows k d) : r.Allows k d := by
  obtain ⟨dd, hdd, hdep, hrep, _⟩ := finish_spec hm ha.wf hr
  have hw : r.is k = true → r.Allows k d := by
    intro hk
    refine Or.inl ⟨hk, fun x hx => ?_⟩
    rw [hrep] at hx
    split at hx
    · exact ha.cover ho k x hx d h
    · cases hx
  by_cases hs : (m.spurious || t.spurious) = true
  · rw [if_pos hs] at hdep
    by_cases hz : (∃ j : Tag, m.is j = true) ∨ ∃ j : Tag, t.is j = true
    · apply hw
      have h0 : hi (ofDescriptor t'.dptr) &&& hi (ofDescriptor m.dptr) = 0 := by
        rcases hz with ⟨j, hj⟩ | ⟨j, hj⟩
        · rw [(legal_dep hm.legal j.isKind hj).1]; exact BitVec.and_zero
        · have : t'.is j = true := by rw [ha.is', hj, Bool.true_or]
          rw [(legal_dep ha.wf.legal j.isKind this).1]; exact BitVec.zero_and
      rw [h0] at hdd
      unfold Trait.is
      rw [hdep]
      exact part_zero_all hdd k
    · push Not at hz
      have hmn : ∀ j, m.rep j = none := by
        intro j
        cases hj : m.rep j with
        | none => rfl
        | some x => exact absurd (hm.attached j (by rw [hj]; rfl)) (hz.1 j)
      have hsp : (hasSpuriousDep ⟨fun _ => false, dd⟩ || (dd .flow && dd .anti && dd .output)) = true := by
        rw [ha.same hmn] at hdd
        rw [Bool.or_eq_true] at hs
        have : (depOfPart (hi (ofDescriptor t.dptr) &&& hi (ofDescriptor m.dptr))).map (fun d =>
            hasSpuriousDep ⟨fun _ => false, d⟩ || (d .flow && d .anti && d .output)) = some true := by
          rcases hs with hs | hs
          · rw [BitVec.and_comm]
            exact spur_join _ (legal_spur hm.legal hs) _ (legal_parts ht.legal)
          · exact spur_join _ (legal_spur ht.legal hs) _ (legal_parts hm.legal)
        rw [hdd] at this
        simpa using this
      rw [Bool.or_eq_true] at hsp
      rcases hsp with hsp | hsp
      · cases hk : r.is k with
        | true => exact hw hk
        | false =>
          refine Or.inr ⟨hk, ?_⟩
          unfold Trait.spurious
          rw [← hsp]
          exact spurious_dep hdep
      · apply hw
        unfold Trait.is
        rw [hdep]
        rw [Bool.and_eq_true, Bool.and_eq_true] at hsp
        cases k
        · exact hsp.1.1
        · exact hsp.1.2
        · exact hsp.2
  · rw [if_neg hs] at hdep
    rw [Bool.or_eq_true, not_or] at hs
    apply hw
    unfold Trait.is
    rw [hdep, updateDep_kind _ _ _ k.isKind, Bool.or_eq_true]
    rcases h with (h | h) | (h | h)
    · exact Or.inr h.1
    · exact absurd h.2 hs.1
    · exact Or.inl h.1
    · exact absurd h.2 hs.2

/-- Kinds of dependencies. -/
theorem finish_kinds {em : Bool} {m t t' r : Trait} (hm : m.WF) (ha : AllSpec m t t')
    (hr : finish em m t t' = some r) (hs1 : m.spurious = false) (hs2 : t.spurious = false) (k : Tag) :
    r.is k = (m.is k || t.is k) := by
  obtain ⟨dd, hdd, hdep, _, _⟩ := finish_spec hm ha.wf hr
  rw [if_neg (by simp [hs1, hs2])] at hdep
  unfold Trait.is
  rw [hdep, updateDep_kind _ _ _ k.isKind, Bool.or_comm]

theorem legal_of_part {x : BitVec 9} (hx : x ∈ parts) {d : DepTrait → Bool} (hd : depOfPart x = some d) (u : UnitTrait → Bool) :
    Legal ⟨u, d⟩ := by
  have := part_isLegal x hx
  rw [hd, Option.map_some, Option.some.injEq, Bool.and_eq_true, List.any_eq_true, List.any_eq_true] at this
  obtain ⟨⟨a, _, ha⟩, w, hw, hall⟩ := this
  refine ⟨⟨a, ha⟩, w, hw, fun b hb => ?_⟩
  have := List.all_eq_true.1 hall b (mem_allDeps b)
  change d b = true at hb
  rw [hb] at this
  simpa using this

/-- The result is well-formed. -/
theorem finish_wf {em : Bool} {m t t' r : Trait} (hm : m.WF) (ht : t.WF) (ha : AllSpec m t t')
    (hr : finish em m t t' = some r) : r.WF := by
  obtain ⟨dd, hdd, hdep, hrep, _⟩ := finish_spec hm ha.wf hr
  have hp := parts_closed _ (legal_parts ha.wf.legal) _ (legal_parts hm.legal)
  have hl : Legal ⟨r.dptr.unit, dd⟩ := legal_of_part hp hdd _
  refine ⟨?_, fun k hk => ?_⟩
  · by_cases hs : (m.spurious || t.spurious) = true
    · rw [if_pos hs] at hdep
      rw [show r.dptr = ⟨r.dptr.unit, dd⟩ by rw [← hdep]]
      exact hl
    · rw [if_neg hs] at hdep
      by_cases hz : ∃ j : Tag, (t.dptr.dep j.dep || m.dptr.dep j.dep) = true
      · obtain ⟨j, hj⟩ := hz
        refine ⟨⟨j.dep, ?_⟩, [.flow, .anti, .output], by decide, fun a ha2 => ?_⟩
        · rw [hdep, updateDep_kind _ _ _ j.isKind]; exact hj
        · by_cases hk : IsDepKind a
          · rcases hk with rfl | rfl | rfl <;> simp
          · rw [hdep, updateDep_other _ _ _ hk] at ha2
            have : (t.dptr.dep .flow || m.dptr.dep .flow || (t.dptr.dep .anti || m.dptr.dep .anti) ||
                (t.dptr.dep .output || m.dptr.dep .output)) = true := by
              cases j <;> simp only [Tag.dep] at hj <;> simp [hj]
            rw [this] at ha2
            simp at ha2
      · push Not at hz
        have hz' : ∀ j : Tag, (t.dptr.dep j.dep = false) ∧ m.dptr.dep j.dep = false := by
          intro j
          have := hz j
          rw [ne_eq, Bool.not_eq_true, Bool.or_eq_false_iff] at this
          exact this
        have hmn : ∀ j, m.rep j = none := by
          intro j
          cases hj : m.rep j with
          | none => rfl
          | some x =>
            have := hm.attached j (by rw [hj]; rfl)
            rw [Trait.is, (hz' j).2] at this; cases this
        have hnk : ∀ a, IsDepKind a → (t.dptr.dep a || m.dptr.dep a) = false := by
          rintro a (rfl | rfl | rfl)
          · rw [Bool.or_eq_false_iff]; exact hz' .flow
          · rw [Bool.or_eq_false_iff]; exact hz' .anti
          · rw [Bool.or_eq_false_iff]; exact hz' .output
        have hbit : dd .noAccess = true ∨ dd .readonly = true ∨ dd .shared = true := by
          have h0 := part_table _ hp
          rw [hdd, ha.same hmn] at h0
          rw [Option.map_some, Option.some.injEq, BitVec.getLsbD_and, legal_bit hm.legal, legal_bit ht.legal] at h0
          have hn : ∀ {x : Trait}, x.spurious = false → (∀ a, IsDepKind a → x.dptr.dep a = false) → x.dptr.hasNoDep = true := by
            intro x h1 h2
            by_contra hne
            have : hasSpuriousDep x.dptr = true := (spurious_iff _).2 (Or.inl ⟨Bool.eq_false_iff.2 hne, h2⟩)
            unfold Trait.spurious at h1
            rw [this] at h1; cases h1
          rw [Bool.or_eq_true, not_or, Bool.not_eq_true, Bool.not_eq_true] at hs
          rw [hn hs.1 (fun a hk => (Bool.or_eq_false_iff.1 (hnk a hk)).2), hn hs.2 (fun a hk => (Bool.or_eq_false_iff.1 (hnk a hk)).1)] at h0
          simpa [or_assoc] using h0
        obtain ⟨_, w, hw, hsub⟩ := hl
        refine ⟨?_, w, hw, fun a ha2 => ?_⟩
        · have hne : ∀ b, ¬ IsDepKind b → dd b = true → r.dptr.dep b = true := by
            intro b hb hdb
            rw [hdep, updateDep_other _ _ _ hb, hdb, hnk .flow (by simp [IsDepKind]), hnk .anti (by simp [IsDepKind]),
              hnk .output (by simp [IsDepKind])]
            rfl
          rcases hbit with hb | hb | hb
          · exact ⟨_, hne _ (by simp [IsDepKind]) hb⟩
          · exact ⟨_, hne _ (by simp [IsDepKind]) hb⟩
          · exact ⟨_, hne _ (by simp [IsDepKind]) hb⟩
        · by_cases hk : IsDepKind a
          · rw [hdep, updateDep_kind _ _ _ hk, hnk a hk] at ha2; cases ha2
          · rw [hdep, updateDep_other _ _ _ hk, Bool.and_eq_true] at ha2
            exact hsub a ha2.1
  · rw [hrep] at hk
    split at hk
    · rename_i h; exact h.1
    · cases hk

/-- Dependence parts of traits without dependencies and privatization. -/
def noDepParts : List (BitVec 9) :=
  [hi (ofDep fun a => a == .noAccess), hi (ofDep fun a => a == .readonly), hi (ofDep fun a => a == .shared)]

theorem noDep_table : ∀ x ∈ noDepParts, ∀ y ∈ noDepParts, (depOfPart (x &&& y)).map (fun d =>
    ((d .noAccess || d .readonly || d .shared) &&
      !(d .priv || d .lastPrivate || d .firstPrivate || d .secondToLastPrivate || d .dynamicPrivate))) = some true := by
  decide +kernel

theorem noDepPart_table : ∀ u ∈ DepTrait.unions, ∀ l ∈ u.sublists, l ≠ [] →
    (l.contains .noAccess || l.contains .readonly || l.contains .shared) = true →
    (l.contains .priv || l.contains .lastPrivate || l.contains .firstPrivate || l.contains .secondToLastPrivate ||
      l.contains .dynamicPrivate) = false → hi (ofDep fun a => l.contains a) ∈ noDepParts := by
  decide +kernel

theorem legal_noDepPart {d : Dptr} (h : Legal d) (hn : d.hasNoDep = true ∧ ¬ Privatizable d) :
    hi (ofDescriptor d) ∈ noDepParts := by
  obtain ⟨u, hu, l, hl, hne, he⟩ := legal_list h
  obtain ⟨h1, h2⟩ := hn
  unfold Privatizable at h2
  unfold Dptr.hasNoDep at h1
  rw [he] at h1 h2
  rw [hi_ofDescriptor, he]
  refine noDepPart_table u hu l hl hne h1 ?_
  rw [Bool.eq_false_iff]
  intro h
  simp only [Bool.or_eq_true] at h
  exact h2 (by tauto)

/-! ## C80 -/

theorem combineWith_all {m t r : Trait} (hm : m.WF) (ht : t.WF) (hr : combineWith m t = some r) :
    ∃ t', AllSpec m t t' ∧ finish true m t t' = some r := by
  unfold combineWith at hr
  obtain ⟨t1, h1, hr⟩ := Option.bind_eq_some_iff.1 hr
  obtain ⟨t2, h2, hr⟩ := Option.bind_eq_some_iff.1 hr
  obtain ⟨t3, h3, hr⟩ := Option.bind_eq_some_iff.1 hr
  have s1 := combineIf_step hm ht h1
  have s2 := combineIf_step hm s1.wf h2
  have s3 := combineIf_step hm s2.wf h3
  exact ⟨t3, all_of ht s1 s2 s3, hr⟩

theorem mergePool_all {m t : Trait} (hm : m.WF) (ht : t.WF) :
    AllSpec m t (combineIfDI m .output (combineIfDI m .anti (combineIfDI m .flow t))) := by
  have s1 := combineIfDI_step (k := .flow) hm ht
  have s2 := combineIfDI_step (k := .anti) hm s1.wf
  have s3 := combineIfDI_step (k := .output) hm s2.wf
  exact all_of ht s1 s2 s3

/-- The full statement of C80: a trait of a metadata-level location which has been combined with traits of an IR-level
location does not exclude any dependence which is not excluded by one of combined traits. -/
def Covers (m t r : Trait) : Prop := ∀ k d, m.Allows k d ∨ t.Allows k d → r.Allows k d

/-- C80. The combined trait does not exclude any dependence which is not excluded by one of combined traits (all kinds
and all distances). What is missing: the case of a metadata-level trait with unknown kinds of dependencies if values are
attached to several traits of the IR-level location, see `combineWith_order_fails`. -/
theorem combineWith_covers_partial {m t r : Trait} (hm : m.WF) (ht : t.WF) (hr : combineWith m t = some r)
    (ho : Ordered m t) : Covers m t r := by
  obtain ⟨t', ha, hf⟩ := combineWith_all hm ht hr
  exact fun k d h => finish_covers hm ht ha hf ho k d h

/-- C80. The same for a merged location in the pool. -/
theorem mergePool_covers_partial {m t r : Trait} (hm : m.WF) (ht : t.WF) (hr : mergePool m t = some r)
    (ho : Ordered m t) : Covers m t r :=
  fun k d h => finish_covers hm ht (mergePool_all hm ht) hr ho k d h

/-- C80. If kinds of dependencies are known for both operands, kinds of the result are exactly kinds of operands. -/
theorem combineWith_kinds {m t r : Trait} (hm : m.WF) (ht : t.WF) (hr : combineWith m t = some r)
    (h1 : m.spurious = false) (h2 : t.spurious = false) (k : Tag) : r.is k = (m.is k || t.is k) := by
  obtain ⟨t', ha, hf⟩ := combineWith_all hm ht hr
  exact finish_kinds hm ha hf h1 h2 k

theorem mergePool_kinds {m t r : Trait} (hm : m.WF) (ht : t.WF) (hr : mergePool m t = some r)
    (h1 : m.spurious = false) (h2 : t.spurious = false) (k : Tag) : r.is k = (m.is k || t.is k) :=
  finish_kinds hm (mergePool_all hm ht) hr h1 h2 k

/-- C80. The result respects alternatives, and values are attached to traits which are set. -/
theorem combineWith_wf {m t r : Trait} (hm : m.WF) (ht : t.WF) (hr : combineWith m t = some r) : r.WF := by
  obtain ⟨t', ha, hf⟩ := combineWith_all hm ht hr
  exact finish_wf hm ht ha hf

theorem mergePool_wf {m t r : Trait} (hm : m.WF) (ht : t.WF) (hr : mergePool m t = some r) : r.WF :=
  finish_wf hm ht (mergePool_all hm ht) hr

theorem finish_rep {em : Bool} {m t t' r : Trait} (hm : m.WF) (ha : AllSpec m t t') (hr : finish em m t t' = some r)
    {k : Tag} {x : Rep} (hx : r.rep k = some x) : t'.rep k = some x := by
  obtain ⟨dd, hdd, hdep, hrep, _⟩ := finish_spec hm ha.wf hr
  rw [hrep] at hx
  split at hx
  · exact hx
  · cases hx

/-- A dependence is certain for a location: the kind is set and it is not marked as a possible one (a trait without an
attached value is not marked). -/
def Trait.Certain (t : Trait) (k : Tag) : Prop := t.is k = true ∧ ∀ x, t.rep k = some x → x.flags.may = false

/-- C80. The result is marked as a possible dependence only if none of operands contains a certain dependence of this
kind. -/
theorem combineWith_may_partial {m t r : Trait} (hm : m.WF) (ht : t.WF) (hr : combineWith m t = some r)
    (ho : Ordered m t) (k : Tag) (x : Rep) (hx : r.rep k = some x) (hmay : x.flags.may = true) :
    ¬ m.Certain k ∧ ¬ t.Certain k := by
  obtain ⟨t', ha, hf⟩ := combineWith_all hm ht hr
  obtain ⟨a, b, _, _⟩ := ha.may ho k x (finish_rep hm ha hf hx) hmay
  constructor
  · rintro ⟨h1, h2⟩
    obtain ⟨y, hy, hy2⟩ := a h1
    rw [h2 y hy] at hy2; cases hy2
  · rintro ⟨h1, h2⟩
    obtain ⟨y, hy, hy2⟩ := b h1
    rw [h2 y hy] at hy2; cases hy2

/-- C80. Kinds of causes of operands are kept. -/
theorem combineWith_causes {m t r : Trait} (hm : m.WF) (ht : t.WF) (hr : combineWith m t = some r)
    (k : Tag) (x y : Rep) (hx : r.rep k = some x) (hy : m.rep k = some y ∨ t.rep k = some y) :
    (y.flags.loadStore = true → x.flags.loadStore = true) ∧ (y.flags.call = true → x.flags.call = true) ∧
    (y.flags.unknown = true → x.flags.unknown = true) ∧ (y.flags.confused = true → x.flags.confused = true) := by
  obtain ⟨t', ha, hf⟩ := combineWith_all hm ht hr
  exact ha.cause k x y (finish_rep hm ha hf hx) hy

/-- C80. Unit traits of the result: flags of operands are accumulated, but redundant memory which is not redundant for
one of operands is not redundant, and direct accesses hide indirect ones. -/
theorem combineWith_unit {m t r : Trait} (hm : m.WF) (ht : t.WF) (hr : combineWith m t = some r) (u : UnitTrait) :
    r.dptr.unit u = ((t.dptr.unit u || m.dptr.unit u) &&
      !(decide (u = .redundant) && (t.dptr.unit .noRedundant || m.dptr.unit .noRedundant)) &&
      !(decide (u = .indirectAccess) && (t.dptr.unit .directAccess || m.dptr.unit .directAccess))) := by
  obtain ⟨t', ha, hf⟩ := combineWith_all hm ht hr
  obtain ⟨dd, hdd, hdep, hrep, hu⟩ := finish_spec hm ha.wf hf
  rw [hu, ha.unit, Bool.true_and]

theorem joinIR_some : ∀ (xs ys : List Range), xs.length ≤ ys.length → ∃ zs, joinIR xs ys = some zs
  | [], _, _ => ⟨[], by rw [joinIR]⟩
  | x :: xs, [], h => by simp at h
  | x :: xs, y :: ys, h => by
    obtain ⟨zs, hz⟩ := joinIR_some xs ys (by simpa using h)
    exact ⟨_, by rw [joinIR, hz]; rfl⟩

theorem combineIf_some {m t : Trait} {k : Tag}
    (h : ∀ x y, m.rep k = some x → t.rep k = some y → x.dist.length ≤ y.dist.length) : ∃ t', combineIf m k t = some t' := by
  unfold combineIf combineRep
  cases hx : m.rep k with
  | some x =>
    cases hy : t.rep k with
    | none =>
      simp only
      split
      · exact ⟨_, rfl⟩
      · exact ⟨_, rfl⟩
    | some y =>
      obtain ⟨zs, hz⟩ := joinIR_some x.dist y.dist (h x y hx hy)
      simp only [hz]
      exact ⟨_, rfl⟩
  | none =>
    cases hy : t.rep k with
    | none => exact ⟨_, rfl⟩
    | some y =>
      simp only
      split
      · exact ⟨_, rfl⟩
      · exact ⟨_, rfl⟩

/-- C80. Combination is defined if distances of the metadata-level trait are described for all levels described
by the IR-level trait. What is missing: it should be defined for all traits, see `combineWith_levels_fails`. -/
theorem combineWith_defined_partial {m t : Trait} (hm : m.WF) (ht : t.WF)
    (h : ∀ k x y, m.rep k = some x → t.rep k = some y → x.dist.length ≤ y.dist.length) : ∃ r, combineWith m t = some r := by
  unfold combineWith
  obtain ⟨t1, h1⟩ := combineIf_some (h .flow)
  have s1 := combineIf_step hm ht h1
  obtain ⟨t2, h2⟩ := combineIf_some (m := m) (t := t1) (k := .anti) (by rw [s1.other _ (by decide)]; exact h .anti)
  have s2 := combineIf_step hm s1.wf h2
  obtain ⟨t3, h3⟩ := combineIf_some (m := m) (t := t2) (k := .output)
    (by rw [s2.other _ (by decide), s1.other _ (by decide)]; exact h .output)
  have s3 := combineIf_step hm s2.wf h3
  obtain ⟨r, hr⟩ := finish_defined true (t := t) hm s3.wf
  exact ⟨r, by rw [h1, Option.bind_some, h2, Option.bind_some, h3, Option.bind_some, hr]⟩

/-- C80. Merge of traits in the pool is always defined. -/
theorem mergePool_defined {m t : Trait} (hm : m.WF) (ht : t.WF) : ∃ r, mergePool m t = some r :=
  finish_defined false hm (mergePool_all hm ht).wf

theorem fresh_wf : fresh.WF :=
  ⟨⟨⟨.noAccess, rfl⟩, [.noAccess], by decide, fun a ha => by simpa [fresh] using ha⟩, fun _ h => by cases h⟩

/-- C80. Traits of all values which are bound to a location are combined: nothing is lost on the way if kinds of
dependencies of all locations are known. -/
theorem combineAll_covers_partial {ms : List Trait} (hw : ∀ m ∈ ms, m.WF) (hs : ∀ m ∈ ms, m.spurious = false) {r : Trait}
    (hr : combineAll ms = some r) : r.WF ∧ r.spurious = false ∧ (∀ m ∈ ms, ∀ k d, m.Allows k d → r.Allows k d) ∧
      ∀ k, r.is k = true ↔ ∃ m ∈ ms, m.is k = true := by
  have key : ∀ (ms : List Trait) (t : Trait), t.WF → t.spurious = false → (∀ m ∈ ms, m.WF) →
      (∀ m ∈ ms, m.spurious = false) → ∀ r, ms.foldlM (fun t m => combineWith m t) t = some r →
      r.WF ∧ r.spurious = false ∧ (∀ k d, t.Allows k d → r.Allows k d) ∧ (∀ m ∈ ms, ∀ k d, m.Allows k d → r.Allows k d) ∧
        ∀ k, r.is k = true ↔ (t.is k = true ∨ ∃ m ∈ ms, m.is k = true) := by
    intro ms
    induction ms with
    | nil =>
      intro t ht hts _ _ r hr
      rw [List.foldlM_nil] at hr
      obtain rfl := Option.some.inj hr
      exact ⟨ht, hts, fun _ _ h => h, fun m hm => (by cases hm), fun k => by simp⟩
    | cons m ms ih =>
      intro t ht hts hw hs r hr
      rw [List.foldlM_cons] at hr
      obtain ⟨q, hq, hr⟩ := Option.bind_eq_some_iff.1 hr
      have hm := hw m (by simp)
      have hms := hs m (by simp)
      have hqw := combineWith_wf hm ht hq
      have hqk := combineWith_kinds hm ht hq hms hts
      have hqs : q.spurious = false := by
        obtain ⟨t', ha, hf⟩ := combineWith_all hm ht hq
        by_cases hz : ∃ j, q.is j = true
        · obtain ⟨j, hj⟩ := hz
          exact legal_not_spurious hqw.legal hj
        · push Not at hz
          have hzm : ∀ j, m.is j = false ∧ t.is j = false := by
            intro j
            have := hz j
            rw [hqk j, ne_eq, Bool.not_eq_true, Bool.or_eq_false_iff] at this
            exact this
          have hmn : ∀ j, m.rep j = none := by
            intro j
            cases hj : m.rep j with
            | none => rfl
            | some x =>
              have := hm.attached j (by rw [hj]; rfl)
              rw [(hzm j).1] at this; cases this
          have hn : ∀ {x : Trait}, x.spurious = false → (∀ j, x.is j = false) → x.dptr.hasNoDep = true ∧ ¬ Privatizable x.dptr := by
            intro x h1 h2
            have h1' : ¬ hasSpuriousDep x.dptr = true := by
              intro h; unfold Trait.spurious at h1; rw [h] at h1; cases h1
            rw [spurious_iff, not_or] at h1'
            refine ⟨?_, h1'.2⟩
            by_contra hne
            refine h1'.1 ⟨Bool.eq_false_iff.2 hne, ?_⟩
            rintro a (rfl | rfl | rfl)
            · exact h2 .flow
            · exact h2 .anti
            · exact h2 .output
          obtain ⟨dd, hdd, hdep, _, _⟩ := finish_spec hm ha.wf hf
          rw [ha.same hmn] at hdd
          rw [if_neg (by simp [hms, hts])] at hdep
          have htab := noDep_table _ (legal_noDepPart ht.legal (hn hts fun j => (hzm j).2)) _
            (legal_noDepPart hm.legal (hn hms fun j => (hzm j).1))
          rw [hdd, Option.map_some, Option.some.injEq] at htab
          have hf3 : ∀ a, IsDepKind a → (t.dptr.dep a || m.dptr.dep a) = false := by
            rintro a (rfl | rfl | rfl)
            · rw [Bool.or_eq_false_iff]; exact (hzm .flow).symm
            · rw [Bool.or_eq_false_iff]; exact (hzm .anti).symm
            · rw [Bool.or_eq_false_iff]; exact (hzm .output).symm
          have e : ∀ a, ¬ IsDepKind a → q.dptr.dep a = dd a := by
            intro a ha
            rw [hdep, updateDep_other _ _ _ ha, hf3 .flow (by simp [IsDepKind]), hf3 .anti (by simp [IsDepKind]),
              hf3 .output (by simp [IsDepKind])]
            simp
          have e2 : ∀ a, IsDepKind a → q.dptr.dep a = false := by
            intro a ha
            rw [hdep, updateDep_kind _ _ _ ha, hf3 a ha]
          unfold Trait.spurious hasSpuriousDep
          rw [e2 .flow (by simp [IsDepKind]), e2 .anti (by simp [IsDepKind]), e2 .output (by simp [IsDepKind]),
            e _ (by simp [IsDepKind]), e _ (by simp [IsDepKind]), e _ (by simp [IsDepKind]), e _ (by simp [IsDepKind]),
            e _ (by simp [IsDepKind]), e _ (by simp [IsDepKind]), e _ (by simp [IsDepKind]), e _ (by simp [IsDepKind])]
          rw [Bool.and_eq_true, Bool.not_eq_true'] at htab
          rw [htab.1, htab.2]
          rfl
      obtain ⟨a, b, c, e, f⟩ := ih q hqw hqs (fun x hx => hw x (by simp [hx])) (fun x hx => hs x (by simp [hx])) r hr
      have hcov := combineWith_covers_partial hm ht hq (Or.inl hts)
      refine ⟨a, b, fun k d h => c k d (hcov k d (Or.inr h)), ?_, ?_⟩
      · intro x hx k d h
        rcases List.mem_cons.1 hx with rfl | hx
        · exact c k d (hcov k d (Or.inl h))
        · exact e x hx k d h
      · intro k
        rw [f k, hqk k, Bool.or_eq_true]
        simp only [List.mem_cons, exists_eq_or_imp]
        tauto
  obtain ⟨a, b, _, d, e⟩ := key ms fresh fresh_wf (by decide) hw hs r hr
  refine ⟨a, b, d, fun k => ?_⟩
  rw [e k]
  constructor
  · rintro (h | h)
    · cases k <;> exact absurd h (by decide)
    · exact h
  · exact Or.inr

end DIDep
end Tsar
