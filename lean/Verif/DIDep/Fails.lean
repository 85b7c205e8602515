import Verif.DIDep.Props

/-!
# Combination of metadata-level dependencies: examples and failures (C80)
-/

namespace Tsar
namespace DIDep

open BitTrait Parallel

/-- A descriptor with a list of alternatives. -/
def dptrOf (us : List UnitTrait) (l : List DepTrait) : Dptr := ⟨fun u => us.contains u, fun a => l.contains a⟩

theorem dptrOf_legal (us : List UnitTrait) (l : List DepTrait) (hne : l ≠ [])
    (h : ∃ u ∈ DepTrait.unions, ∀ a ∈ l, a ∈ u) : Legal (dptrOf us l) := by
  obtain ⟨u, hu, hs⟩ := h
  cases l with
  | nil => exact absurd rfl hne
  | cons a l =>
    exact ⟨⟨a, by simp [dptrOf]⟩, u, hu, fun b hb => hs b (by simpa [dptrOf] using hb)⟩

/-- Flags of a dependence caused by load and store instructions. -/
def ls : Flags := ⟨false, true, false, false, false⟩

/-- A trait with values attached to dependencies. -/
def mk (us : List UnitTrait) (l : List DepTrait) (flow anti output : Option Rep) : Trait :=
  ⟨dptrOf us l, fun k => match k with | .flow => flow | .anti => anti | .output => output⟩

/-- A private variable. -/
def exPriv : Trait := mk [] [.priv] none none none

/-- Flow and anti dependencies with the distance 1. -/
def exFlowAnti : Trait :=
  mk [] [.flow, .anti] (some ⟨ls, [(some 1, some 1)]⟩) (some ⟨ls, [(some 1, some 1)]⟩) none

/-- A flow dependence with the distance 1. -/
def exFlow : Trait := mk [.explicitAccess] [.flow] (some ⟨ls, [(some 1, some 1)]⟩) none none

/-- A flow dependence with distances from 2 to 5. -/
def exFlow2 : Trait := mk [.directAccess] [.flow, .output] (some ⟨⟨true, false, true, false, false⟩, [(some 2, some 5)]⟩) none none

theorem exPriv_wf : exPriv.WF :=
  ⟨dptrOf_legal _ _ (by decide) ⟨[.priv, .shared], by decide, by decide⟩, fun k h => by cases k <;> cases h⟩

theorem exFlowAnti_wf : exFlowAnti.WF :=
  ⟨dptrOf_legal _ _ (by decide) ⟨[.flow, .anti, .output], by decide, by decide⟩, fun k => by cases k <;> decide⟩

theorem exFlow_wf : exFlow.WF :=
  ⟨dptrOf_legal _ _ (by decide) ⟨[.flow, .anti, .output], by decide, by decide⟩, fun k => by cases k <;> decide⟩

theorem exFlow2_wf : exFlow2.WF :=
  ⟨dptrOf_legal _ _ (by decide) ⟨[.flow, .anti, .output], by decide, by decide⟩, fun k => by cases k <;> decide⟩

/-- A list of traits which are set. -/
def Trait.view (t : Trait) : List DepTrait × Option Rep × Option Rep × Option Rep :=
  (allDeps.filter t.dptr.dep, t.rep .flow, t.rep .anti, t.rep .output)

/-- Distances 1 and 2..5 are joined, and the result contains both flow and output dependencies. -/
example : (combineWith exFlow2 exFlow).map Trait.view =
    some ([.flow, .output], some ⟨⟨false, true, true, false, false⟩, [(some 1, some 5)]⟩, none, none) ∧
    Ordered exFlow2 exFlow ∧ exFlow2.spurious = false ∧ exFlow.spurious = false :=
  ⟨by decide +kernel, Or.inl (by decide), by decide, by decide⟩

/-- Hypotheses of `combineWith_covers_partial` are met. -/
example : ∃ r, combineWith exFlow2 exFlow = some r ∧ Covers exFlow2 exFlow r ∧ r.Allows .flow (fun _ => 4) ∧
    ¬ r.Allows .flow (fun _ => 7) ∧ ¬ r.Allows .anti (fun _ => 1) := by
  obtain ⟨r, hr⟩ := combineWith_defined_partial exFlow2_wf exFlow_wf (m := exFlow2) (t := exFlow) (by
    intro k x y hx hy
    cases k
    · cases hx; cases hy; decide
    · cases hx
    · cases hx)
  have hv : (combineWith exFlow2 exFlow).map Trait.view =
    some ([.flow, .output], some ⟨⟨false, true, true, false, false⟩, [(some 1, some 5)]⟩, none, none) := by decide +kernel
  rw [hr, Option.map_some, Option.some.injEq] at hv
  simp only [Trait.view, Prod.mk.injEq] at hv
  have hc := combineWith_covers_partial exFlow2_wf exFlow_wf hr (Or.inl (by decide))
  have hk := combineWith_kinds exFlow2_wf exFlow_wf hr (by decide) (by decide)
  refine ⟨r, hr, hc, hc _ _ (Or.inl (Or.inl ⟨rfl, fun x hx => ?_⟩)), ?_, ?_⟩
  · cases hx
    intro i r hr
    cases i with
    | zero => cases hr; constructor <;> (intro _ h; cases h; decide)
    | succ i => cases hr
  · rintro (⟨_, h⟩ | ⟨h, _⟩)
    · have := (h _ hv.2.1 0 _ rfl).2 5 rfl
      exact absurd this (by decide)
    · rw [hk] at h; cases h
  · have hns : r.spurious = false := by
      refine legal_not_spurious (combineWith_wf exFlow2_wf exFlow_wf hr).legal (k := .flow) ?_
      have := hk .flow
      exact this
    rintro (⟨h, _⟩ | ⟨_, h⟩)
    · rw [hk] at h; cases h
    · rw [hns] at h; cases h

/-- Several values are bound to one location. -/
example : (combineAll [exFlow, exFlow2]).map Trait.view =
    some ([.flow, .output], some ⟨⟨false, true, true, false, false⟩, [(some 1, some 5)]⟩, none, none) := by decide +kernel

/-- A merged location. -/
example : (mergePool exFlow2 exFlow).map Trait.view =
    some ([.flow, .output], some ⟨⟨false, true, true, false, false⟩, [(some 1, some 5)]⟩, none, none) := by decide +kernel

/-- A private location is combined with a location which contains a dependence: the distance is unknown. -/
example : (combineWith exFlow exPriv).map Trait.view =
    some ([.flow, .anti, .output], some ⟨⟨false, true, false, true, false⟩, []⟩, none, none) ∧ Ordered exFlow exPriv :=
  ⟨by decide +kernel, Or.inr (by intro j k hj hk; cases j <;> cases k <;> revert hj hk <;> decide)⟩

/-- C80 fails: calls of `combineIf` are not independent. A private variable is combined with a location which has flow
and anti dependencies. Kinds of dependencies of a private variable are not known, so distances must become unknown. However,
after the flow dependence is set the variable is not private, and the anti dependence is copied with its distance. -/
theorem combineWith_order_fails : ¬ ∀ m t r : Trait, m.WF → t.WF → combineWith m t = some r → Covers m t r := by
  intro h
  have hv : (combineWith exFlowAnti exPriv).map Trait.view =
    some ([.flow, .anti, .output], some ⟨⟨false, true, false, true, false⟩, []⟩, some ⟨ls, [(some 1, some 1)]⟩, none) := by
    decide +kernel
  cases hr : combineWith exFlowAnti exPriv with
  | none => rw [hr] at hv; cases hv
  | some r =>
    rw [hr, Option.map_some, Option.some.injEq] at hv
    simp only [Trait.view, Prod.mk.injEq] at hv
    have ha := h _ _ _ exFlowAnti_wf exPriv_wf hr .anti (fun _ => 3) (Or.inr (Or.inr ⟨by decide, by decide⟩))
    have hk : r.is .anti = true := by
      have : DepTrait.anti ∈ allDeps.filter r.dptr.dep := by rw [hv.1]; decide
      exact (List.mem_filter.1 this).2
    rcases ha with ⟨_, ha⟩ | ⟨ha, _⟩
    · have := (ha _ hv.2.2.1 0 _ rfl).2 1 rfl
      exact absurd this (by decide)
    · rw [hk] at ha; cases ha

/-- The same for a merged location in the pool. -/
theorem mergePool_order_fails : ¬ ∀ m t r : Trait, m.WF → t.WF → mergePool m t = some r → Covers m t r := by
  intro h
  have hv : (mergePool exFlowAnti exPriv).map Trait.view =
    some ([.flow, .anti, .output], some ⟨⟨false, true, false, true, false⟩, []⟩, some ⟨ls, [(some 1, some 1)]⟩, none) := by
    decide +kernel
  cases hr : mergePool exFlowAnti exPriv with
  | none => rw [hr] at hv; cases hv
  | some r =>
    rw [hr, Option.map_some, Option.some.injEq] at hv
    simp only [Trait.view, Prod.mk.injEq] at hv
    have ha := h _ _ _ exFlowAnti_wf exPriv_wf hr .anti (fun _ => 3) (Or.inr (Or.inr ⟨by decide, by decide⟩))
    have hk : r.is .anti = true := by
      have : DepTrait.anti ∈ allDeps.filter r.dptr.dep := by rw [hv.1]; decide
      exact (List.mem_filter.1 this).2
    rcases ha with ⟨_, ha⟩ | ⟨ha, _⟩
    · have := (ha _ hv.2.2.1 0 _ rfl).2 1 rfl
      exact absurd this (by decide)
    · rw [hk] at ha; cases ha

/-- A flow dependence, the distance is known for the outermost loop only. -/
def exOuter : Trait := mk [] [.flow] (some ⟨ls, [(some 1, some 1), (none, none)]⟩) none none

/-- A flow dependence, the distance is known for two loops. -/
def exInner : Trait := mk [] [.flow] (some ⟨ls, [(some 1, some 1), (some 0, some 0)]⟩) none none

theorem exOuter_wf : exOuter.WF :=
  ⟨dptrOf_legal _ _ (by decide) ⟨[.flow, .anti, .output], by decide, by decide⟩, fun k => by cases k <;> decide⟩

theorem exInner_wf : exInner.WF :=
  ⟨dptrOf_legal _ _ (by decide) ⟨[.flow, .anti, .output], by decide, by decide⟩, fun k => by cases k <;> decide⟩

/-- C80 fails: combination of traits of two values is not always defined. Unknown levels at the end of the distance
vector are dropped from the first value, and then `getDistance()` is called for the dropped level. In the reverse order
the combination is defined. -/
theorem combineWith_levels_fails : ¬ ∀ ms : List Trait, (∀ m ∈ ms, m.WF) → combineAll ms ≠ none := by
  intro h
  have hv : (combineAll [exOuter, exInner]).map Trait.view = none := by decide +kernel
  refine h [exOuter, exInner] ?_ (Option.map_eq_none_iff.1 hv)
  intro m hm
  rcases List.mem_cons.1 hm with rfl | hm
  · exact exOuter_wf
  · rw [List.mem_singleton.1 hm]; exact exInner_wf

example : (combineAll [exInner, exOuter]).map Trait.view = some ([.flow], some ⟨ls, [(some 1, some 1)]⟩, none, none) := by
  decide +kernel

end DIDep
end Tsar
