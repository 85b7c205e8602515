import Verif.Extern.Lookup

/-!
# Import of external analysis results
-/
namespace Tsar.Extern

open BitTrait (UnitTrait DepTrait setDep)

/-- A loop-carried dependence of some kind. -/
def IsDep (d : DepTrait) : Prop := d = .flow ∨ d = .anti ∨ d = .output

theorem set_dep (t : Traits) (d x : DepTrait) :
    (t.set d).dep x = (decide (x = d) || (t.dep x && DepTrait.compatible x d)) := rfl

theorem unset_dep (t : Traits) (d x : DepTrait) :
    (t.unset d).dep x = (t.dep x && decide (x ≠ d)) := rfl

theorem unsetUnit_dep (t : Traits) (u : UnitTrait) : (t.unsetUnit u).dep = t.dep := rfl

/-- How `update` transforms traits of a variable which are not fixed: possible results before the
last step. -/
inductive Step (e : Ext) (t : Traits) : Traits → Prop
  | shared : e.noDeps = true → e.write = true → Step e t (t.set .shared)
  | readonly : e.noDeps = true → e.write = false → Step e t (t.set .readonly)
  | priv : e.priv = true → e.useAfter = false →
      (e.flow ≠ none ∨ e.anti ≠ none ∨ e.output = true) → Step e t (t.set .priv)
  | privShared : e.priv = true → e.useAfter = false → e.flow = none → e.anti = none →
      e.output = false → Step e t ((t.set .priv).set .shared)
  | dynamic : e.priv = true → e.useAfter = true →
      (t.dep .flow = true ∨ t.dep .anti = true ∨ t.dep .output = true) →
      (e.flow ≠ none ∨ e.anti ≠ none ∨ e.output = true) → Step e t (t.set .dynamicPrivate)
  | dynamicShared : e.priv = true → e.useAfter = true →
      (t.dep .flow = true ∨ t.dep .anti = true ∨ t.dep .output = true) →
      e.flow = none → e.anti = none → e.output = false →
      Step e t ((t.set .dynamicPrivate).set .shared)
  | same : e.priv = true → e.useAfter = true → t.dep .flow = false → t.dep .anti = false →
      t.dep .output = false → (e.flow ≠ none ∨ e.anti ≠ none ∨ e.output = true) → Step e t t
  | sameShared : e.priv = true → e.useAfter = true → t.dep .flow = false → t.dep .anti = false →
      t.dep .output = false → e.flow = none → e.anti = none → e.output = false →
      Step e t (t.set .shared)
  | first : e.noDeps = false → e.priv = false → t.dep .firstPrivate = true → e.useAfter = true →
      Step e t t
  | firstDrop : e.noDeps = false → e.priv = false → t.dep .firstPrivate = true →
      e.useAfter = false →
      Step e t (((t.unset .lastPrivate).unset .secondToLastPrivate).unset .dynamicPrivate)
  | reduction {k : Nat} : e.priv = false → t.dep .firstPrivate = false → e.reduction = some k →
      Step e t { t.set .reduction with reduction := some k }
  | deps {t1 t2 t3 : Traits} : e.noDeps = false → e.priv = false → t.dep .firstPrivate = false →
      e.reduction = none → updateAnti e t = some t1 → updateFlow e t1 = some t2 →
      updateOutput e t2 = some t3 →
      Step e t
        (let t := if e.flow.isNone then t3.unset .flow else t3
         let t := if e.anti.isNone then t.unset .anti else t
         if !e.output then t.unset .output else t)

theorem update_step {e : Ext} {t t' : Traits} (h : update e t = some t') :
    (t.fixed = true ∧ t' = t) ∨
      (t.fixed = false ∧ ∃ t1, Step e t t1 ∧
        t' = if e.useAfter = false then t1.unsetUnit .useAfterLoop else t1) := by
  unfold update at h
  cases hf : t.fixed with
  | true => simp only [hf, if_true, Option.some.injEq] at h; exact Or.inl ⟨rfl, h.symm⟩
  | false =>
    right
    refine ⟨rfl, ?_⟩
    simp only [hf, Bool.false_eq_true, if_false] at h
    have key : ∀ {r : Option Traits}, (match r with
        | none => none
        | some t => some (if (!e.useAfter) = true then t.unsetUnit .useAfterLoop else t)) = some t' →
        ∃ t1, r = some t1 ∧ t' = if e.useAfter = false then t1.unsetUnit .useAfterLoop else t1 := by
      intro r hr
      cases r with
      | none => cases hr
      | some t1 =>
        injection hr with hr
        refine ⟨t1, rfl, ?_⟩
        rw [← hr]
        cases e.useAfter <;> rfl
    obtain ⟨t1, h1, h2⟩ := key h
    refine ⟨t1, ?_, h2⟩
    clear h h2 key
    cases hn : e.noDeps with
    | true =>
      simp only [hn, if_true, Option.some.injEq] at h1
      subst h1
      cases hw : e.write with
      | true => exact Step.shared hn hw
      | false => exact Step.readonly hn hw
    | false =>
      simp only [hn, Bool.false_eq_true, if_false] at h1
      cases hp : e.priv with
      | true =>
        simp only [hp, if_true, Option.some.injEq] at h1
        subst h1
        by_cases hd : e.flow = none ∧ e.anti = none ∧ e.output = false
        · obtain ⟨d1, d2, d3⟩ := hd
          simp only [d1, d2, d3, Option.isNone_none, Bool.not_false, Bool.and_self, if_true]
          cases hu : e.useAfter with
          | false => exact Step.privShared hp hu d1 d2 d3
          | true =>
            simp only [Bool.not_true, Bool.false_eq_true, if_false]
            split
            · next hh => exact Step.dynamicShared hp hu (by simpa [or_assoc] using hh) d1 d2 d3
            · next hh =>
              simp only [Bool.or_eq_true, not_or, Bool.not_eq_true] at hh
              exact Step.sameShared hp hu hh.1.1 hh.1.2 hh.2 d1 d2 d3
        · have hd' : (e.flow.isNone && e.anti.isNone && !e.output) = false := by
            rw [← Bool.not_eq_true]
            intro hc
            apply hd
            simpa [and_assoc] using hc
          have hd'' : e.flow ≠ none ∨ e.anti ≠ none ∨ e.output = true := by
            by_contra hc
            simp only [not_or, not_not, Bool.not_eq_true, ne_eq] at hc
            exact hd hc
          simp only [hd', Bool.false_eq_true, if_false]
          cases hu : e.useAfter with
          | false => exact Step.priv hp hu hd''
          | true =>
            simp only [Bool.not_true, Bool.false_eq_true, if_false]
            split
            · next hh => exact Step.dynamic hp hu (by simpa [or_assoc] using hh) hd''
            · next hh =>
              simp only [Bool.or_eq_true, not_or, Bool.not_eq_true] at hh
              exact Step.same hp hu hh.1.1 hh.1.2 hh.2 hd''
      | false =>
        simp only [hp, Bool.false_eq_true, if_false] at h1
        cases hfp : t.dep .firstPrivate with
        | true =>
          simp only [hfp, if_true, Option.some.injEq] at h1
          subst h1
          cases hu : e.useAfter with
          | false => exact Step.firstDrop hn hp hfp hu
          | true => exact Step.first hn hp hfp hu
        | false =>
          simp only [hfp, Bool.false_eq_true, if_false] at h1
          cases hr : e.reduction with
          | some k =>
            simp only [hr, Option.some.injEq] at h1
            subst h1
            exact Step.reduction hp hfp hr
          | none =>
            simp only [hr] at h1
            cases ha : updateAnti e t with
            | none => simp [ha] at h1
            | some t2 =>
              cases hfl : updateFlow e t2 with
              | none => simp [ha, hfl] at h1
              | some t3 =>
                cases ho : updateOutput e t3 with
                | none => simp [ha, hfl, ho] at h1
                | some t4 =>
                  simp only [ha, hfl, ho, Option.some.injEq] at h1
                  subst h1
                  exact Step.deps hn hp hfp hr ha hfl ho

theorem updateAnti_dep {e : Ext} {t t' : Traits} (h : updateAnti e t = some t') :
    t' = t ∨ (t.dep .anti = true ∧ ∃ r d, e.anti = some r ∧ t.anti = some d ∧
      t' = { t.set .anti with anti := some (newDep r d) }) := by
  unfold updateAnti at h
  cases he : e.anti with
  | none => simp only [he, Option.some.injEq] at h; exact Or.inl h.symm
  | some r =>
    cases hd : t.dep .anti with
    | false => simp only [he, hd, Option.some.injEq] at h; exact Or.inl h.symm
    | true =>
      cases ha : t.anti with
      | none => simp [he, hd, ha] at h
      | some d =>
        simp only [he, hd, ha, Option.some.injEq] at h
        exact Or.inr ⟨rfl, r, d, rfl, rfl, h.symm⟩

theorem updateFlow_dep {e : Ext} {t t' : Traits} (h : updateFlow e t = some t') :
    t' = t ∨ (t.dep .flow = true ∧ ∃ r d, e.flow = some r ∧ t.flow = some d ∧
      t' = { t.set .flow with flow := some (newDep r d) }) := by
  unfold updateFlow at h
  cases he : e.flow with
  | none => simp only [he, Option.some.injEq] at h; exact Or.inl h.symm
  | some r =>
    cases hd : t.dep .flow with
    | false => simp only [he, hd, Option.some.injEq] at h; exact Or.inl h.symm
    | true =>
      cases ha : t.flow with
      | none => simp [he, hd, ha] at h
      | some d =>
        simp only [he, hd, ha, Option.some.injEq] at h
        exact Or.inr ⟨rfl, r, d, rfl, rfl, h.symm⟩

theorem updateOutput_dep {e : Ext} {t t' : Traits} (h : updateOutput e t = some t') :
    t' = t ∨ (t.dep .output = true ∧ ∃ d, e.output = true ∧ t.output = some d ∧
      t' = { t.set .output with output := some (mkDep {} d.dist) }) := by
  unfold updateOutput at h
  cases he : e.output with
  | false => simp only [he, Option.some.injEq] at h; exact Or.inl h.symm
  | true =>
    cases hd : t.dep .output with
    | false => simp only [he, hd, Option.some.injEq] at h; exact Or.inl h.symm
    | true =>
      cases ha : t.output with
      | none => simp [he, hd, ha] at h
      | some d =>
        simp only [he, hd, ha, Option.some.injEq] at h
        exact Or.inr ⟨rfl, d, rfl, rfl, h.symm⟩

/-- Updates of dependences keep the kinds of dependences and do not add other traits. -/
theorem deps_keep {e : Ext} {t t1 t2 t3 : Traits} (h1 : updateAnti e t = some t1)
    (h2 : updateFlow e t1 = some t2) (h3 : updateOutput e t2 = some t3) :
    (∀ d, IsDep d → t3.dep d = t.dep d) ∧ (∀ d, t3.dep d = true → t.dep d = true) ∧
      t3.unit = t.unit := by
  have a1 : (∀ d, IsDep d → t1.dep d = t.dep d) ∧ (∀ d, t1.dep d = true → t.dep d = true) ∧
      t1.unit = t.unit := by
    rcases updateAnti_dep h1 with rfl | ⟨hd, r, x, _, _, rfl⟩
    · exact ⟨fun _ _ => rfl, fun _ h => h, rfl⟩
    · refine ⟨?_, ?_, rfl⟩
      · rintro d (rfl | rfl | rfl) <;> simp [set_dep, hd, DepTrait.compatible, DepTrait.unions]
      · intro d hd'
        rw [show ({ t.set .anti with anti := some (newDep r x) } : Traits).dep d =
          (t.set .anti).dep d from rfl, set_dep] at hd'
        by_cases h : d = .anti
        · rw [h]; exact hd
        · simp [h] at hd'; exact hd'.1
  have a2 : (∀ d, IsDep d → t2.dep d = t1.dep d) ∧ (∀ d, t2.dep d = true → t1.dep d = true) ∧
      t2.unit = t1.unit := by
    rcases updateFlow_dep h2 with rfl | ⟨hd, r, x, _, _, rfl⟩
    · exact ⟨fun _ _ => rfl, fun _ h => h, rfl⟩
    · refine ⟨?_, ?_, rfl⟩
      · rintro d (rfl | rfl | rfl) <;> simp [set_dep, hd, DepTrait.compatible, DepTrait.unions]
      · intro d hd'
        rw [show ({ t1.set .flow with flow := some (newDep r x) } : Traits).dep d =
          (t1.set .flow).dep d from rfl, set_dep] at hd'
        by_cases h : d = .flow
        · rw [h]; exact hd
        · simp [h] at hd'; exact hd'.1
  have a3 : (∀ d, IsDep d → t3.dep d = t2.dep d) ∧ (∀ d, t3.dep d = true → t2.dep d = true) ∧
      t3.unit = t2.unit := by
    rcases updateOutput_dep h3 with rfl | ⟨hd, x, _, _, rfl⟩
    · exact ⟨fun _ _ => rfl, fun _ h => h, rfl⟩
    · refine ⟨?_, ?_, rfl⟩
      · rintro d (rfl | rfl | rfl) <;> simp [set_dep, hd, DepTrait.compatible, DepTrait.unions]
      · intro d hd'
        rw [show ({ t2.set .output with output := some (mkDep {} x.dist) } : Traits).dep d =
          (t2.set .output).dep d from rfl, set_dep] at hd'
        by_cases h : d = .output
        · rw [h]; exact hd
        · simp [h] at hd'; exact hd'.1
  exact ⟨fun d hd => (a3.1 d hd).trans ((a2.1 d hd).trans (a1.1 d hd)),
    fun d hd => a1.2.1 d (a2.2.1 d (a3.2.1 d hd)), a3.2.2.trans (a2.2.2.trans a1.2.2)⟩

/-- Traits after the dependences are updated. -/
theorem deps_dep {e : Ext} {t1 t2 t3 t : Traits} (h1 : updateAnti e t = some t1)
    (h2 : updateFlow e t1 = some t2) (h3 : updateOutput e t2 = some t3) :
    let t' := (let t := if e.flow.isNone then t3.unset .flow else t3
      let t := if e.anti.isNone then t.unset .anti else t
      if !e.output then t.unset .output else t)
    (t'.dep .flow = (t.dep .flow && e.flow.isSome)) ∧ (t'.dep .anti = (t.dep .anti && e.anti.isSome)) ∧
      (t'.dep .output = (t.dep .output && e.output)) ∧ (∀ d, t'.dep d = true → t.dep d = true) ∧
      t'.unit = t.unit := by
  obtain ⟨k1, k2, k3⟩ := deps_keep h1 h2 h3
  have f := k1 .flow (Or.inl rfl)
  have a := k1 .anti (Or.inr (Or.inl rfl))
  have o := k1 .output (Or.inr (Or.inr rfl))
  cases he : e.flow <;> cases ha : e.anti <;> cases ho : e.output <;>
    refine ⟨?_, ?_, ?_, ?_, ?_⟩ <;>
    first
      | (simp [unset_dep, f, a, o]; done)
      | (intro d hd; simp [unset_dep] at hd; exact k2 d (by tauto))
      | exact k3

/-- **C127.** What import does with traits of a variable `t`, for which external results are `e`:
* traits which are known exactly are not changed;
* a dependence is never added, and it is removed only if it is not listed or if the variable is listed
  as private or reduction;
* absence of dependences is stated only if no dependence is listed, a read only variable is not listed
  as modified;
* a variable becomes private only if it is listed as private and is not used after the loop;
* a variable becomes a reduction of a listed kind;
* other traits do not change, and use after the loop is dropped only if it is not listed. -/
theorem import_sound_partial {e : Ext} {t t' : Traits} (h : update e t = some t') :
    (t.fixed = true → t' = t) ∧
    (∀ d, IsDep d → t'.dep d = true → t.dep d = true) ∧
    (t.dep .flow = true → t'.dep .flow = false →
      e.flow = none ∨ e.priv = true ∨ e.reduction ≠ none) ∧
    (t.dep .anti = true → t'.dep .anti = false →
      e.anti = none ∨ e.priv = true ∨ e.reduction ≠ none) ∧
    (t.dep .output = true → t'.dep .output = false →
      e.output = false ∨ e.priv = true ∨ e.reduction ≠ none) ∧
    (t'.dep .shared = true → t.dep .shared = false →
      e.flow = none ∧ e.anti = none ∧ e.output = false) ∧
    (t'.dep .readonly = true → t.dep .readonly = false →
      e.flow = none ∧ e.anti = none ∧ e.output = false ∧ e.priv = false ∧ e.reduction = none ∧
        e.write = false) ∧
    (t'.dep .priv = true → t.dep .priv = false → e.priv = true ∧ e.useAfter = false) ∧
    (t'.dep .dynamicPrivate = true → t.dep .dynamicPrivate = false →
      e.priv = true ∧ e.useAfter = true) ∧
    (t'.dep .reduction = true → t.dep .reduction = false → ∃ k, e.reduction = some k ∧
      t'.reduction = some k ∧ e.priv = false) ∧
    (∀ d, d = .noAccess ∨ d = .induction ∨ d = .firstPrivate ∨ d = .lastPrivate ∨
      d = .secondToLastPrivate → t'.dep d = true → t.dep d = true) ∧
    (∀ u, u ≠ .useAfterLoop → t'.unit u = t.unit u) ∧
    (t'.unit .useAfterLoop = true → t.unit .useAfterLoop = true) ∧
    (t.unit .useAfterLoop = true → t'.unit .useAfterLoop = false → e.useAfter = false) := by
  have hno : e.noDeps = true → e.flow = none ∧ e.anti = none ∧ e.output = false ∧ e.priv = false ∧
      e.reduction = none := by
    intro hn
    simp only [Ext.noDeps, Bool.and_eq_true, Bool.not_eq_true', Option.isNone_iff_eq_none] at hn
    tauto
  rcases update_step h with ⟨hf, rfl⟩ | ⟨hf, t1, hs, ht⟩
  · refine ⟨fun _ => rfl, fun _ _ h => h, ?_, ?_, ?_, ?_, ?_, ?_, ?_, ?_, fun _ _ h => h,
      fun _ _ => rfl, fun h => h, ?_⟩ <;> intro a b <;> rw [a] at b <;> cases b
  · have hdep : t'.dep = t1.dep := by rw [ht]; split <;> rfl
    have hred : t'.reduction = t1.reduction := by rw [ht]; split <;> rfl
    have hunit : t1.unit = t.unit → (∀ u, u ≠ .useAfterLoop → t'.unit u = t.unit u) ∧
        (t'.unit .useAfterLoop = true → t.unit .useAfterLoop = true) ∧
        (t.unit .useAfterLoop = true → t'.unit .useAfterLoop = false → e.useAfter = false) := by
      intro hu
      rw [ht]
      cases e.useAfter with
      | true =>
        simp only [Bool.true_eq_false, if_false, hu]
        refine ⟨fun _ _ => trivial, fun h => h, ?_⟩
        intro a b
        rw [a] at b
        cases b
      | false =>
        simp only [if_true]
        refine ⟨fun u hne => ?_, ?_, fun _ _ => trivial⟩
        · simp [Traits.unsetUnit, hu, hne]
        · simp [Traits.unsetUnit]
    rw [hdep, hred]
    refine ⟨fun hc => (by rw [hf] at hc; cases hc), ?_⟩
    clear h ht hdep hred
    cases hs with
    | shared a b =>
      obtain ⟨n1, n2, n3, n4, n5⟩ := hno a
      refine ⟨?_, fun _ _ => Or.inl n1, fun _ _ => Or.inl n2, fun _ _ => Or.inl n3,
        fun _ _ => ⟨n1, n2, n3⟩, ?_, ?_, ?_, ?_, ?_, hunit rfl⟩
      · rintro d (rfl | rfl | rfl) <;> simp [set_dep, DepTrait.compatible, DepTrait.unions]
      · simp [set_dep, DepTrait.compatible, DepTrait.unions]
      · intro h1 h2; simp [set_dep, h2] at h1
      · intro h1 h2; simp [set_dep, h2] at h1
      · simp [set_dep, DepTrait.compatible, DepTrait.unions]
      · rintro d (rfl | rfl | rfl | rfl | rfl) <;>
          simp [set_dep, DepTrait.compatible, DepTrait.unions]
    | readonly a b =>
      obtain ⟨n1, n2, n3, n4, n5⟩ := hno a
      refine ⟨?_, fun _ _ => Or.inl n1, fun _ _ => Or.inl n2, fun _ _ => Or.inl n3,
        fun _ _ => ⟨n1, n2, n3⟩, fun _ _ => ⟨n1, n2, n3, n4, n5, b⟩, ?_, ?_, ?_, ?_, hunit rfl⟩
      · rintro d (rfl | rfl | rfl) <;> simp [set_dep, DepTrait.compatible, DepTrait.unions]
      · simp [set_dep, DepTrait.compatible, DepTrait.unions]
      · simp [set_dep, DepTrait.compatible, DepTrait.unions]
      · simp [set_dep, DepTrait.compatible, DepTrait.unions]
      · rintro d (rfl | rfl | rfl | rfl | rfl) <;>
          simp [set_dep, DepTrait.compatible, DepTrait.unions]
    | priv a b c =>
      refine ⟨?_, fun _ _ => Or.inr (Or.inl a), fun _ _ => Or.inr (Or.inl a),
        fun _ _ => Or.inr (Or.inl a), ?_, ?_, fun _ _ => ⟨a, b⟩, ?_, ?_, ?_, hunit rfl⟩
      · rintro d (rfl | rfl | rfl) <;> simp [set_dep, DepTrait.compatible, DepTrait.unions]
      · intro h1 h2; simp [set_dep, h2] at h1
      · simp [set_dep, DepTrait.compatible, DepTrait.unions]
      · simp [set_dep, DepTrait.compatible, DepTrait.unions]
      · simp [set_dep, DepTrait.compatible, DepTrait.unions]
      · rintro d (rfl | rfl | rfl | rfl | rfl) <;>
          simp [set_dep, DepTrait.compatible, DepTrait.unions]
    | privShared a b c1 c2 c3 =>
      refine ⟨?_, fun _ _ => Or.inr (Or.inl a), fun _ _ => Or.inr (Or.inl a),
        fun _ _ => Or.inr (Or.inl a), fun _ _ => ⟨c1, c2, c3⟩, ?_, fun _ _ => ⟨a, b⟩, ?_, ?_, ?_,
        hunit rfl⟩
      · rintro d (rfl | rfl | rfl) <;> simp [set_dep, DepTrait.compatible, DepTrait.unions]
      · simp [set_dep, DepTrait.compatible, DepTrait.unions]
      · simp [set_dep, DepTrait.compatible, DepTrait.unions]
      · simp [set_dep, DepTrait.compatible, DepTrait.unions]
      · rintro d (rfl | rfl | rfl | rfl | rfl) <;>
          simp [set_dep, DepTrait.compatible, DepTrait.unions]
    | dynamic a b c d =>
      refine ⟨?_, fun _ _ => Or.inr (Or.inl a), fun _ _ => Or.inr (Or.inl a),
        fun _ _ => Or.inr (Or.inl a), ?_, ?_, ?_, fun _ _ => ⟨a, b⟩, ?_, ?_, hunit rfl⟩
      · rintro d (rfl | rfl | rfl) <;> simp [set_dep, DepTrait.compatible, DepTrait.unions]
      · intro h1 h2; simp [set_dep, h2] at h1
      · simp [set_dep, DepTrait.compatible, DepTrait.unions]
      · simp [set_dep, DepTrait.compatible, DepTrait.unions]
      · simp [set_dep, DepTrait.compatible, DepTrait.unions]
      · rintro d (rfl | rfl | rfl | rfl | rfl) <;>
          simp [set_dep, DepTrait.compatible, DepTrait.unions]
    | dynamicShared a b c d1 d2 d3 =>
      refine ⟨?_, fun _ _ => Or.inr (Or.inl a), fun _ _ => Or.inr (Or.inl a),
        fun _ _ => Or.inr (Or.inl a), fun _ _ => ⟨d1, d2, d3⟩, ?_, ?_, fun _ _ => ⟨a, b⟩, ?_, ?_,
        hunit rfl⟩
      · rintro d (rfl | rfl | rfl) <;> simp [set_dep, DepTrait.compatible, DepTrait.unions]
      · simp [set_dep, DepTrait.compatible, DepTrait.unions]
      · simp [set_dep, DepTrait.compatible, DepTrait.unions]
      · simp [set_dep, DepTrait.compatible, DepTrait.unions]
      · rintro d (rfl | rfl | rfl | rfl | rfl) <;>
          simp [set_dep, DepTrait.compatible, DepTrait.unions]
    | same a b c1 c2 c3 d =>
      refine ⟨fun _ _ h => h, fun _ _ => Or.inr (Or.inl a), fun _ _ => Or.inr (Or.inl a),
        fun _ _ => Or.inr (Or.inl a), ?_, ?_, ?_, ?_, ?_, fun _ _ h => h, hunit rfl⟩ <;>
        · intro h1 h2
          rw [h1] at h2
          cases h2
    | sameShared a b c1 c2 c3 d1 d2 d3 =>
      refine ⟨?_, fun _ _ => Or.inr (Or.inl a), fun _ _ => Or.inr (Or.inl a),
        fun _ _ => Or.inr (Or.inl a), fun _ _ => ⟨d1, d2, d3⟩, ?_, ?_, ?_, ?_, ?_, hunit rfl⟩
      · rintro d (rfl | rfl | rfl) <;> simp [set_dep, DepTrait.compatible, DepTrait.unions]
      · simp [set_dep, DepTrait.compatible, DepTrait.unions]
      · intro h1 h2; simp [set_dep, h2] at h1
      · intro h1 h2; simp [set_dep, h2] at h1
      · simp [set_dep, DepTrait.compatible, DepTrait.unions]
      · rintro d (rfl | rfl | rfl | rfl | rfl) <;>
          simp [set_dep, DepTrait.compatible, DepTrait.unions]
    | first a b c d =>
      refine ⟨fun _ _ h => h, ?_, ?_, ?_, ?_, ?_, ?_, ?_, ?_, fun _ _ h => h, hunit rfl⟩ <;>
        · intro h1 h2
          rw [h1] at h2
          cases h2
    | firstDrop a b c d =>
      refine ⟨?_, ?_, ?_, ?_, ?_, ?_, ?_, ?_, ?_, ?_, hunit rfl⟩
      · intro x _ hx; simp [unset_dep] at hx; tauto
      all_goals first
        | (intro h1 h2; simp [unset_dep, h1] at h2; done)
        | (intro h1 h2; simp [unset_dep, h2] at h1; done)
        | (intro x _ hx; simp [unset_dep] at hx; tauto)
    | @reduction k a b c =>
      have hc : e.reduction ≠ none := by rw [c]; simp
      have hdd : ∀ x, ({ t.set .reduction with reduction := some k } : Traits).dep x =
        (t.set .reduction).dep x := fun _ => rfl
      refine ⟨?_, fun _ _ => Or.inr (Or.inr hc), fun _ _ => Or.inr (Or.inr hc),
        fun _ _ => Or.inr (Or.inr hc), ?_, ?_, ?_, ?_, fun _ _ => ⟨k, c, rfl, a⟩, ?_, hunit rfl⟩
      · rintro d (rfl | rfl | rfl) <;> simp [hdd, set_dep, DepTrait.compatible, DepTrait.unions]
      · simp [hdd, set_dep, DepTrait.compatible, DepTrait.unions]
      · simp [hdd, set_dep, DepTrait.compatible, DepTrait.unions]
      · simp [hdd, set_dep, DepTrait.compatible, DepTrait.unions]
      · simp [hdd, set_dep, DepTrait.compatible, DepTrait.unions]
      · rintro d (rfl | rfl | rfl | rfl | rfl) <;>
          simp [hdd, set_dep, DepTrait.compatible, DepTrait.unions]
    | deps a b c d h1 h2 h3 =>
      obtain ⟨k1, k2, k3, k4, k5⟩ := deps_dep h1 h2 h3
      refine ⟨fun x _ => k4 x, ?_, ?_, ?_, ?_, ?_, ?_, ?_, ?_, fun x _ => k4 x, hunit k5⟩
      · intro h1 h2; rw [k1, h1] at h2; left; simpa using h2
      · intro h1 h2; rw [k2, h1] at h2; left; simpa using h2
      · intro h1 h2; rw [k3, h1] at h2; left; simpa using h2
      all_goals
        intro h1 h2
        rw [k4 _ h1] at h2
        cases h2

/-! ### C128. Distances -/

/-- After import the distance of the outermost loop is the listed one, distances of inner loops are
the same, and the distance is known if and only if both its bounds are listed. -/
theorem newDep_dist (r : Range) (d : Dep) :
    (newDep r d).dist = r :: d.dist.drop 1 ∧
      ((newDep r d).unknownDistance = false ↔ r.1.isSome = true ∧ r.2.isSome = true) ∧
      (newDep r d).flags.may = false := by
  refine ⟨rfl, ?_, rfl⟩
  obtain ⟨a, b⟩ := r
  cases a <;> cases b <;> simp [newDep, mkDep]

/-- Import of a dependence: if a kind of a dependence is found by the analyzer and listed in external
results of a variable which is neither private nor reduction, the description has the listed
distances. -/
theorem import_distance_partial {e : Ext} {t t' : Traits} (h : update e t = some t')
    (hf : t.fixed = false) (hp : e.priv = false) (hfp : t.dep .firstPrivate = false)
    (hr : e.reduction = none) :
    (∀ r d, e.flow = some r → t.dep .flow = true → t.flow = some d →
      ∃ d', t'.flow = some d' ∧ d'.dist = r :: d.dist.drop 1 ∧
        (d'.unknownDistance = false ↔ r.1.isSome = true ∧ r.2.isSome = true)) ∧
    (∀ r d, e.anti = some r → t.dep .anti = true → t.anti = some d →
      ∃ d', t'.anti = some d' ∧ d'.dist = r :: d.dist.drop 1 ∧
        (d'.unknownDistance = false ↔ r.1.isSome = true ∧ r.2.isSome = true)) ∧
    (∀ d, e.output = true → t.dep .output = true → t.output = some d →
      ∃ d', t'.output = some d' ∧ d'.dist = d.dist) := by
  rcases update_step h with ⟨hc, _⟩ | ⟨_, t1, hs, ht⟩
  · rw [hf] at hc; cases hc
  have e1 : t'.flow = t1.flow := by rw [ht]; split <;> rfl
  have e2 : t'.anti = t1.anti := by rw [ht]; split <;> rfl
  have e3 : t'.output = t1.output := by rw [ht]; split <;> rfl
  rw [e1, e2, e3]
  clear h ht e1 e2 e3
  have hno : e.noDeps = true → e.flow = none ∧ e.anti = none ∧ e.output = false := by
    intro hn
    simp only [Ext.noDeps, Bool.and_eq_true, Bool.not_eq_true', Option.isNone_iff_eq_none] at hn
    tauto
  cases hs with
  | shared a _ =>
    obtain ⟨n1, n2, n3⟩ := hno a
    simp [n1, n2, n3]
  | readonly a _ =>
    obtain ⟨n1, n2, n3⟩ := hno a
    simp [n1, n2, n3]
  | priv a => rw [hp] at a; cases a
  | privShared a => rw [hp] at a; cases a
  | dynamic a => rw [hp] at a; cases a
  | dynamicShared a => rw [hp] at a; cases a
  | same a => rw [hp] at a; cases a
  | sameShared a => rw [hp] at a; cases a
  | first _ _ c => rw [hfp] at c; cases c
  | firstDrop _ _ c => rw [hfp] at c; cases c
  | reduction _ _ c => rw [hr] at c; cases c
  | @deps u1 u2 u3 _ _ _ _ h1 h2 h3 =>
    have keepF : ∀ {u : Traits} {k : DepTrait}, (k = .anti ∨ k = .output) → u.dep .flow = true →
        (u.set k).flow = u.flow := by
      rintro u k (rfl | rfl) hu <;>
        simp [Traits.set, Traits.clean, setDep, hu, DepTrait.compatible, DepTrait.unions]
    have keepA : ∀ {u : Traits} {k : DepTrait}, (k = .flow ∨ k = .output) → u.dep .anti = true →
        (u.set k).anti = u.anti := by
      rintro u k (rfl | rfl) hu <;>
        simp [Traits.set, Traits.clean, setDep, hu, DepTrait.compatible, DepTrait.unions]
    have keepO : ∀ {u : Traits} {k : DepTrait}, (k = .flow ∨ k = .anti) → u.dep .output = true →
        (u.set k).output = u.output := by
      rintro u k (rfl | rfl) hu <;>
        simp [Traits.set, Traits.clean, setDep, hu, DepTrait.compatible, DepTrait.unions]
    have k0 := updateAnti_dep h1
    have k1 := updateFlow_dep h2
    have k2 := updateOutput_dep h3
    have d1 : ∀ k, IsDep k → u1.dep k = t.dep k := by
      rcases k0 with rfl | ⟨hd, r, x, _, _, rfl⟩
      · exact fun _ _ => rfl
      · rintro k (rfl | rfl | rfl) <;> simp [set_dep, hd, DepTrait.compatible, DepTrait.unions]
    have d2 : ∀ k, IsDep k → u2.dep k = t.dep k := by
      intro k hk
      rw [← d1 k hk]
      rcases k1 with rfl | ⟨hd, r, x, _, _, rfl⟩
      · rfl
      · rcases hk with rfl | rfl | rfl <;> simp [set_dep, hd, DepTrait.compatible, DepTrait.unions]
    have d3 := (deps_keep h1 h2 h3).1
    have tail : ∀ u : Traits,
        let v := (let t := if e.flow.isNone then u.unset .flow else u
          let t := if e.anti.isNone then t.unset .anti else t
          if !e.output then t.unset .output else t)
        (e.flow.isSome = true → u.dep .flow = true → v.flow = u.flow) ∧
        (e.anti.isSome = true → u.dep .anti = true → v.anti = u.anti) ∧
        (e.output = true → u.dep .output = true → v.output = u.output) := by
      intro u
      cases e.flow <;> cases e.anti <;> cases e.output <;>
        simp [Traits.unset, Traits.clean] <;> simp_all
    obtain ⟨tf, ta, to'⟩ := tail u3
    refine ⟨?_, ?_, ?_⟩
    · intro r d her htd htf
      rw [tf (by simp [her]) (by rw [d3 _ (Or.inl rfl), htd])]
      have q1 : u1.flow = some d := by
        rcases k0 with rfl | ⟨_, _, _, _, _, rfl⟩
        · exact htf
        · exact (keepF (Or.inl rfl) htd).trans htf
      have q2 : u2.flow = some (newDep r d) := by
        unfold updateFlow at h2
        simp only [her, d1 _ (Or.inl rfl), htd, q1, Option.some.injEq] at h2
        rw [← h2]
      have q3 : u3.flow = some (newDep r d) := by
        rcases k2 with rfl | ⟨_, _, _, _, rfl⟩
        · exact q2
        · exact (keepF (Or.inr rfl) (by rw [d2 _ (Or.inl rfl), htd])).trans q2
      exact ⟨_, q3, (newDep_dist r d).1, (newDep_dist r d).2.1⟩
    · intro r d her htd htf
      rw [ta (by simp [her]) (by rw [d3 _ (Or.inr (Or.inl rfl)), htd])]
      have q1 : u1.anti = some (newDep r d) := by
        unfold updateAnti at h1
        simp only [her, htd, htf, Option.some.injEq] at h1
        rw [← h1]
      have q2 : u2.anti = some (newDep r d) := by
        rcases k1 with rfl | ⟨_, _, _, _, _, rfl⟩
        · exact q1
        · exact (keepA (Or.inl rfl) (by rw [d1 _ (Or.inr (Or.inl rfl)), htd])).trans q1
      have q3 : u3.anti = some (newDep r d) := by
        rcases k2 with rfl | ⟨_, _, _, _, rfl⟩
        · exact q2
        · exact (keepA (Or.inr rfl) (by rw [d2 _ (Or.inr (Or.inl rfl)), htd])).trans q2
      exact ⟨_, q3, (newDep_dist r d).1, (newDep_dist r d).2.1⟩
    · intro d her htd htf
      rw [to' her (by rw [d3 _ (Or.inr (Or.inr rfl)), htd])]
      have q1 : u1.output = some d := by
        rcases k0 with rfl | ⟨_, _, _, _, _, rfl⟩
        · exact htf
        · exact (keepO (Or.inr rfl) htd).trans htf
      have q2 : u2.output = some d := by
        rcases k1 with rfl | ⟨_, _, _, _, _, rfl⟩
        · exact q1
        · exact (keepO (Or.inl rfl) (by rw [d1 _ (Or.inr (Or.inr rfl)), htd])).trans q1
      have q3 : u3.output = some (mkDep {} d.dist) := by
        unfold updateOutput at h3
        simp only [her, d2 _ (Or.inr (Or.inr rfl)), htd, q2, Option.some.injEq] at h3
        rw [← h3]
      exact ⟨_, q3, rfl⟩

/-- Import fails only if a dependence is found without a description. -/
theorem import_total {e : Ext} {t : Traits} (h1 : t.dep .flow = true → t.flow ≠ none)
    (h2 : t.dep .anti = true → t.anti ≠ none) (h3 : t.dep .output = true → t.output ≠ none) :
    ∃ t', update e t = some t' := by
  have ha : ∃ t1, updateAnti e t = some t1 := by
    unfold updateAnti
    cases e.anti with
    | none => exact ⟨t, rfl⟩
    | some r =>
      cases hd : t.dep .anti with
      | false => exact ⟨t, rfl⟩
      | true =>
        cases hx : t.anti with
        | none => exact absurd hx (h2 hd)
        | some d => exact ⟨_, rfl⟩
  obtain ⟨t1, h4⟩ := ha
  have p1 : (t1.dep .flow = true → t1.flow ≠ none) ∧ (t1.dep .output = true → t1.output ≠ none) := by
    rcases updateAnti_dep h4 with rfl | ⟨_, _, _, _, _, rfl⟩
    · exact ⟨h1, h3⟩
    · simp only [Traits.set, Traits.clean, setDep, DepTrait.compatible, DepTrait.unions]
      constructor
      · intro hd
        simp at hd
        simp [hd, h1 hd]
      · intro hd
        simp at hd
        simp [hd, h3 hd]
  have hfl : ∃ t2, updateFlow e t1 = some t2 := by
    unfold updateFlow
    cases e.flow with
    | none => exact ⟨t1, rfl⟩
    | some r =>
      cases hd : t1.dep .flow with
      | false => exact ⟨t1, rfl⟩
      | true =>
        cases hx : t1.flow with
        | none => exact absurd hx (p1.1 hd)
        | some d => exact ⟨_, rfl⟩
  obtain ⟨t2, h5⟩ := hfl
  have p2 : t2.dep .output = true → t2.output ≠ none := by
    rcases updateFlow_dep h5 with rfl | ⟨_, _, _, _, _, rfl⟩
    · exact p1.2
    · simp only [Traits.set, Traits.clean, setDep, DepTrait.compatible, DepTrait.unions]
      intro hd
      simp at hd
      simp [hd, p1.2 hd]
  have ho : ∃ t3, updateOutput e t2 = some t3 := by
    unfold updateOutput
    cases e.output with
    | false => exact ⟨t2, rfl⟩
    | true =>
      cases hd : t2.dep .output with
      | false => exact ⟨t2, rfl⟩
      | true =>
        cases hx : t2.output with
        | none => exact absurd hx (p2 hd)
        | some d => exact ⟨_, rfl⟩
  obtain ⟨t3, h6⟩ := ho
  unfold update
  simp only [h4, h5, h6]
  cases t.fixed with
  | true => exact ⟨t, rfl⟩
  | false =>
    cases e.noDeps with
    | true => exact ⟨_, rfl⟩
    | false =>
      cases e.priv with
      | true => exact ⟨_, rfl⟩
      | false =>
        cases t.dep .firstPrivate with
        | true => exact ⟨_, rfl⟩
        | false => cases e.reduction <;> exact ⟨_, rfl⟩

/-! ### C129. Repeated import -/

/-- An invariant of `bcl::TraitSet`: descriptions exist for traits which are set only, and there are no
alternative traits. -/
structure Valid (t : Traits) : Prop where
  clean : t.clean = t
  compat : ∀ x y, t.dep x = true → t.dep y = true → DepTrait.compatible x y = true

theorem compatible_refl (x : DepTrait) : DepTrait.compatible x x = true := by
  cases x <;> decide

theorem compatible_symm {x y : DepTrait} (h : DepTrait.compatible x y = true) :
    DepTrait.compatible y x = true := by
  cases x <;> cases y <;> revert h <;> decide

theorem clean_clean (t : Traits) : t.clean.clean = t.clean := by
  simp only [Traits.clean]
  congr 1 <;> split <;> simp_all

theorem Valid.set {t : Traits} (h : Valid t) (d : DepTrait) : Valid (t.set d) := by
  refine ⟨clean_clean _, ?_⟩
  intro x y hx hy
  rw [set_dep] at hx hy
  by_cases h1 : x = d <;> by_cases h2 : y = d
  · subst h1 h2; exact compatible_refl _
  · subst h1
    simp [h2] at hy
    exact compatible_symm hy.2
  · subst h2
    simp [h1] at hx
    exact hx.2
  · simp [h1, h2] at hx hy
    exact h.compat x y hx.1 hy.1

theorem Valid.unset {t : Traits} (h : Valid t) (d : DepTrait) : Valid (t.unset d) := by
  refine ⟨clean_clean _, ?_⟩
  intro x y hx hy
  simp only [unset_dep, Bool.and_eq_true] at hx hy
  exact h.compat x y hx.1 hy.1

theorem Valid.unsetUnit {t : Traits} (h : Valid t) (u : UnitTrait) : Valid (t.unsetUnit u) := by
  refine ⟨?_, h.compat⟩
  have := h.clean
  simp only [Traits.clean, Traits.unsetUnit] at this ⊢
  cases t
  simp only [Traits.mk.injEq, true_and] at this ⊢
  exact this

/-- Setting of a trait which is set. -/
theorem Valid.set_self {t : Traits} (h : Valid t) {d : DepTrait} (hd : t.dep d = true) :
    t.set d = t := by
  have he : setDep t.dep d = t.dep := by
    funext x
    simp only [setDep]
    by_cases hx : x = d
    · simp [hx, hd]
    · cases hc : t.dep x with
      | false => simp [hx]
      | true => simp [h.compat x d hc hd]
  unfold Traits.set
  rw [he]
  exact h.clean

theorem Valid.unset_self {t : Traits} (h : Valid t) {d : DepTrait} (hd : t.dep d = false) :
    t.unset d = t := by
  have he : (fun x => t.dep x && decide (x ≠ d)) = t.dep := by
    funext x
    by_cases hx : x = d
    · simp [hx, hd]
    · simp [hx]
  unfold Traits.unset
  rw [he]
  exact h.clean

/-- The last step of the update. -/
def fin (e : Ext) (t : Traits) : Traits :=
  if e.useAfter = false then t.unsetUnit .useAfterLoop else t

/-- All results are possible (see `update_step`). -/
theorem step_update {e : Ext} {t t1 : Traits} (hf : t.fixed = false) (h : Step e t t1) :
    update e t = some (fin e t1) := by
  have hpn : e.priv = true → e.noDeps = false := by
    intro hp
    simp [Ext.noDeps, hp]
  have hrn : ∀ k, e.reduction = some k → e.noDeps = false := by
    intro k hk
    simp [Ext.noDeps, hk]
  have hdd : (e.flow ≠ none ∨ e.anti ≠ none ∨ e.output = true) →
      (e.flow.isNone && e.anti.isNone && !e.output) = false := by
    intro hd
    rw [← Bool.not_eq_true]
    intro hc
    simp only [Bool.and_eq_true, Option.isNone_iff_eq_none, Bool.not_eq_true'] at hc
    rcases hd with hd | hd | hd
    · exact hd hc.1.1
    · exact hd hc.1.2
    · rw [hc.2] at hd; cases hd
  have hor : (t.dep .flow = true ∨ t.dep .anti = true ∨ t.dep .output = true) →
      (t.dep .flow || t.dep .anti || t.dep .output) = true := by
    intro h
    simpa [or_assoc] using h
  unfold update fin
  simp only [hf, Bool.false_eq_true, if_false]
  cases h with
  | shared a b => simp only [a, b, if_true]; cases e.useAfter <;> rfl
  | readonly a b =>
    simp only [a, b, if_true, Bool.false_eq_true, if_false]; cases e.useAfter <;> rfl
  | priv a b c => simp [hpn a, a, b, hdd c]
  | privShared a b c1 c2 c3 => simp [hpn a, a, b, c1, c2, c3]
  | dynamic a b c d => simp [hpn a, a, b, hdd d, hor c]
  | dynamicShared a b c d1 d2 d3 => simp [hpn a, a, b, d1, d2, d3, hor c]
  | same a b c1 c2 c3 d => simp [hpn a, a, b, c1, c2, c3, hdd d]
  | sameShared a b c1 c2 c3 d1 d2 d3 => simp [hpn a, a, b, c1, c2, c3, d1, d2, d3]
  | first a b c d => simp [a, b, c, d]
  | firstDrop a b c d => simp [a, b, c, d]
  | reduction a b c => simp only [hrn _ c, a, b, c, Bool.false_eq_true, if_false]; cases e.useAfter <;> rfl
  | deps a b c d h1 h2 h3 =>
    simp only [a, b, c, d, h1, h2, h3, Bool.false_eq_true, if_false]
    cases e.useAfter <;> rfl

theorem updateAnti_unit (e : Ext) (t : Traits) (u : UnitTrait) :
    updateAnti e (t.unsetUnit u) = (updateAnti e t).map (·.unsetUnit u) := by
  unfold updateAnti
  simp only [unsetUnit_dep]
  have : (t.unsetUnit u).anti = t.anti := rfl
  rw [this]
  cases e.anti <;> cases t.dep .anti <;> cases t.anti <;> rfl

theorem updateFlow_unit (e : Ext) (t : Traits) (u : UnitTrait) :
    updateFlow e (t.unsetUnit u) = (updateFlow e t).map (·.unsetUnit u) := by
  unfold updateFlow
  simp only [unsetUnit_dep]
  have : (t.unsetUnit u).flow = t.flow := rfl
  rw [this]
  cases e.flow <;> cases t.dep .flow <;> cases t.flow <;> rfl

theorem updateOutput_unit (e : Ext) (t : Traits) (u : UnitTrait) :
    updateOutput e (t.unsetUnit u) = (updateOutput e t).map (·.unsetUnit u) := by
  unfold updateOutput
  simp only [unsetUnit_dep]
  have : (t.unsetUnit u).output = t.output := rfl
  rw [this]
  cases e.output <;> cases t.dep .output <;> cases t.output <;> rfl

theorem Step.unit {e : Ext} {t t1 : Traits} (h : Step e t t1) (u : UnitTrait) :
    Step e (t.unsetUnit u) (t1.unsetUnit u) := by
  cases h with
  | shared a b => exact Step.shared a b
  | readonly a b => exact Step.readonly a b
  | priv a b c => exact Step.priv a b c
  | privShared a b c1 c2 c3 => exact Step.privShared a b c1 c2 c3
  | dynamic a b c d => exact Step.dynamic a b c d
  | dynamicShared a b c d1 d2 d3 => exact Step.dynamicShared a b c d1 d2 d3
  | same a b c1 c2 c3 d => exact Step.same a b c1 c2 c3 d
  | sameShared a b c1 c2 c3 d1 d2 d3 => exact Step.sameShared a b c1 c2 c3 d1 d2 d3
  | first a b c d => exact Step.first a b c d
  | firstDrop a b c d => exact Step.firstDrop a b c d
  | reduction a b c => exact Step.reduction a b c
  | @deps t1 t2 t3 a b c d h1 h2 h3 =>
    have := Step.deps (e := e) (t := t.unsetUnit u) (t1 := t1.unsetUnit u) (t2 := t2.unsetUnit u)
      (t3 := t3.unsetUnit u) a b c d (by rw [updateAnti_unit, h1]; rfl)
      (by rw [updateFlow_unit, h2]; rfl) (by rw [updateOutput_unit, h3]; rfl)
    revert this
    cases e.flow <;> cases e.anti <;> cases e.output <;> exact id

/-- With an invariant the updates of dependences change descriptions only. -/
theorem Valid.deps {e : Ext} {t t1 t2 t3 : Traits} (h : Valid t) (h1 : updateAnti e t = some t1)
    (h2 : updateFlow e t1 = some t2) (h3 : updateOutput e t2 = some t3) :
    Valid t3 ∧ updateAnti e t3 = some t3 ∧ updateFlow e t3 = some t3 ∧
      updateOutput e t3 = some t3 := by
  have v1 : Valid t1 := by
    rcases updateAnti_dep h1 with rfl | ⟨hd, r, x, _, _, rfl⟩
    · exact h
    · rw [h.set_self hd]
      refine ⟨?_, h.compat⟩
      have := h.clean
      simp only [Traits.clean] at this ⊢
      cases t
      simp_all
  have v2 : Valid t2 := by
    rcases updateFlow_dep h2 with rfl | ⟨hd, r, x, _, _, rfl⟩
    · exact v1
    · rw [v1.set_self hd]
      refine ⟨?_, v1.compat⟩
      have := v1.clean
      simp only [Traits.clean] at this ⊢
      cases t1
      simp_all
  have v3 : Valid t3 := by
    rcases updateOutput_dep h3 with rfl | ⟨hd, x, _, _, rfl⟩
    · exact v2
    · rw [v2.set_self hd]
      refine ⟨?_, v2.compat⟩
      have := v2.clean
      simp only [Traits.clean] at this ⊢
      cases t2
      simp_all
  have nn : ∀ r d, newDep r (newDep r d) = newDep r d := fun _ _ => rfl
  have e3 : ∃ o, t3 = { t2 with output := o } := by
    rcases updateOutput_dep h3 with rfl | ⟨hd, x, _, _, rfl⟩
    · exact ⟨_, rfl⟩
    · rw [v2.set_self hd]
      exact ⟨_, rfl⟩
  have e2 : ∃ o, t2 = { t1 with flow := o } := by
    rcases updateFlow_dep h2 with rfl | ⟨hd, r, x, _, _, rfl⟩
    · exact ⟨_, rfl⟩
    · rw [v1.set_self hd]
      exact ⟨_, rfl⟩
  have e1 : ∃ o, t1 = { t with anti := o } := by
    rcases updateAnti_dep h1 with rfl | ⟨hd, r, x, _, _, rfl⟩
    · exact ⟨_, rfl⟩
    · rw [h.set_self hd]
      exact ⟨_, rfl⟩
  obtain ⟨o1, e1⟩ := e1
  obtain ⟨o2, e2⟩ := e2
  obtain ⟨o3, e3⟩ := e3
  refine ⟨v3, ?_, ?_, ?_⟩
  · unfold updateAnti
    cases he : e.anti with
    | none => rfl
    | some r =>
      cases hd : t3.dep .anti with
      | false => rfl
      | true =>
        have hd0 : t.dep .anti = true := by rw [← hd, e3, e2, e1]
        unfold updateAnti at h1
        cases ha : t.anti with
        | none => simp [he, hd0, ha] at h1
        | some d =>
          simp only [he, hd0, ha, Option.some.injEq] at h1
          have hx : t3.anti = some (newDep r d) := by rw [e3, e2, ← h1]
          simp only [hx, v3.set_self hd, nn]
          rw [← hx]
  · unfold updateFlow
    cases he : e.flow with
    | none => rfl
    | some r =>
      cases hd : t3.dep .flow with
      | false => rfl
      | true =>
        have hd0 : t1.dep .flow = true := by rw [← hd, e3, e2]
        unfold updateFlow at h2
        cases ha : t1.flow with
        | none => simp [he, hd0, ha] at h2
        | some d =>
          simp only [he, hd0, ha, Option.some.injEq] at h2
          have hx : t3.flow = some (newDep r d) := by rw [e3, ← h2]
          simp only [hx, v3.set_self hd, nn]
          rw [← hx]
  · unfold updateOutput
    cases he : e.output with
    | false => rfl
    | true =>
      cases hd : t3.dep .output with
      | false => rfl
      | true =>
        have hd0 : t2.dep .output = true := by rw [← hd, e3]
        unfold updateOutput at h3
        cases ha : t2.output with
        | none => simp [he, hd0, ha] at h3
        | some d =>
          simp only [he, hd0, ha, Option.some.injEq] at h3
          have hx : t3.output = some (mkDep {} d.dist) := by rw [← h3]
          simp only [hx, v3.set_self hd]
          rw [show (mkDep {} (mkDep {} d.dist).dist) = mkDep {} d.dist from rfl, ← hx]

theorem updateAnti_unset {e : Ext} {t : Traits} (v : Valid t) {k : DepTrait}
    (h : updateAnti e t = some t) : updateAnti e (t.unset k) = some (t.unset k) := by
  unfold updateAnti
  cases he : e.anti with
  | none => rfl
  | some r =>
    cases hd : (t.unset k).dep .anti with
    | false => rfl
    | true =>
      have hd0 : t.dep .anti = true := by rw [unset_dep] at hd; simp at hd; exact hd.1
      have hx : (t.unset k).anti = t.anti := by
        have : (t.unset k).anti = if (t.unset k).dep .anti then t.anti else none := rfl
        rw [this, hd]; rfl
      unfold updateAnti at h
      cases ha : t.anti with
      | none => simp [he, hd0, ha] at h
      | some d =>
        simp only [he, hd0, ha, Option.some.injEq, v.set_self hd0] at h
        have : some (newDep r d) = t.anti := congrArg Traits.anti h
        simp only [hx, ha, (v.unset k).set_self hd]
        rw [this, ← hx]

theorem updateFlow_unset {e : Ext} {t : Traits} (v : Valid t) {k : DepTrait}
    (h : updateFlow e t = some t) : updateFlow e (t.unset k) = some (t.unset k) := by
  unfold updateFlow
  cases he : e.flow with
  | none => rfl
  | some r =>
    cases hd : (t.unset k).dep .flow with
    | false => rfl
    | true =>
      have hd0 : t.dep .flow = true := by rw [unset_dep] at hd; simp at hd; exact hd.1
      have hx : (t.unset k).flow = t.flow := by
        have : (t.unset k).flow = if (t.unset k).dep .flow then t.flow else none := rfl
        rw [this, hd]; rfl
      unfold updateFlow at h
      cases ha : t.flow with
      | none => simp [he, hd0, ha] at h
      | some d =>
        simp only [he, hd0, ha, Option.some.injEq, v.set_self hd0] at h
        have : some (newDep r d) = t.flow := congrArg Traits.flow h
        simp only [hx, ha, (v.unset k).set_self hd]
        rw [this, ← hx]

theorem updateOutput_unset {e : Ext} {t : Traits} (v : Valid t) {k : DepTrait}
    (h : updateOutput e t = some t) : updateOutput e (t.unset k) = some (t.unset k) := by
  unfold updateOutput
  cases he : e.output with
  | false => rfl
  | true =>
    cases hd : (t.unset k).dep .output with
    | false => rfl
    | true =>
      have hd0 : t.dep .output = true := by rw [unset_dep] at hd; simp at hd; exact hd.1
      have hx : (t.unset k).output = t.output := by
        have : (t.unset k).output = if (t.unset k).dep .output then t.output else none := rfl
        rw [this, hd]; rfl
      unfold updateOutput at h
      cases ha : t.output with
      | none => simp [he, hd0, ha] at h
      | some d =>
        simp only [he, hd0, ha, Option.some.injEq, v.set_self hd0] at h
        have : some (mkDep {} d.dist) = t.output := congrArg Traits.output h
        simp only [hx, ha, (v.unset k).set_self hd]
        rw [this, ← hx]

theorem not_fixed {t : Traits} (h : t.fixed = false) : t.dep .noAccess = false ∧
    t.dep .readonly = false ∧ t.dep .reduction = false ∧ t.dep .induction = false := by
  simp only [Traits.fixed, Bool.or_eq_false_iff] at h
  tauto

/-- The invariant is preserved, and the second update does nothing. -/
theorem Step.again {e : Ext} {t t1 : Traits} (v : Valid t) (hf : t.fixed = false)
    (h : Step e t t1) : Valid t1 ∧ (t1.fixed = true ∨ (t1.fixed = false ∧ Step e t1 t1)) := by
  obtain ⟨f1, f2, f3, f4⟩ := not_fixed hf
  have nf : ∀ k, k = .shared ∨ k = .priv ∨ k = .dynamicPrivate → ∀ t : Traits,
      (t.set k).fixed = false := by
    rintro k (rfl | rfl | rfl) t <;>
      simp [Traits.fixed, set_dep, DepTrait.compatible, DepTrait.unions]
  have hs : ∀ (t : Traits) (k : DepTrait), (t.set k).dep k = true := by
    intro t k
    simp [set_dep]
  cases h with
  | shared a b =>
    refine ⟨v.set _, Or.inr ⟨nf _ (Or.inl rfl) _, ?_⟩⟩
    have := Step.shared (t := t.set .shared) a b
    rwa [(v.set _).set_self (hs _ _)] at this
  | readonly a b =>
    refine ⟨v.set _, Or.inl ?_⟩
    simp [Traits.fixed, set_dep]
  | priv a b c =>
    refine ⟨v.set _, Or.inr ⟨nf _ (by simp) _, ?_⟩⟩
    have := Step.priv (t := t.set .priv) a b c
    rwa [(v.set _).set_self (hs _ _)] at this
  | privShared a b c1 c2 c3 =>
    refine ⟨(v.set _).set _, Or.inr ⟨nf _ (by simp) _, ?_⟩⟩
    have := Step.privShared (t := (t.set .priv).set .shared) a b c1 c2 c3
    rwa [((v.set _).set _).set_self (by simp [set_dep, DepTrait.compatible, DepTrait.unions]),
      ((v.set _).set _).set_self (hs _ _)] at this
  | dynamic a b c d =>
    refine ⟨v.set _, Or.inr ⟨nf _ (by simp) _, ?_⟩⟩
    exact Step.same a b (by simp [set_dep, DepTrait.compatible, DepTrait.unions])
      (by simp [set_dep, DepTrait.compatible, DepTrait.unions])
      (by simp [set_dep, DepTrait.compatible, DepTrait.unions]) d
  | dynamicShared a b c d1 d2 d3 =>
    refine ⟨(v.set _).set _, Or.inr ⟨nf _ (by simp) _, ?_⟩⟩
    have := Step.sameShared (t := (t.set .dynamicPrivate).set .shared) a b
      (by simp [set_dep, DepTrait.compatible, DepTrait.unions])
      (by simp [set_dep, DepTrait.compatible, DepTrait.unions])
      (by simp [set_dep, DepTrait.compatible, DepTrait.unions]) d1 d2 d3
    rwa [((v.set _).set _).set_self (hs _ _)] at this
  | same a b c1 c2 c3 d => exact ⟨v, Or.inr ⟨hf, Step.same a b c1 c2 c3 d⟩⟩
  | sameShared a b c1 c2 c3 d1 d2 d3 =>
    refine ⟨v.set _, Or.inr ⟨nf _ (by simp) _, ?_⟩⟩
    have := Step.sameShared (t := t.set .shared) a b
      (by simp [set_dep, DepTrait.compatible, DepTrait.unions])
      (by simp [set_dep, DepTrait.compatible, DepTrait.unions])
      (by simp [set_dep, DepTrait.compatible, DepTrait.unions]) d1 d2 d3
    rwa [(v.set _).set_self (hs _ _)] at this
  | first a b c d => exact ⟨v, Or.inr ⟨hf, Step.first a b c d⟩⟩
  | firstDrop a b c d =>
    have w := ((v.unset .lastPrivate).unset .secondToLastPrivate).unset .dynamicPrivate
    refine ⟨w, Or.inr ⟨?_, ?_⟩⟩
    · simp [Traits.fixed, unset_dep, f1, f2, f3, f4]
    · have := Step.firstDrop
        (t := ((t.unset .lastPrivate).unset .secondToLastPrivate).unset .dynamicPrivate) a b
        (by simp [unset_dep, c]) d
      rwa [w.unset_self (by simp [unset_dep]), w.unset_self (by simp [unset_dep]),
        w.unset_self (by simp [unset_dep])] at this
  | @reduction k a b c =>
    refine ⟨⟨?_, (v.set .reduction).compat⟩, Or.inl ?_⟩
    · have := (v.set .reduction).clean
      have hr := hs t .reduction
      simp only [Traits.clean] at this ⊢
      cases hx : t.set .reduction
      simp_all
    · simp [Traits.fixed, set_dep]
  | @deps t1 t2 t3 a b c d h1 h2 h3 =>
    obtain ⟨v3, u1, u2, u3⟩ := v.deps h1 h2 h3
    obtain ⟨k1, k2, k3, k4, _⟩ := deps_dep h1 h2 h3
    have gen : ∀ (P : Traits → Prop), P t3 → (∀ t k, Valid t → P t → P (t.unset k)) →
        P (let t := if e.flow.isNone then t3.unset .flow else t3
          let t := if e.anti.isNone then t.unset .anti else t
          if !e.output then t.unset .output else t) ∧
        Valid (let t := if e.flow.isNone then t3.unset .flow else t3
          let t := if e.anti.isNone then t.unset .anti else t
          if !e.output then t.unset .output else t) := by
      intro P p0 p1
      have s1 : P (if e.flow.isNone then t3.unset .flow else t3) ∧
          Valid (if e.flow.isNone then t3.unset .flow else t3) := by
        split
        · exact ⟨p1 _ _ v3 p0, v3.unset _⟩
        · exact ⟨p0, v3⟩
      have s2 : ∀ t, P t ∧ Valid t → P (if e.anti.isNone then t.unset .anti else t) ∧
          Valid (if e.anti.isNone then t.unset .anti else t) := by
        intro t ht
        split
        · exact ⟨p1 _ _ ht.2 ht.1, ht.2.unset _⟩
        · exact ht
      have s3 : ∀ t, P t ∧ Valid t → P (if !e.output then t.unset .output else t) ∧
          Valid (if !e.output then t.unset .output else t) := by
        intro t ht
        split
        · exact ⟨p1 _ _ ht.2 ht.1, ht.2.unset _⟩
        · exact ht
      exact s3 _ (s2 _ s1)
    have g1 := gen (fun t => updateAnti e t = some t) u1 (fun t k v h => updateAnti_unset v h)
    have g2 := gen (fun t => updateFlow e t = some t) u2 (fun t k v h => updateFlow_unset v h)
    have g3 := gen (fun t => updateOutput e t = some t) u3 (fun t k v h => updateOutput_unset v h)
    have hfalse : ∀ k, t.dep k = false → (let t := if e.flow.isNone then t3.unset .flow else t3
          let t := if e.anti.isNone then t.unset .anti else t
          if !e.output then t.unset .output else t).dep k = false := by
      intro k hk
      rw [← Bool.not_eq_true]
      intro hc
      rw [k4 k hc] at hk
      cases hk
    refine ⟨g1.2, Or.inr ⟨?_, ?_⟩⟩
    · simp only [Traits.fixed, hfalse _ f1, hfalse _ f2, hfalse _ f3, hfalse _ f4, Bool.or_self]
    · have := Step.deps (e := e) a b (hfalse _ c) d g1.1 g2.1 g3.1
      have w := g1.2
      revert this w k1 k2 k3
      generalize (let t := if e.flow.isNone then t3.unset .flow else t3
          let t := if e.anti.isNone then t.unset .anti else t
          if !e.output then t.unset .output else t) = y
      intro k1 k2 k3 this w
      have r1 : (if e.flow.isNone then y.unset .flow else y) = y := by
        split
        · next hh =>
          apply w.unset_self
          rw [k1]
          cases hx : e.flow <;> simp_all
        · rfl
      have r2 : (if e.anti.isNone then y.unset .anti else y) = y := by
        split
        · next hh =>
          apply w.unset_self
          rw [k2]
          cases hx : e.anti <;> simp_all
        · rfl
      have r3 : (if !e.output then y.unset .output else y) = y := by
        split
        · next hh =>
          apply w.unset_self
          rw [k3]
          simp_all
        · rfl
      simpa only [r1, r2, r3] using this

/-- Import is performed for each function, so the same traits are updated many times. The first import
determines the result. -/
theorem update_idem {e : Ext} {t t' : Traits} (v : Valid t) (h : update e t = some t') :
    Valid t' ∧ update e t' = some t' := by
  rcases update_step h with ⟨_, rfl⟩ | ⟨hf, t1, hs, ht⟩
  · exact ⟨v, h⟩
  · obtain ⟨v1, h1⟩ := hs.again v hf
    have ht' : t' = fin e t1 := ht
    have vt : Valid t' := by
      rw [ht']
      unfold fin
      split
      · exact v1.unsetUnit _
      · exact v1
    refine ⟨vt, ?_⟩
    have hfix : t'.fixed = t1.fixed := by
      rw [ht']
      unfold fin
      split <;> rfl
    rcases h1 with h1 | ⟨h1, h2⟩
    · unfold update
      rw [hfix, h1]
      rfl
    · have h3 : Step e t' t' := by
        rw [ht']
        unfold fin
        split
        · exact h2.unit _
        · exact h2
      rw [step_update (by rw [hfix]; exact h1) h3]
      congr 1
      rw [ht']
      unfold fin
      split
      · simp [Traits.unsetUnit]
      · rfl

end Tsar.Extern
