import Verif.Extern.Import

/-!
# Import of a file
-/
namespace Tsar.Extern

open BitTrait (UnitTrait DepTrait setDep)

/-! ### Specification -/

/-- The loop of a file which describes a loop with a given identifier: the first loop at the position
of the first location in the identifier. -/
def TheLoop (uid : String → Option Nat) (info : Info) (ops : List (Option SrcLoc)) (l : LoopJ) :
    Prop :=
  ∃ p, (ops.drop 1).findSome? id = some p ∧ (uid p.1).isSome = true ∧
    ∃ l1 l2, info.loops = l1 ++ l :: l2 ∧ LoopAt uid p l ∧ ∀ x ∈ l1, ¬ LoopAt uid p x

/-- A function is in the file at the position of a subprogram. -/
def FuncAt (uid : String → Option Nat) (s : SubProg) (name : String) (g : FuncJ) : Prop :=
  uid g.file = uid s.file ∧ g.line = s.line ∧ g.name = name

instance (uid : String → Option Nat) (s : SubProg) (name : String) (g : FuncJ) :
    Decidable (FuncAt uid s name g) := by
  unfold FuncAt
  infer_instance

/-- A subprogram is described as a pure function: the first function with its name is pure, or there
is no function with its name and the first function with its linkage name is pure. -/
def ListedPure (uid : String → Option Nat) (info : Info) (s : SubProg) : Prop :=
  (uid s.file).isSome = true ∧ ∃ f, f.pure = true ∧
    ((∃ l1 l2, info.functions = l1 ++ f :: l2 ∧ FuncAt uid s s.name f ∧
        ∀ x ∈ l1, ¬ FuncAt uid s s.name x) ∨
     ((∀ x ∈ info.functions, ¬ FuncAt uid s s.name x) ∧
      ∃ l1 l2, info.functions = l1 ++ f :: l2 ∧ FuncAt uid s s.linkage f ∧
        ∀ x ∈ l1, ¬ FuncAt uid s s.linkage x))

/-- External results of a variable in a loop. -/
def Describes (uid : String → Option Nat) (info : Info) (l : LoopJ) (v : VarLoc) (e : Ext) : Prop :=
  (e.priv = true ↔ ∃ i ∈ l.priv, Denotes uid info i v) ∧
  (e.useAfter = true ↔ ∃ i ∈ l.useAfter, Denotes uid info i v) ∧
  (e.write = true ↔ ∃ i ∈ l.write, Denotes uid info i v) ∧
  (e.read = true ↔ ∃ i ∈ l.read, Denotes uid info i v) ∧
  (e.output = true ↔ ∃ i ∈ l.output, Denotes uid info i v) ∧
  (e.reduction = none ↔ ∀ p ∈ l.reduction, ¬ Denotes uid info p.1 v) ∧
  (∀ k, e.reduction = some k → ∃ i, (i, k) ∈ l.reduction ∧ Denotes uid info i v) ∧
  (e.anti = none ↔ ∀ p ∈ l.anti, ¬ Denotes uid info p.1 v) ∧
  (∀ r, e.anti = some r → ∃ i, (i, r) ∈ l.anti ∧ Denotes uid info i v) ∧
  (e.flow = none ↔ ∀ p ∈ l.flow, ¬ Denotes uid info p.1 v) ∧
  (∀ r, e.flow = some r → ∃ i, (i, r) ∈ l.flow ∧ Denotes uid info i v)

/-- A call has no traits of accesses, and there is no access except redundant ones. Other traits of a
unit are the same. -/
def AsPure (t t' : Traits) : Prop :=
  (∀ d, t'.dep d = true ↔ d = .noAccess) ∧ t'.unit .redundant = true ∧
    t'.unit .directAccess = false ∧ t'.unit .explicitAccess = false ∧
    t'.unit .addressAccess = false ∧
    ∀ u, u ≠ .redundant → u ≠ .directAccess → u ≠ .explicitAccess → u ≠ .addressAccess →
      t'.unit u = t.unit u

/-- How a file changes traits of a location in a loop. -/
inductive Imported (uid : String → Option Nat) (info : Info) (ops : List (Option SrcLoc)) :
    Memory → Traits → Traits → Prop
  | noLoop {m : Memory} {t : Traits} : (¬ ∃ l, TheLoop uid info ops l) → Imported uid info ops m t t
  | pure {l : LoopJ} {s : SubProg} {t t' : Traits} : TheLoop uid info ops l →
      ListedPure uid info s → AsPure t t' → Imported uid info ops (.exec (some s)) t t'
  | notPure {l : LoopJ} {s : SubProg} {t : Traits} : TheLoop uid info ops l →
      ¬ ListedPure uid info s → Imported uid info ops (.exec (some s)) t t
  | other {m : Memory} {t : Traits} : m = .exec none ∨ m = .unknown ∨ m = .estimate none →
      Imported uid info ops m t t
  | notListed {l : LoopJ} {v : VarLoc} {t : Traits} : TheLoop uid info ops l →
      (∀ i ∈ l.indices, ¬ Denotes uid info i v) → Imported uid info ops (.estimate (some v)) t t
  | listed {l : LoopJ} {v : VarLoc} {e : Ext} {t t' : Traits} : TheLoop uid info ops l →
      (∃ i ∈ l.indices, Denotes uid info i v) → Describes uid info l v e →
      update e t = some t' → Imported uid info ops (.estimate (some v)) t t'

section
variable {uid : String → Option Nat} {info : Info}

theorem find_split {α : Type} (p : α → Prop) [DecidablePred p] (l : List α) (a : α) :
    l.find? (fun x => decide (p x)) = some a ↔
      ∃ l1 l2, l = l1 ++ a :: l2 ∧ p a ∧ ∀ x ∈ l1, ¬ p x := by
  rw [List.find?_eq_some_iff_append]
  constructor
  · rintro ⟨h1, l1, l2, rfl, h2⟩
    exact ⟨l1, l2, rfl, by simpa using h1, fun x hx => by simpa using h2 x hx⟩
  · rintro ⟨l1, l2, rfl, h1, h2⟩
    exact ⟨by simpa using h1, l1, l2, rfl, fun x hx => by simpa using h2 x hx⟩

theorem findFunction_pure (s : SubProg) :
    (∃ f, findFunction uid info s = some f ∧ f.pure = true) ↔ ListedPure uid info s := by
  have e : findFunction uid info s =
      if (uid s.file).isSome then
        (info.functions.find? (fun g => decide (FuncAt uid s s.name g))).or
        (info.functions.find? (fun g => decide (FuncAt uid s s.linkage g)))
      else none := function_exact
  unfold ListedPure
  rw [e]
  cases hu : (uid s.file).isSome with
  | false => simp
  | true =>
    simp only [if_true, true_and]
    cases h1 : info.functions.find? (fun g => decide (FuncAt uid s s.name g)) with
    | some g =>
      have h2 := (find_split _ _ _).1 h1
      simp only [Option.some_or, Option.some.injEq]
      constructor
      · rintro ⟨f, rfl, hp⟩
        exact ⟨_, hp, Or.inl h2⟩
      · rintro ⟨f, hp, h3 | ⟨h3, _⟩⟩
        · have := (find_split (FuncAt uid s s.name) _ _).2 h3
          rw [h1] at this
          injection this with this
          exact ⟨f, this, hp⟩
        · exfalso
          obtain ⟨l1, l2, hl, hg, _⟩ := h2
          exact h3 g (by rw [hl]; simp) hg
    | none =>
      have hno : ∀ x ∈ info.functions, ¬ FuncAt uid s s.name x := by
        intro x hx
        have := List.find?_eq_none.1 h1 x hx
        simpa using this
      simp only [Option.none_or]
      constructor
      · rintro ⟨f, h2, hp⟩
        exact ⟨f, hp, Or.inr ⟨hno, (find_split _ _ _).1 h2⟩⟩
      · rintro ⟨f, hp, ⟨l1, l2, hl, hg, _⟩ | ⟨_, h3⟩⟩
        · exact absurd hg (hno f (by rw [hl]; simp))
        · exact ⟨f, (find_split _ _ _).2 h3, hp⟩

theorem makePure_asPure (t : Traits) : AsPure t (makePure t) := by
  refine ⟨?_, by simp [makePure, Traits.set, Traits.clean, Traits.setUnit], ?_, ?_, ?_, ?_⟩
  · intro d
    cases d <;> simp [makePure, set_dep, DepTrait.compatible, DepTrait.unions]
  · simp [makePure, Traits.set, Traits.clean, Traits.setUnit, Traits.unsetUnit]
  · simp [makePure, Traits.set, Traits.clean, Traits.setUnit, Traits.unsetUnit]
  · simp [makePure, Traits.set, Traits.clean, Traits.setUnit, Traits.unsetUnit]
  · intro u h1 h2 h3 h4
    simp [makePure, Traits.set, Traits.clean, Traits.setUnit, Traits.unsetUnit, h1, h2, h3, h4]

/-- Correspondence of two lists. -/
theorem updateAll_forall {c : Cache} {p q : List (Memory × Traits)}
    (h : updateAll uid info c p = some q) :
    List.Forall₂ (fun x y => y.1 = x.1 ∧ updateMemory uid info c x.1 x.2 = some y.2) p q := by
  induction p generalizing q with
  | nil =>
    simp only [updateAll, Option.some.injEq] at h
    subst h
    exact .nil
  | cons a p ih =>
    obtain ⟨m, t⟩ := a
    simp only [updateAll] at h
    cases h1 : updateMemory uid info c m t with
    | none => simp [h1] at h
    | some t1 =>
      cases h2 : updateAll uid info c p with
      | none => simp [h1, h2] at h
      | some q1 =>
        simp only [h1, h2, Option.some.injEq] at h
        subst h
        exact .cons ⟨rfl, h1⟩ (ih h2)

theorem updateMemory_imported {c : Cache} {ops : List (Option SrcLoc)} {l : LoopJ}
    (hl : TheLoop uid info ops l) (hc : buildTraitCache uid info l = some c) {m : Memory}
    {t t' : Traits} (h : updateMemory uid info c m t = some t') :
    Imported uid info ops m t t' := by
  unfold updateMemory at h
  cases m with
  | unknown => injection h with h; subst h; exact .other (by simp)
  | exec s =>
    cases s with
    | none => injection h with h; subst h; exact .other (by simp)
    | some s =>
      simp only at h
      by_cases hp : ListedPure uid info s
      · obtain ⟨f, hf, hpf⟩ := (findFunction_pure s).2 hp
        simp only [hf, hpf, if_true, Option.some.injEq] at h
        subst h
        exact .pure hl hp (makePure_asPure t)
      · have h2 : some t = some t' := by
          rw [← h]
          cases hf : findFunction uid info s with
          | none => rfl
          | some f =>
            cases hpf : f.pure with
            | true => exact absurd ((findFunction_pure s).1 ⟨f, hf, hpf⟩) hp
            | false => simp [hpf]
        injection h2 with h2
        subst h2
        exact .notPure hl hp
  | estimate v =>
    cases v with
    | none => injection h with h; subst h; exact .other (by simp)
    | some v =>
      simp only at h
      obtain ⟨h1, h2⟩ := traits_exact hc v
      cases he : c v with
      | none =>
        simp only [he, Option.some.injEq] at h
        subst h
        exact .notListed hl (h1.1 he)
      | some e =>
        simp only [he] at h
        refine .listed hl ?_ (h2 e he) h
        by_contra hn
        rw [h1.2 (fun i hi hd => hn ⟨i, hi, hd⟩)] at he
        cases he

theorem load_forall {ps qs : List PoolLoop} (h : load uid info ps = some qs) :
    List.Forall₂ (fun p q => loadLoop uid info p = some q) ps qs := by
  induction ps generalizing qs with
  | nil =>
    simp only [load, Option.some.injEq] at h
    subst h
    exact .nil
  | cons p ps ih =>
    simp only [load] at h
    cases h1 : loadLoop uid info p with
    | none => simp [h1] at h
    | some p1 =>
      cases h2 : load uid info ps with
      | none => simp [h1, h2] at h
      | some q1 =>
        simp only [h1, h2, Option.some.injEq] at h
        subst h
        exact .cons h1 (ih h2)

/-- **C126.** Import of a file: traits of each location of each loop are changed according to the loop
and to the function of the file which are at the same position, and the variable which is declared at
the same position with the same name. Other locations are not changed. -/
theorem load_exact {ps qs : List PoolLoop} (h : load uid info ps = some qs) :
    List.Forall₂ (fun p q => q.ops = p.ops ∧
      List.Forall₂ (fun x y => y.1 = x.1 ∧ Imported uid info p.ops x.1 x.2 y.2) p.pool q.pool)
      ps qs := by
  refine (load_forall h).imp ?_
  intro p q hpq
  unfold loadLoop at hpq
  cases hl : findLoop uid info p.ops with
  | none =>
    simp only [hl, Option.some.injEq] at hpq
    subst hpq
    refine ⟨rfl, ?_⟩
    have hno : ¬ ∃ l, TheLoop uid info p.ops l := by
      rintro ⟨l, h⟩
      rw [loop_exact.2 h] at hl
      cases hl
    induction p.pool with
    | nil => exact .nil
    | cons a r ih => exact .cons ⟨rfl, .noLoop hno⟩ ih
  | some l =>
    simp only [hl] at hpq
    cases hc : buildTraitCache uid info l with
    | none => simp [hc] at hpq
    | some c =>
      cases hq : updateAll uid info c p.pool with
      | none => simp [hc, hq] at hpq
      | some r =>
        simp only [hc, hq, Option.some.injEq] at hpq
        subst hpq
        refine ⟨rfl, (updateAll_forall hq).imp ?_⟩
        rintro x y ⟨h1, h2⟩
        exact ⟨h1, updateMemory_imported (loop_exact.1 hl) hc h2⟩

/-- All locations satisfy the invariant of traits. -/
def PoolLoop.Valid (p : PoolLoop) : Prop := ∀ x ∈ p.pool, Extern.Valid x.2

theorem makePure_idem (t : Traits) (v : Valid t) :
    Valid (makePure t) ∧ makePure (makePure t) = makePure t := by
  have hu : ∀ {t : Traits} (u : UnitTrait), Valid t → Valid (t.setUnit u) := by
    intro t u h
    refine ⟨?_, h.compat⟩
    have := h.clean
    simp only [Traits.clean, Traits.setUnit] at this ⊢
    cases t
    simp only [Traits.mk.injEq, true_and] at this ⊢
    exact this
  have v1 : Valid (makePure t) :=
    (hu _ (((v.unsetUnit _).unsetUnit _).unsetUnit _)).set _
  refine ⟨v1, ?_⟩
  have hd : (makePure t).dep .noAccess = true := by simp [makePure, set_dep]
  have he : (((((makePure t).unsetUnit .directAccess).unsetUnit .explicitAccess).unsetUnit
      .addressAccess).setUnit .redundant) = makePure t := by
    have hx : (((((makePure t).unsetUnit .directAccess).unsetUnit .explicitAccess).unsetUnit
      .addressAccess).setUnit .redundant).unit = (makePure t).unit := by
      funext u
      cases u <;> simp [makePure, Traits.set, Traits.clean, Traits.setUnit, Traits.unsetUnit]
    unfold Traits.setUnit Traits.unsetUnit at *
    simp only at hx ⊢
    rw [hx]
  show Traits.set _ _ = _
  rw [he]
  exact v1.set_self hd

theorem updateMemory_idem {c : Cache} {m : Memory} {t t' : Traits} (v : Valid t)
    (h : updateMemory uid info c m t = some t') :
    Valid t' ∧ updateMemory uid info c m t' = some t' := by
  unfold updateMemory at h ⊢
  cases m with
  | unknown => injection h with h; subst h; exact ⟨v, rfl⟩
  | exec s =>
    cases s with
    | none => injection h with h; subst h; exact ⟨v, rfl⟩
    | some s =>
      cases hf : findFunction uid info s with
      | none => simp only [hf, Option.some.injEq] at h ⊢; subst h; exact ⟨v, trivial⟩
      | some f =>
        cases hp : f.pure with
        | true =>
          simp only [hf, hp, if_true, Option.some.injEq] at h ⊢
          subst h
          exact makePure_idem t v
        | false =>
          simp only [hf, hp, Bool.false_eq_true, if_false, Option.some.injEq] at h ⊢
          subst h
          exact ⟨v, trivial⟩
  | estimate x =>
    cases x with
    | none => injection h with h; subst h; exact ⟨v, rfl⟩
    | some x =>
      cases he : c x with
      | none => simp only [he, Option.some.injEq] at h ⊢; subst h; exact ⟨v, trivial⟩
      | some e =>
        simp only [he] at h ⊢
        exact update_idem v h

theorem updateAll_idem {c : Cache} {p q : List (Memory × Traits)} (v : ∀ x ∈ p, Valid x.2)
    (h : updateAll uid info c p = some q) :
    (∀ x ∈ q, Valid x.2) ∧ updateAll uid info c q = some q := by
  have h1 := updateAll_forall h
  clear h
  induction h1 with
  | nil => exact ⟨by simp, rfl⟩
  | @cons a b p q hab _ ih =>
    obtain ⟨h2, h3⟩ := ih (fun x hx => v x (by simp [hx]))
    obtain ⟨h4, h5⟩ := updateMemory_idem (v a (by simp)) hab.2
    refine ⟨?_, ?_⟩
    · intro x hx
      rcases List.mem_cons.1 hx with rfl | hx
      · exact h4
      · exact h2 x hx
    · obtain ⟨m, t⟩ := b
      obtain ⟨m0, t0⟩ := a
      simp only at hab
      obtain ⟨rfl, _⟩ := hab
      simp only at h5
      simp only [updateAll, h5, h3]

/-- **C129.** The file is imported each time a function is processed, and all loops are updated each
time. Repeated import of the same file changes nothing. -/
theorem load_idem {ps qs : List PoolLoop} (v : ∀ p ∈ ps, p.Valid) (h : load uid info ps = some qs) :
    (∀ q ∈ qs, q.Valid) ∧ load uid info qs = some qs := by
  have h1 := load_forall h
  clear h
  induction h1 with
  | nil => exact ⟨by simp, rfl⟩
  | @cons p q ps qs hpq _ ih =>
    obtain ⟨h2, h3⟩ := ih (fun x hx => v x (by simp [hx]))
    have h4 : q.Valid ∧ loadLoop uid info q = some q := by
      have vp := v p (by simp)
      unfold loadLoop at hpq ⊢
      cases hl : findLoop uid info p.ops with
      | none =>
        simp only [hl, Option.some.injEq] at hpq
        subst hpq
        exact ⟨vp, by rw [hl]⟩
      | some l =>
        simp only [hl] at hpq
        cases hc : buildTraitCache uid info l with
        | none => simp [hc] at hpq
        | some c =>
          cases hq : updateAll uid info c p.pool with
          | none => simp [hc, hq] at hpq
          | some r =>
            simp only [hc, hq, Option.some.injEq] at hpq
            subst hpq
            obtain ⟨h5, h6⟩ := updateAll_idem vp hq
            exact ⟨h5, by simp only [hl, hc, h6]⟩
    refine ⟨?_, ?_⟩
    · intro x hx
      rcases List.mem_cons.1 hx with rfl | hx
      · exact h4.1
      · exact h2 x hx
    · simp only [load, h4.2, h3]

/-- Import succeeds if all indices of the file are in range and all dependences have descriptions. -/
theorem load_total {ps : List PoolLoop}
    (hi : ∀ l ∈ info.loops, ∀ i ∈ l.indices, i < info.vars.length)
    (hd : ∀ p ∈ ps, ∀ x ∈ p.pool, (x.2.dep .flow = true → x.2.flow ≠ none) ∧
      (x.2.dep .anti = true → x.2.anti ≠ none) ∧ (x.2.dep .output = true → x.2.output ≠ none)) :
    ∃ qs, load uid info ps = some qs := by
  induction ps with
  | nil => exact ⟨[], rfl⟩
  | cons p ps ih =>
    obtain ⟨qs, hqs⟩ := ih (fun p hp => hd p (by simp [hp]))
    have h1 : ∃ q, loadLoop uid info p = some q := by
      unfold loadLoop
      cases hl : findLoop uid info p.ops with
      | none => exact ⟨p, rfl⟩
      | some l =>
        have hlm : l ∈ info.loops := by
          obtain ⟨_, _, _, l1, l2, h, _⟩ := loop_exact.1 hl
          rw [h]
          simp
        have hc : ∃ c, buildTraitCache uid info l = some c := by
          cases hc : buildTraitCache uid info l with
          | some c => exact ⟨c, rfl⟩
          | none =>
            obtain ⟨i, h1, h2⟩ := buildTraitCache_none.1 hc
            have := hi l hlm i h1
            omega
        obtain ⟨c, hc⟩ := hc
        have hdp := hd p (by simp)
        have hu : ∀ pool : List (Memory × Traits), (∀ x ∈ pool, (x.2.dep .flow = true → x.2.flow ≠ none) ∧
            (x.2.dep .anti = true → x.2.anti ≠ none) ∧
            (x.2.dep .output = true → x.2.output ≠ none)) →
            ∃ q, updateAll uid info c pool = some q := by
          intro pool hp
          induction pool with
          | nil => exact ⟨[], rfl⟩
          | cons a r ih2 =>
            obtain ⟨q, hq⟩ := ih2 (fun x hx => hp x (by simp [hx]))
            obtain ⟨m, t⟩ := a
            obtain ⟨a1, a2, a3⟩ := hp (m, t) (by simp)
            have : ∃ t', updateMemory uid info c m t = some t' := by
              unfold updateMemory
              cases m with
              | unknown => exact ⟨_, rfl⟩
              | exec s =>
                cases s with
                | none => exact ⟨_, rfl⟩
                | some s => cases hf : findFunction uid info s with
                  | none => exact ⟨t, by simp only [hf]⟩
                  | some f => exact ⟨_, by simp only [hf]; rfl⟩
              | estimate v =>
                cases v with
                | none => exact ⟨_, rfl⟩
                | some v =>
                  cases hv : c v with
                  | none => exact ⟨t, by simp only [hv]⟩
                  | some e =>
                    simp only [hv]
                    exact import_total a1 a2 a3
            obtain ⟨t', ht⟩ := this
            exact ⟨(m, t') :: q, by simp only [updateAll, ht, hq]⟩
        obtain ⟨q, hq⟩ := hu p.pool hdp
        exact ⟨{ p with pool := q }, by simp only [hc, hq]⟩
    obtain ⟨q, hq⟩ := h1
    exact ⟨q :: qs, by simp only [load, hq, hqs]⟩

end

end Tsar.Extern
