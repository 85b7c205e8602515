import Verif.NotInit.Model
import Mathlib.Tactic.Common

/-!
# Properties C144, C145: memory which is used before its initialization
-/

namespace Tsar.NotInit

/-- A memory is the same as or a part of another one. -/
inductive Within (f : Fun) : EM → EM → Prop
  | refl (e : EM) : Within f e e
  | step {e p a : EM} : f.parent e = some p → Within f p a → Within f e a

/-- A memory is a part of a larger one. -/
def Part (f : Fun) (e a : EM) : Prop := ∃ p, f.parent e = some p ∧ Within f p a

/-- Parents have smaller numbers, see Model. -/
def Tree (f : Fun) : Prop := ∀ e p, f.parent e = some p → p < e

/-- An object which contains a memory. -/
def Root (f : Fun) (e t : EM) : Prop := Within f e t ∧ f.parent t = none

/-- An object has a value which must be initialized by a program. -/
def Variable : Obj → Prop
  | .globalVar c => c = false
  | .argument | .other => True
  | _ => False

/-- `a` is the smallest memory with metadata which contains `e`. -/
def Innermost (f : Fun) (e a : EM) (r : Nat) : Prop :=
  Within f e a ∧ f.raw a = some r ∧ ∀ b, Within f e b → Part f b a → f.raw b = none

/-- Specification: the smallest described memory `a` which contains a memory from `uses` is described by `d`. -/
def Uninit (f : Fun) (uses : List EM) (a : EM) (d : DIM) : Prop :=
  ∃ e ∈ uses, (∃ t, Root f e t ∧ Variable (f.obj t)) ∧ ∃ r, Innermost f e a r ∧ f.find r = some d

/-- Any order of traversal of a map. -/
def Order (o : List (EM × DIM) → List (EM × DIM)) : Prop := ∀ l p, p ∈ o l ↔ p ∈ l

/-- Different memories are described by different metadata. -/
def Distinct (f : Fun) : Prop :=
  ∀ a b r r' d, f.raw a = some r → f.raw b = some r' → f.find r = some d → f.find r' = some d → a = b

/-! ### Chains of memory -/

theorem Within.trans {f : Fun} {a b c : EM} (h : Within f a b) (h' : Within f b c) : Within f a c := by
  induction h with
  | refl => exact h'
  | step hp _ ih => exact .step hp (ih h')

theorem Within.le {f : Fun} (ht : Tree f) {a b : EM} (h : Within f a b) : b ≤ a := by
  induction h with
  | refl => exact Nat.le_refl _
  | step hp _ ih => exact Nat.le_of_lt (Nat.lt_of_le_of_lt ih (ht _ _ hp))

theorem Part.lt {f : Fun} (ht : Tree f) {a b : EM} (h : Part f a b) : b < a := by
  obtain ⟨p, hp, hw⟩ := h
  exact Nat.lt_of_le_of_lt (hw.le ht) (ht _ _ hp)

theorem within_iff {f : Fun} {e a : EM} : Within f e a ↔ a = e ∨ Part f e a := by
  constructor
  · intro h
    cases h with
    | refl => exact .inl rfl
    | step hp hw => exact .inr ⟨_, hp, hw⟩
  · rintro (rfl | ⟨p, hp, hw⟩)
    · exact .refl _
    · exact .step hp hw

theorem mem_chain {f : Fun} (ht : Tree f) {x : EM} : ∀ {n : Nat} {e : EM}, e ≤ n →
    (x ∈ chain f n e ↔ Within f e x)
  | 0, e, h => by
    have h0 : e = 0 := Nat.le_zero.mp h
    subst h0
    rw [chain, List.mem_singleton, within_iff]
    exact ⟨.inl, fun h' => h'.elim id fun ⟨p, hp, _⟩ => absurd (ht _ _ hp) (Nat.not_lt_zero _)⟩
  | n + 1, e, h => by
    rw [chain, within_iff, List.mem_cons]
    rcases hp : f.parent e with _ | p
    · constructor
      · rintro (h' | h')
        · exact .inl h'
        · simp at h'
      · rintro (h' | ⟨p, hp', _⟩)
        · exact .inl h'
        · rw [hp] at hp'; cases hp'
    · have := mem_chain (x := x) ht (n := n) (e := p) (Nat.le_of_lt_succ (Nat.lt_of_lt_of_le (ht _ _ hp) h))
      constructor
      · rintro (h' | h')
        · exact .inl h'
        · exact .inr ⟨p, hp, this.mp h'⟩
      · rintro (h' | ⟨q, hq, hw⟩)
        · exact .inl h'
        · rw [hp] at hq; cases hq
          exact .inr (this.mpr hw)

theorem mem_tail {f : Fun} (ht : Tree f) {e x : EM} : x ∈ (chain f e e).tail ↔ Part f e x := by
  cases e with
  | zero =>
    rw [chain, List.tail_cons]
    exact ⟨fun h => by simp at h, fun ⟨p, hp, _⟩ => absurd (ht _ _ hp) (Nat.not_lt_zero _)⟩
  | succ n =>
    rw [chain, List.tail_cons]
    rcases hp : f.parent (n + 1) with _ | p
    · exact ⟨fun h => by simp at h, fun ⟨p, hp', _⟩ => by rw [hp] at hp'; cases hp'⟩
    · have := mem_chain (x := x) ht (n := n) (e := p) (Nat.le_of_lt_succ (ht _ _ hp))
      constructor
      · exact fun h => ⟨p, hp, this.mp h⟩
      · rintro ⟨q, hq, hw⟩
        rw [hp] at hq; cases hq
        exact this.mpr hw

theorem chain_last {f : Fun} (ht : Tree f) (d : EM) : ∀ {n : Nat} {e : EM}, e ≤ n →
    Root f e ((chain f n e).getLastD d)
  | 0, e, h => by
    have h0 : e = 0 := Nat.le_zero.mp h
    subst h0
    refine ⟨.refl _, ?_⟩
    rcases hp : f.parent 0 with _ | p
    · exact hp
    · exact absurd (ht _ _ hp) (Nat.not_lt_zero _)
  | n + 1, e, h => by
    rw [chain]
    rcases hp : f.parent e with _ | p
    · exact ⟨.refl _, hp⟩
    · have hn := Nat.le_of_lt_succ (Nat.lt_of_lt_of_le (ht _ _ hp) h)
      have := chain_last ht e (n := n) (e := p) hn
      simp only [List.getLastD_cons]
      exact ⟨.step hp this.1, this.2⟩

theorem top_root {f : Fun} (ht : Tree f) (e : EM) : Root f e (top f e) := chain_last ht e (Nat.le_refl _)

theorem root_unique {f : Fun} {e t t' : EM} (h : Root f e t) (h' : Root f e t') : t = t' := by
  obtain ⟨hw, hn⟩ := h
  induction hw with
  | refl =>
    rcases within_iff.mp h'.1 with rfl | ⟨p, hp, _⟩
    · rfl
    · rw [hn] at hp; cases hp
  | step hp _ ih =>
    refine ih ⟨?_, h'.2⟩ hn
    rcases within_iff.mp h'.1 with rfl | ⟨p, hp', hw⟩
    · rw [h'.2] at hp; cases hp
    · rw [hp] at hp'; cases hp'; exact hw

theorem skipped_iff {o : Obj} : skipped o = false ↔ Variable o := by
  cases o <;> simp [skipped, Variable]

theorem climb_some {f : Fun} (ht : Tree f) {a : EM} {r : Nat} : ∀ {n : Nat} {e : EM}, e ≤ n →
    (climb f n e = (a, some r) ↔ Innermost f e a r)
  | 0, e, h => by
    have h0 : e = 0 := Nat.le_zero.mp h
    subst h0
    have hn : ∀ x, ¬ Part f 0 x := fun x ⟨p, hp, _⟩ => absurd (ht _ _ hp) (Nat.not_lt_zero _)
    rw [climb, Prod.mk.injEq]
    constructor
    · rintro ⟨rfl, h'⟩
      exact ⟨.refl _, h', fun b hb hb' => absurd (hb'.lt ht) (Nat.not_lt.mpr (hb.le ht))⟩
    · rintro ⟨hw, hr, _⟩
      rcases within_iff.mp hw with rfl | h'
      · exact ⟨rfl, hr⟩
      · exact absurd h' (hn _)
  | n + 1, e, h => by
    rw [climb]
    rcases hr : f.raw e with _ | r'
    · rcases hp : f.parent e with _ | p
      · simp only [Prod.mk.injEq, reduceCtorEq, and_false, false_iff]
        rintro ⟨hw, hr', _⟩
        rcases within_iff.mp hw with rfl | ⟨p, hp', _⟩
        · rw [hr] at hr'; cases hr'
        · rw [hp] at hp'; cases hp'
      · simp only
        rw [climb_some ht (Nat.le_of_lt_succ (Nat.lt_of_lt_of_le (ht _ _ hp) h))]
        constructor
        · rintro ⟨hw, hr', hb⟩
          refine ⟨.step hp hw, hr', fun b hwb hpb => ?_⟩
          rcases within_iff.mp hwb with rfl | ⟨q, hq, hwq⟩
          · exact hr
          · rw [hp] at hq; cases hq
            exact hb b hwq hpb
        · rintro ⟨hw, hr', hb⟩
          refine ⟨?_, hr', fun b hwb hpb => hb b (.step hp hwb) hpb⟩
          rcases within_iff.mp hw with rfl | ⟨q, hq, hwq⟩
          · rw [hr] at hr'; cases hr'
          · rw [hp] at hq; cases hq
            exact hwq
    · simp only [Prod.mk.injEq, Option.some.injEq]
      constructor
      · rintro ⟨rfl, rfl⟩
        exact ⟨.refl _, hr, fun b hb hb' => absurd (hb'.lt ht) (Nat.not_lt.mpr (hb.le ht))⟩
      · rintro ⟨hw, hr', hb⟩
        rcases within_iff.mp hw with rfl | hpa
        · exact ⟨rfl, by rw [hr] at hr'; exact Option.some.inj hr'⟩
        · have := hb e (.refl _) hpa
          rw [hr] at this; cases this

theorem climb_none {f : Fun} (ht : Tree f) : ∀ {n : Nat} {e : EM}, e ≤ n →
    ((climb f n e).2 = none ↔ ∀ a, Within f e a → f.raw a = none)
  | 0, e, h => by
    have h0 : e = 0 := Nat.le_zero.mp h
    subst h0
    rw [climb]
    constructor
    · intro hr a ha
      rcases within_iff.mp ha with rfl | ⟨p, hp, _⟩
      · exact hr
      · exact absurd (ht _ _ hp) (Nat.not_lt_zero _)
    · exact fun h => h 0 (.refl _)
  | n + 1, e, h => by
    rw [climb]
    rcases hr : f.raw e with _ | r'
    · rcases hp : f.parent e with _ | p
      · simp only [true_iff]
        intro a ha
        rcases within_iff.mp ha with rfl | ⟨p, hp', _⟩
        · exact hr
        · rw [hp] at hp'; cases hp'
      · simp only
        rw [climb_none ht (Nat.le_of_lt_succ (Nat.lt_of_lt_of_le (ht _ _ hp) h))]
        constructor
        · intro h' a ha
          rcases within_iff.mp ha with rfl | ⟨q, hq, hwq⟩
          · exact hr
          · rw [hp] at hq; cases hq
            exact h' a hwq
        · exact fun h' a ha => h' a (.step hp ha)
    · simp only [reduceCtorEq, false_iff]
      intro h'
      rw [h' e (.refl _)] at hr; cases hr

/-! ### The first loop -/

theorem mem_insert {f : Fun} {d x : DIM} {v : Vars} {c : Class} :
    x ∈ insert f d v c ↔ (x = d ∧ c = f.cls d) ∨ x ∈ v c := by
  unfold insert
  split_ifs with h h'
  · constructor
    · exact .inr
    · rintro (⟨rfl, _⟩ | h'') <;> assumption
  · rw [List.mem_cons]; simp [h]
  · simp [h]

/-- What the first loop knows about uses from a list. -/
structure Inv (f : Fun) (uses : List EM) (s : St) : Prop where
  scalars : ∀ d c, d ∈ s.scalars c ↔ c = f.cls d ∧ ∃ a, f.leaf a = true ∧ Uninit f uses a d
  aggregates : ∀ d c, d ∈ s.aggregates c ↔ c = f.cls d ∧ ∃ a, f.leaf a = false ∧ Uninit f uses a d
  locs : ∀ a d, (a, d) ∈ s.locs ↔ Uninit f uses a d
  noMeta : s.noMeta = true ↔ ∃ e ∈ uses, (∃ t, Root f e t ∧ Variable (f.obj t) ∧ f.obj t ≠ .argument) ∧
    ∀ a, Within f e a → f.raw a = none

theorem uninit_append {f : Fun} {us vs : List EM} {a : EM} {d : DIM} :
    Uninit f (us ++ vs) a d ↔ Uninit f us a d ∨ Uninit f vs a d := by
  unfold Uninit
  constructor
  · rintro ⟨e, he, h⟩
    rcases List.mem_append.mp he with he | he
    · exact .inl ⟨e, he, h⟩
    · exact .inr ⟨e, he, h⟩
  · rintro (⟨e, he, h⟩ | ⟨e, he, h⟩)
    · exact ⟨e, List.mem_append_left _ he, h⟩
    · exact ⟨e, List.mem_append_right _ he, h⟩

theorem uninit_fun {f : Fun} {uses : List EM} {a : EM} {d d' : DIM} (h : Uninit f uses a d)
    (h' : Uninit f uses a d') : d = d' := by
  obtain ⟨_, _, _, r, ⟨_, hr, _⟩, hf⟩ := h
  obtain ⟨_, _, _, r', ⟨_, hr', _⟩, hf'⟩ := h'
  rw [hr] at hr'; cases hr'
  rw [hf] at hf'; exact Option.some.inj hf'

/-- What a single use adds. -/
theorem uninit_one {f : Fun} (ht : Tree f) {e a : EM} {d : DIM} :
    Uninit f [e] a d ↔ skipped (f.obj (top f e)) = false ∧ ∃ r, climb f e e = (a, some r) ∧ f.find r = some d := by
  have hroot := top_root ht e
  unfold Uninit
  constructor
  · rintro ⟨x, hx, ⟨t, hr, hv⟩, r, hi, hf⟩
    rw [List.mem_singleton] at hx; subst hx
    rw [root_unique hr hroot] at hv
    exact ⟨skipped_iff.mpr hv, r, (climb_some ht (Nat.le_refl _)).mpr hi, hf⟩
  · rintro ⟨hs, r, hc, hf⟩
    exact ⟨e, List.mem_singleton.mpr rfl, ⟨_, hroot, skipped_iff.mp hs⟩, r, (climb_some ht (Nat.le_refl _)).mp hc, hf⟩

theorem noMeta_one {f : Fun} (ht : Tree f) {e : EM} :
    (∃ x ∈ [e], (∃ t, Root f x t ∧ Variable (f.obj t) ∧ f.obj t ≠ .argument) ∧ ∀ a, Within f x a → f.raw a = none) ↔
      skipped (f.obj (top f e)) = false ∧ f.obj (top f e) ≠ .argument ∧ (climb f e e).2 = none := by
  have hroot := top_root ht e
  rw [climb_none ht (Nat.le_refl _)]
  constructor
  · rintro ⟨x, hx, ⟨t, hr, hv, hn⟩, h⟩
    rw [List.mem_singleton] at hx; subst hx
    rw [root_unique hr hroot] at hv hn
    exact ⟨skipped_iff.mpr hv, hn, h⟩
  · rintro ⟨hs, hn, h⟩
    exact ⟨e, List.mem_singleton.mpr rfl, ⟨_, hroot, skipped_iff.mp hs, hn⟩, h⟩

theorem Inv.same {f : Fun} {us : List EM} {s : St} (h : Inv f us s) {e : EM} (hu : ∀ a d, ¬ Uninit f [e] a d)
    {b : Bool} (hb : (b = true) ↔ (∃ x ∈ [e], (∃ t, Root f x t ∧ Variable (f.obj t) ∧ f.obj t ≠ .argument) ∧
      ∀ a, Within f x a → f.raw a = none)) :
    Inv f (us ++ [e]) { s with noMeta := s.noMeta || b } := by
  have hu' : ∀ a d, Uninit f (us ++ [e]) a d ↔ Uninit f us a d := fun a d => by
    rw [uninit_append]; exact ⟨fun h => h.elim id fun h => absurd h (hu a d), .inl⟩
  refine ⟨fun d c => ?_, fun d c => ?_, fun a d => ?_, ?_⟩
  · simp only [hu']; exact h.scalars d c
  · simp only [hu']; exact h.aggregates d c
  · simp only [hu']; exact h.locs a d
  · simp only [Bool.or_eq_true, h.noMeta, hb, List.mem_append]
    constructor
    · rintro (⟨x, hx, h⟩ | ⟨x, hx, h⟩)
      · exact ⟨x, .inl hx, h⟩
      · exact ⟨x, .inr hx, h⟩
    · rintro ⟨x, hx | hx, h⟩
      · exact .inl ⟨x, hx, h⟩
      · exact .inr ⟨x, hx, h⟩

theorem mem_emplace {f : Fun} {us : List EM} {s : St} (h : Inv f us s) {e a x : EM} {d y : DIM}
    (hd : Uninit f [e] a d) : (x, y) ∈ emplace a d s.locs ↔ (x, y) ∈ s.locs ∨ (x = a ∧ y = d) := by
  unfold emplace
  split_ifs with hany
  · constructor
    · exact .inl
    · rintro (h' | ⟨rfl, rfl⟩)
      · exact h'
      · obtain ⟨p, hp, he⟩ := List.any_eq_true.mp hany
        obtain ⟨p1, p2⟩ := p
        have : p1 = x := by simpa using he
        subst this
        have h1 := (h.locs _ _).mp hp
        have : y = p2 := uninit_fun (uninit_append.mpr (.inr hd)) (uninit_append.mpr (.inl h1))
        rw [this]; exact hp
  · rw [List.mem_cons, Prod.mk.injEq]
    exact Or.comm

theorem Inv.step {f : Fun} (ht : Tree f) {us : List EM} {s : St} (h : Inv f us s) (e : EM) :
    Inv f (us ++ [e]) (use f s e) := by
  have hone := fun {a d} => uninit_one ht (f := f) (e := e) (a := a) (d := d)
  have hnm := noMeta_one ht (f := f) (e := e)
  unfold use
  by_cases hs : skipped (f.obj (top f e)) = true
  · rw [if_pos hs]
    have := h.same (e := e) (b := false) (fun a d hu => by rw [hone, hs] at hu; cases hu.1)
      (by rw [hnm, hs]; simp)
    simpa using this
  · rw [if_neg hs]
    have hs : skipped (f.obj (top f e)) = false := by simpa using hs
    rcases hc : climb f e e with ⟨e', _ | r⟩
    · simp only
      have hno : ∀ a d, ¬ Uninit f [e] a d := fun a d hu => by
        rw [hone] at hu
        obtain ⟨_, r, hr, _⟩ := hu
        rw [hc] at hr; simp at hr
      split_ifs with ha
      · have := h.same (b := false) hno (by rw [hnm]; simp [ha])
        simpa using this
      · have := h.same (b := true) hno (by rw [hnm, hc]; simp [ha, hs])
        simpa using this
    · simp only
      have hnm' : ¬ ∃ x ∈ [e], (∃ t, Root f x t ∧ Variable (f.obj t) ∧ f.obj t ≠ .argument) ∧
          ∀ a, Within f x a → f.raw a = none := by
        rw [hnm, hc]; simp
      rcases hf : f.find r with _ | d
      · have hno : ∀ a d, ¬ Uninit f [e] a d := fun a d hu => by
          rw [hone] at hu
          obtain ⟨_, r', hr, hf'⟩ := hu
          rw [hc] at hr
          simp only [Prod.mk.injEq, Option.some.injEq] at hr
          rw [← hr.2, hf] at hf'; cases hf'
        have := h.same (b := false) hno (by simp only [Bool.false_eq_true, false_iff]; exact hnm')
        simpa using this
      · have hd : Uninit f [e] e' d := hone.mpr ⟨hs, r, hc, hf⟩
        have hiff : ∀ a y, Uninit f [e] a y ↔ a = e' ∧ y = d := fun a y => by
          constructor
          · intro hu
            rw [hone] at hu
            obtain ⟨_, r', hr, hf'⟩ := hu
            rw [hc] at hr
            simp only [Prod.mk.injEq, Option.some.injEq] at hr
            rw [← hr.2, hf] at hf'
            exact ⟨hr.1.symm, (Option.some.inj hf').symm⟩
          · rintro ⟨rfl, rfl⟩; exact hd
        refine ⟨fun y c => ?_, fun y c => ?_, fun a y => ?_, ?_⟩
        · simp only [uninit_append, hiff]
          rcases hl : f.leaf e' with _ | _
          · simp only [Bool.false_eq_true, if_false, h.scalars]
            constructor
            · rintro ⟨h1, a, h2, h3⟩; exact ⟨h1, a, h2, .inl h3⟩
            · rintro ⟨h1, a, h2, h3 | ⟨rfl, _⟩⟩
              · exact ⟨h1, a, h2, h3⟩
              · rw [hl] at h2; cases h2
          · simp only [if_true, mem_insert, h.scalars]
            constructor
            · rintro (⟨rfl, h1⟩ | ⟨h1, a, h2, h3⟩)
              · exact ⟨h1, e', hl, .inr ⟨rfl, rfl⟩⟩
              · exact ⟨h1, a, h2, .inl h3⟩
            · rintro ⟨h1, a, h2, h3 | ⟨rfl, rfl⟩⟩
              · exact .inr ⟨h1, a, h2, h3⟩
              · exact .inl ⟨rfl, h1⟩
        · simp only [uninit_append, hiff]
          rcases hl : f.leaf e' with _ | _
          · simp only [Bool.false_eq_true, if_false, mem_insert, h.aggregates]
            constructor
            · rintro (⟨rfl, h1⟩ | ⟨h1, a, h2, h3⟩)
              · exact ⟨h1, e', hl, .inr ⟨rfl, rfl⟩⟩
              · exact ⟨h1, a, h2, .inl h3⟩
            · rintro ⟨h1, a, h2, h3 | ⟨rfl, rfl⟩⟩
              · exact .inr ⟨h1, a, h2, h3⟩
              · exact .inl ⟨rfl, h1⟩
          · simp only [if_true, h.aggregates]
            constructor
            · rintro ⟨h1, a, h2, h3⟩; exact ⟨h1, a, h2, .inl h3⟩
            · rintro ⟨h1, a, h2, h3 | ⟨rfl, _⟩⟩
              · exact ⟨h1, a, h2, h3⟩
              · rw [hl] at h2; cases h2
        · simp only [uninit_append, hiff]
          rw [mem_emplace h hd, h.locs]
        · rw [h.noMeta]
          constructor
          · rintro ⟨x, hx, h'⟩; exact ⟨x, List.mem_append_left _ hx, h'⟩
          · rintro ⟨x, hx, h'⟩
            rcases List.mem_append.mp hx with hx | hx
            · exact ⟨x, hx, h'⟩
            · exact absurd ⟨x, hx, h'⟩ hnm'

theorem Inv.foldl {f : Fun} (ht : Tree f) : ∀ (vs us : List EM) (s : St), Inv f us s →
    Inv f (us ++ vs) (vs.foldl (use f) s)
  | [], us, s, h => by simpa using h
  | v :: vs, us, s, h => by
    have := Inv.foldl ht vs (us ++ [v]) _ (h.step ht v)
    simpa using this

theorem Inv.init (f : Fun) : Inv f [] {} := by
  refine ⟨fun d c => ?_, fun d c => ?_, fun a d => ?_, ?_⟩ <;> simp [Uninit]

/-! ### The second loop -/

theorem mem_erase {d x : DIM} {v : Vars} {c : Class} : x ∈ erase d v c ↔ x ∈ v c ∧ x ≠ d := by
  simp [erase, List.mem_filter]

theorem largest_mem {f : Fun} {locs : List (EM × DIM)} : ∀ (o : List (EM × DIM)) (s : St),
    (∀ d c, d ∈ (largest f locs o s).scalars c ↔
      d ∈ s.scalars c ∧ ¬ ∃ a, (a, d) ∈ o ∧ covered f locs a = true) ∧
    (∀ d c, d ∈ (largest f locs o s).aggregates c ↔
      d ∈ s.aggregates c ∧ ¬ ∃ a, (a, d) ∈ o ∧ covered f locs a = true) ∧
    (largest f locs o s).noMeta = s.noMeta
  | [], s => by simp [largest]
  | (p, q) :: ps, s => by
    rw [largest]
    obtain ⟨h1, h2, h3⟩ := largest_mem (locs := locs) (f := f) ps (if covered f locs p then
        { s with scalars := erase q s.scalars, aggregates := erase q s.aggregates } else s)
    rcases hc : covered f locs p with _ | _
    · simp only [hc, Bool.false_eq_true, if_false] at h1 h2 h3 ⊢
      refine ⟨fun d c => ?_, fun d c => ?_, h3⟩
      · rw [h1]
        refine and_congr_right fun _ => not_congr ⟨fun ⟨a, ha, h⟩ => ⟨a, List.mem_cons_of_mem _ ha, h⟩, ?_⟩
        rintro ⟨a, ha, h⟩
        rcases List.mem_cons.mp ha with he | ha
        · cases he; rw [hc] at h; cases h
        · exact ⟨a, ha, h⟩
      · rw [h2]
        refine and_congr_right fun _ => not_congr ⟨fun ⟨a, ha, h⟩ => ⟨a, List.mem_cons_of_mem _ ha, h⟩, ?_⟩
        rintro ⟨a, ha, h⟩
        rcases List.mem_cons.mp ha with he | ha
        · cases he; rw [hc] at h; cases h
        · exact ⟨a, ha, h⟩
    · simp only [hc, if_true] at h1 h2 h3 ⊢
      have key : ∀ (d : DIM) (P : Prop), ((P ∧ d ≠ q) ∧ ¬ ∃ a, (a, d) ∈ ps ∧ covered f locs a = true) ↔
          P ∧ ¬ ∃ a, (a, d) ∈ (p, q) :: ps ∧ covered f locs a = true := by
        intro d P
        constructor
        · rintro ⟨⟨hp, hne⟩, hn⟩
          refine ⟨hp, fun ⟨a, ha, h⟩ => ?_⟩
          rcases List.mem_cons.mp ha with he | ha
          · cases he; exact hne rfl
          · exact hn ⟨a, ha, h⟩
        · rintro ⟨hp, hn⟩
          refine ⟨⟨hp, fun he => ?_⟩, fun ⟨a, ha, h⟩ => hn ⟨a, List.mem_cons_of_mem _ ha, h⟩⟩
          subst he
          exact hn ⟨p, List.mem_cons_self, hc⟩
      refine ⟨fun d c => ?_, fun d c => ?_, h3⟩
      · rw [h1, mem_erase, key]
      · rw [h2, mem_erase, key]

theorem covered_iff {f : Fun} (ht : Tree f) {locs : List (EM × DIM)} {a : EM} :
    covered f locs a = true ↔ ∃ b d, Part f a b ∧ (b, d) ∈ locs := by
  unfold covered
  rw [List.any_eq_true]
  constructor
  · rintro ⟨b, hb, h⟩
    obtain ⟨⟨x, d⟩, hp, he⟩ := List.any_eq_true.mp h
    have : x = b := by simpa using he
    subst this
    exact ⟨x, d, (mem_tail ht).mp hb, hp⟩
  · rintro ⟨b, d, hb, h⟩
    exact ⟨b, (mem_tail ht).mpr hb, List.any_eq_true.mpr ⟨_, h, by simp⟩⟩

/-- A metadata describes a memory which is a part of other not initialized memory. -/
def Inner (f : Fun) (uses : List EM) (d : DIM) : Prop :=
  ∃ a b d', Uninit f uses a d ∧ Part f a b ∧ Uninit f uses b d'

theorem inner_iff {f : Fun} (ht : Tree f) {o : List (EM × DIM) → List (EM × DIM)} (ho : Order o) {uses : List EM}
    {s : St} (h : Inv f uses s) (d : DIM) :
    (∃ a, (a, d) ∈ o s.locs ∧ covered f s.locs a = true) ↔ Inner f uses d := by
  constructor
  · rintro ⟨a, ha, hc⟩
    obtain ⟨b, d', hp, hb⟩ := (covered_iff ht).mp hc
    exact ⟨a, b, d', (h.locs _ _).mp ((ho _ _).mp ha), hp, (h.locs _ _).mp hb⟩
  · rintro ⟨a, b, d', ha, hp, hb⟩
    exact ⟨a, (ho _ _).mpr ((h.locs _ _).mpr ha), (covered_iff ht).mpr ⟨b, d', hp, (h.locs _ _).mpr hb⟩⟩

/-! ### Properties -/

/-- **C144.** The report is determined by uses for every order of traversal of sets. A variable is printed as a scalar
(an aggregate) in a list of a class if and only if it has this class, it is the smallest described memory which contains
a memory that is read before it is written, no (some) parts of this memory are known, and nothing of what the variable
describes is a part of other not initialized memory. -/
theorem report_iff {f : Fun} (ht : Tree f) {o : List (EM × DIM) → List (EM × DIM)} (ho : Order o) (uses : List EM)
    (d : DIM) (c : Class) :
    (d ∈ (run f o uses).scalars c ↔
      c = f.cls d ∧ (∃ a, f.leaf a = true ∧ Uninit f uses a d) ∧ ¬ Inner f uses d) ∧
    (d ∈ (run f o uses).aggregates c ↔
      c = f.cls d ∧ (∃ a, f.leaf a = false ∧ Uninit f uses a d) ∧ ¬ Inner f uses d) := by
  have h := Inv.foldl ht uses [] {} (Inv.init f)
  rw [List.nil_append] at h
  obtain ⟨h1, h2, _⟩ := largest_mem (f := f) (locs := (uses.foldl (use f) {}).locs)
    (o (uses.foldl (use f) {}).locs) (uses.foldl (use f) {})
  unfold run
  constructor
  · rw [h1, h.scalars, inner_iff ht ho h, and_assoc]
  · rw [h2, h.aggregates, inner_iff ht ho h, and_assoc]

/-- A variable is printed. -/
def Reported (s : St) (d : DIM) : Prop := ∃ c, d ∈ s.scalars c ∨ d ∈ s.aggregates c

theorem reported_iff {f : Fun} (ht : Tree f) {o : List (EM × DIM) → List (EM × DIM)} (ho : Order o) (uses : List EM)
    (d : DIM) : Reported (run f o uses) d ↔ (∃ a, Uninit f uses a d) ∧ ¬ Inner f uses d := by
  unfold Reported
  constructor
  · rintro ⟨c, h | h⟩
    · obtain ⟨_, ⟨a, _, h⟩, h'⟩ := (report_iff ht ho uses d c).1.mp h; exact ⟨⟨a, h⟩, h'⟩
    · obtain ⟨_, ⟨a, _, h⟩, h'⟩ := (report_iff ht ho uses d c).2.mp h; exact ⟨⟨a, h⟩, h'⟩
  · rintro ⟨⟨a, h⟩, h'⟩
    refine ⟨f.cls d, ?_⟩
    rcases hl : f.leaf a with _ | _
    · exact .inr ((report_iff ht ho uses d _).2.mpr ⟨rfl, ⟨a, hl, h⟩, h'⟩)
    · exact .inl ((report_iff ht ho uses d _).1.mpr ⟨rfl, ⟨a, hl, h⟩, h'⟩)

/-- The largest not initialized memory which contains a specified one. -/
theorem exists_largest {f : Fun} (ht : Tree f) {uses : List EM} : ∀ (n : Nat) {a : EM} {d : DIM}, a ≤ n →
    Uninit f uses a d → ∃ b d', Within f a b ∧ Uninit f uses b d' ∧ ∀ c d'', Part f b c → ¬ Uninit f uses c d''
  | n, a, d, hn, h => by
    by_cases hex : ∃ b d', Part f a b ∧ Uninit f uses b d'
    · obtain ⟨b, d', hp, hb⟩ := hex
      have hlt := hp.lt ht
      cases n with
      | zero => exact absurd (Nat.lt_of_lt_of_le hlt hn) (Nat.not_lt_zero _)
      | succ n =>
        obtain ⟨c, d'', hw, hc, hm⟩ := exists_largest ht n (Nat.le_of_lt_succ (Nat.lt_of_lt_of_le hlt hn)) hb
        exact ⟨c, d'', (within_iff.mpr (.inr hp)).trans hw, hc, hm⟩
    · exact ⟨a, d, .refl _, h, fun c d'' hp hc => hex ⟨c, d'', hp, hc⟩⟩

/-- **C145 (partial).** If different memories are described by different metadata then every byte `x` of a memory which
is read before it is written belongs to a reported variable, or no metadata describe this memory, or its metadata are
not in the metadata-level alias tree. Here `mem` is a set of bytes of a memory.

The full statement is without `Distinct`: it is false, see `covers_fails`. -/
theorem covers_partial {f : Fun} (ht : Tree f) (hd : Distinct f) {o : List (EM × DIM) → List (EM × DIM)}
    (ho : Order o) (uses : List EM) (mem : EM → Nat → Prop) (hm : ∀ e p x, f.parent e = some p → mem e x → mem p x)
    {e : EM} (he : e ∈ uses) {t : EM} (hroot : Root f e t) (hv : Variable (f.obj t)) {x : Nat} (hx : mem e x) :
    (∃ b r d, Within f e b ∧ mem b x ∧ f.raw b = some r ∧ f.find r = some d ∧ Reported (run f o uses) d) ∨
    (∀ a, Within f e a → f.raw a = none) ∨ (∃ a r, Innermost f e a r ∧ f.find r = none) := by
  have hmem : ∀ {a b}, Within f a b → mem a x → mem b x := by
    intro a b h
    induction h with
    | refl => exact id
    | step hp _ ih => exact fun h' => ih (hm _ _ _ hp h')
  rcases hc : climb f e e with ⟨a, _ | r⟩
  · exact .inr (.inl ((climb_none ht (Nat.le_refl _)).mp (by rw [hc])))
  · have hi := (climb_some ht (Nat.le_refl _)).mp hc
    rcases hf : f.find r with _ | d
    · exact .inr (.inr ⟨a, r, hi, hf⟩)
    · have ha : Uninit f uses a d := ⟨e, he, ⟨t, hroot, hv⟩, r, hi, hf⟩
      obtain ⟨b, d', hw, hb, hl⟩ := exists_largest ht a (Nat.le_refl _) ha
      have hb' := hb
      obtain ⟨_, _, _, r', ⟨_, hr', _⟩, hf'⟩ := hb'
      refine .inl ⟨b, r', d', hi.1.trans hw, hmem (hi.1.trans hw) hx, hr', hf', ?_⟩
      rw [reported_iff ht ho]
      refine ⟨⟨b, hb⟩, fun ⟨a', c, d'', ha', hp, hc⟩ => ?_⟩
      have hb'' := hb
      obtain ⟨_, _, _, r'', ⟨_, hr'', _⟩, hf''⟩ := ha'
      obtain rfl : a' = b := hd _ _ _ _ _ hr'' hr' hf'' hf'
      exact hl c d'' hp hc

/-- **C145.** Everything which is reported contains a memory which is read before it is written. -/
theorem reported_used {f : Fun} (ht : Tree f) {o : List (EM × DIM) → List (EM × DIM)} (ho : Order o)
    (uses : List EM) {d : DIM} (h : Reported (run f o uses) d) :
    ∃ e ∈ uses, ∃ a r, Within f e a ∧ f.raw a = some r ∧ f.find r = some d := by
  obtain ⟨⟨a, e, he, _, r, ⟨hw, hr, _⟩, hf⟩, _⟩ := (reported_iff ht ho uses d).mp h
  exact ⟨e, he, a, r, hw, hr, hf⟩

/-- **C145.** Only the largest memory is reported: no reported variable is a part of other reported variable. -/
theorem reported_largest {f : Fun} (ht : Tree f) {o : List (EM × DIM) → List (EM × DIM)} (ho : Order o)
    (uses : List EM) {d d' : DIM} (h : Reported (run f o uses) d) (_h' : Reported (run f o uses) d') {a b : EM}
    (ha : Uninit f uses a d) (hb : Uninit f uses b d') : ¬ Part f a b :=
  fun hp => ((reported_iff ht ho uses d).mp h).2 ⟨a, b, d', ha, hp, hb⟩

/-- **C144.** A warning that some memory has not been analyzed is printed if and only if there is a memory which is read
before it is written, which is not a part of memory pointed to by an argument and which has no metadata. -/
theorem warning_iff {f : Fun} (ht : Tree f) (o : List (EM × DIM) → List (EM × DIM)) (uses : List EM) :
    (run f o uses).noMeta = true ↔ ∃ e ∈ uses,
      (∃ t, Root f e t ∧ Variable (f.obj t) ∧ f.obj t ≠ .argument) ∧ ∀ a, Within f e a → f.raw a = none := by
  have h := Inv.foldl ht uses [] {} (Inv.init f)
  rw [List.nil_append] at h
  unfold run
  rw [(largest_mem (f := f) _ _).2.2, h.noMeta]

/-! ### Examples and a counterexample -/

/-- A structure `0` with members `1` and `2`, a constant table `3` and a scalar `4`. A member `2` has no metadata. -/
def exF : Fun where
  parent e := if e = 1 ∨ e = 2 then some 0 else none
  leaf e := e != 0
  obj e := if e = 3 then .globalVar true else .other
  raw e := if e = 2 then none else some (10 + e)
  find r := some (r + 10)
  cls d := if d = 24 then .arg else .loc

theorem exF_tree : Tree exF := by
  intro e p h
  simp only [exF] at h
  split_ifs at h with h'
  cases h
  rcases h' with rfl | rfl <;> decide

theorem exF_distinct : Distinct exF := by
  intro a b r r' d h1 h2 h3 h4
  simp only [exF] at h1 h2 h3 h4
  split_ifs at h1 h2
  simp only [Option.some.injEq] at h1 h2 h3 h4
  have : r = r' := Nat.add_right_cancel (h3.trans h4.symm)
  subst this
  exact Nat.add_left_cancel (h1.trans h2.symm)

theorem order_id : Order id := fun _ _ => Iff.rfl
theorem order_reverse : Order List.reverse := fun _ _ => List.mem_reverse

/-- Members are read: the whole structure is reported, its member is not; the table is skipped. -/
example : (run exF id [1, 2, 3, 4]).aggregates .loc = [20] ∧ (run exF id [1, 2, 3, 4]).scalars .loc = [] ∧
    (run exF id [1, 2, 3, 4]).scalars .arg = [24] ∧ (run exF List.reverse [1, 2, 3, 4]).scalars .loc = [] ∧
    (run exF id [1, 3]).scalars .loc = [21] := by decide

example : Reported (run exF id [1, 2, 3, 4]) 20 := ⟨.loc, .inr (by decide)⟩
example : Root exF 2 0 := ⟨.step rfl (.refl _), rfl⟩
example : Variable (exF.obj 0) := trivial

/-- A memory `1` returned by a call is a part of a memory `0` returned by the same call. There are no variables, so
metadata contain the call only and do not depend on sizes (DIEstimateMemory.cpp:2287-2290, 2341-2370). -/
def badF : Fun where
  parent e := if e = 1 then some 0 else none
  leaf e := e == 1
  obj _ := .other
  raw _ := some 7
  find r := some r
  cls _ := .unknown

/-- **C145 fails** if metadata are shared: both memories are read before they are written, both have metadata, but
nothing is reported and there is no warning. -/
theorem covers_fails : Tree badF ∧ Uninit badF [0, 1] 0 7 ∧ Uninit badF [0, 1] 1 7 ∧
    (∀ d, ¬ Reported (run badF id [0, 1]) d) ∧ (run badF id [0, 1]).noMeta = false := by
  refine ⟨?_, ?_, ?_, ?_, by decide⟩
  · intro e p h
    simp only [badF] at h
    split_ifs at h with h'
    cases h; subst h'; decide
  · refine ⟨0, by simp, ⟨0, ⟨.refl _, rfl⟩, trivial⟩, 7, ⟨.refl _, rfl, ?_⟩, rfl⟩
    rintro b hb ⟨p, hp, _⟩
    rcases within_iff.mp hb with rfl | ⟨q, hq, _⟩
    · simp [badF] at hp
    · simp [badF] at hq
  · refine ⟨1, by simp, ⟨0, ⟨.step (p := 0) rfl (.refl _), rfl⟩, trivial⟩, 7, ⟨.refl _, rfl, ?_⟩, rfl⟩
    rintro b hb ⟨p, hp, hw⟩
    simp only [badF] at hp
    split_ifs at hp with h'
    cases hp
    rcases within_iff.mp hw with h | ⟨q, hq, _⟩
    · cases h
    · simp [badF] at hq
  · rintro d ⟨c, h | h⟩
    · cases c <;> simp [run, use, chain, climb, badF, skipped, insert, emplace, largest, covered, erase] at h
    · cases c <;> simp [run, use, chain, climb, badF, skipped, insert, emplace, largest, covered, erase] at h

/-- Metadata which are not in the metadata-level alias tree: nothing is reported and there is no warning
(NotInitializedMemory.cpp:209-211). -/
theorem covers_silent_fails : ∃ f : Fun, Tree f ∧ Distinct f ∧ (∃ t, Root f 0 t ∧ Variable (f.obj t)) ∧
    f.raw 0 = some 7 ∧ (∀ d, ¬ Reported (run f id [0]) d) ∧ (run f id [0]).noMeta = false := by
  refine ⟨{ badF with parent := fun _ => none, find := fun _ => none }, ?_, ?_, ⟨0, ⟨.refl _, rfl⟩, trivial⟩, rfl, ?_,
    by decide⟩
  · intro e p h; cases h
  · intro a b r r' d _ _ h; cases h
  · rintro d ⟨c, h | h⟩ <;> cases c <;> simp [run, use, chain, climb, badF, skipped, largest] at h

end Tsar.NotInit
