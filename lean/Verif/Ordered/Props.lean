import Verif.Ordered.Model
import Mathlib.Tactic.Linarith

/-!
# Properties of ordered loops (C103)

Specification: an iteration of a nest is a vector of numbers of iterations of its loops. An iteration waits at the
beginning of the body until each iteration which is mentioned in a sink, and belongs to the iteration space, has been
finished. Vectors of sinks are added to values of variables, as the OpenMP standard requires.

* `ordered_partial`: dependent iterations are executed one after another in every parallel execution of the nest.
* `ordered_progress_partial`: sinks refer to previous iterations, therefore there are no deadlocks.
* `ordered_inner_fails`, `ordered_short_fails`, `ordered_step_fails`: sinks are wrong.
-/

namespace Tsar
namespace Ordered

/-! ## Specification -/

/-- Times of the beginning and of the end of iterations. -/
structure Timing where
  start : List Int → Nat
  finish : List Int → Nat
  lt : ∀ k, start k < finish k

/-- The execution obeys sinks `S`: `val` are values of variables in an iteration, `I` is the iteration space. -/
def Obeys (S : List (List Int)) (val : List Int → List Int) (I : List Int → Prop) (t : Timing) : Prop :=
  ∀ k k', I k → I k' → ∀ s ∈ S, val k' = List.zipWith (· + ·) (val k) s → t.finish k' ≤ t.start k

/-- Known ranges contain distances. -/
def Within : List (Int × Int) → List Int → Prop
  | r :: rs, d :: ds => r.1 ≤ d ∧ d ≤ r.2 ∧ Within rs ds
  | _, _ => True

/-- The dependence connects iterations of a loop with number `p` in the nest: distances are zero for outer loops and
they are within the reported ranges for other loops. -/
def Dep.Connects (e : Dep) (p : Nat) (y x : List Int) : Prop :=
  ∃ ds rs, (rs = e.flow ∨ rs = e.anti) ∧ rs ≠ [] ∧ Within rs ds ∧ ds.length + p = y.length ∧
    x = List.zipWith (· + ·) y (List.replicate p 0 ++ ds)

/-- Distances are known for `m` loops at least, they are zero for all loops except the first one. -/
def Straight (m : Nat) (rs : List (Int × Int)) : Prop :=
  rs ≠ [] → m ≤ rs.length ∧ ∀ r ∈ rs.tail, r = (0, 0)

/-- All distances of a loop are straight. -/
def Level.Straight (l : Level) (m : Nat) : Prop := ∀ e ∈ l.deps, Ordered.Straight m e.flow ∧ Ordered.Straight m e.anti

/-- At least one distance is reported for each dependence. -/
def Level.Known (l : Level) : Prop := ∀ e ∈ l.deps, e.flow ≠ [] ∨ e.anti ≠ []

/-! ## Enumeration of vectors -/

theorem mem_count {x a : Int} {n : Nat} : x ∈ count a n ↔ a ≤ x ∧ x < a + n := by
  induction n generalizing a with
  | zero =>
    simp only [count, List.not_mem_nil, false_iff]
    push_cast
    omega
  | succ n ih =>
    simp only [count, List.mem_cons, ih]
    push_cast
    omega

theorem mem_values {x : Int} {r : Int × Int} : x ∈ values r ↔ (r.1 ≤ x ∧ x ≤ r.2) ∨ (r.2 ≤ x ∧ x ≤ r.1) := by
  unfold values
  simp only [mem_count]
  split <;> omega

/-- A vector of a sink. -/
def Fits : Nat → List Range → List Int → Prop
  | 0, _, s => s = []
  | _ + 1, [], _ => False
  | n + 1, r :: l, s => ∃ d s', s = d :: s' ∧ (match r with | none => d = 0 | some v => d ∈ values v) ∧ Fits n l s'

theorem mem_buildSink {n : Nat} {l : List Range} {t : List (List Int)} (h : buildSink n l = some t) (s : List Int) :
    s ∈ t ↔ Fits n l s := by
  induction n generalizing l t s with
  | zero =>
    simp only [buildSink, Option.some.injEq] at h
    subst h
    simp [Fits]
  | succ n ih =>
    cases l with
    | nil => simp [buildSink] at h
    | cons r l =>
      simp only [buildSink] at h
      cases ht : buildSink n l with
      | none => simp [ht] at h
      | some u =>
        rw [ht] at h
        cases r with
        | none =>
          simp only [Option.some.injEq] at h
          subst h
          simp only [List.mem_map, Fits]
          constructor
          · rintro ⟨s', h1, rfl⟩
            exact ⟨0, s', rfl, rfl, (ih ht s').1 h1⟩
          · rintro ⟨d, s', rfl, rfl, h1⟩
            exact ⟨s', (ih ht s').2 h1, rfl⟩
        | some v =>
          simp only [Option.some.injEq] at h
          subst h
          simp only [List.mem_flatMap, List.mem_map, Fits]
          constructor
          · rintro ⟨d, h0, s', h1, rfl⟩
            exact ⟨d, s', rfl, h0, (ih ht s').1 h1⟩
          · rintro ⟨d, s', rfl, h0, h1⟩
            exact ⟨d, h0, s', (ih ht s').2 h1, rfl⟩

theorem buildSink_some {n : Nat} {l : List Range} (h : n ≤ l.length) : ∃ t, buildSink n l = some t := by
  induction n generalizing l with
  | zero => exact ⟨_, rfl⟩
  | succ n ih =>
    cases l with
    | nil => simp at h
    | cons r l =>
      obtain ⟨t, ht⟩ := ih (by simpa using h : n ≤ l.length)
      cases r <;> simp [buildSink, ht]

theorem mem_buildSinks {n : Nat} {ss : List (List Range)} {t : List (List Int)} (h : buildSinks n ss = some t)
    (s : List Int) : s ∈ t ↔ ∃ l ∈ ss, Fits n l s := by
  induction ss generalizing t with
  | nil =>
    simp only [buildSinks, Option.some.injEq] at h
    subst h
    simp
  | cons l ss ih =>
    simp only [buildSinks] at h
    cases h1 : buildSink n l with
    | none => simp [h1] at h
    | some a =>
      cases h2 : buildSinks n ss with
      | none => simp [h1, h2] at h
      | some b =>
        simp only [h1, h2, Option.some.injEq] at h
        subst h
        simp [mem_buildSink h1, ih h2]

theorem buildSinks_some {n : Nat} {ss : List (List Range)} (h : ∀ l ∈ ss, n ≤ l.length) :
    ∃ t, buildSinks n ss = some t := by
  induction ss with
  | nil => exact ⟨_, rfl⟩
  | cons l ss ih =>
    obtain ⟨a, ha⟩ := buildSink_some (h l List.mem_cons_self)
    obtain ⟨b, hb⟩ := ih fun x hx => h x (List.mem_cons_of_mem _ hx)
    exact ⟨a ++ b, by simp [buildSinks, ha, hb]⟩

/-! ## Ranges of a loop -/

/-- The first range of a list contains the first range of another list. -/
def Covers (dv rs : List (Int × Int)) : Prop :=
  ∀ r l, rs = r :: l → ∀ v w, dv = v :: w → v.1 ≤ r.1 ∧ r.2 ≤ v.2

theorem update_covers_old {dv rs dist : List (Int × Int)} (h : Covers dv rs) : Covers (update dv dist) rs := by
  unfold update
  split
  · exact h
  · intro r l hr v w hv
    cases dist with
    | nil => simp at hv
    | cons d dist =>
      cases dv with
      | nil => simp at hv
      | cons u dv =>
        simp only [List.zipWith_cons_cons, List.cons.injEq] at hv
        obtain ⟨rfl, -⟩ := hv
        have := h r l hr u dv rfl
        unfold widen
        dsimp only
        constructor <;> split <;> omega

theorem update_covers_new {dv dist : List (Int × Int)} : Covers (update dv dist) dist := by
  intro r l hr v w hv
  subst hr
  unfold update at hv
  simp only [List.isEmpty_cons, Bool.false_eq_true, if_false] at hv
  cases dv with
  | nil => simp at hv
  | cons u dv =>
    simp only [List.zipWith_cons_cons, List.cons.injEq] at hv
    obtain ⟨rfl, -⟩ := hv
    unfold widen
    dsimp only
    constructor <;> split <;> omega

/-- The list of ranges after all dependences. -/
def hull (deps : List Dep) (init : List (Int × Int)) : List (Int × Int) :=
  deps.foldl (fun dv d => update (update dv d.flow) d.anti) init

theorem hull_covers_old {deps : List Dep} {dv rs : List (Int × Int)} (h : Covers dv rs) : Covers (hull deps dv) rs := by
  induction deps generalizing dv with
  | nil => exact h
  | cons d deps ih => exact ih (update_covers_old (update_covers_old h))

theorem hull_covers {deps : List Dep} {dv : List (Int × Int)} {e : Dep} (he : e ∈ deps) :
    Covers (hull deps dv) e.flow ∧ Covers (hull deps dv) e.anti := by
  induction deps generalizing dv with
  | nil => cases he
  | cons d deps ih =>
    rcases List.mem_cons.1 he with rfl | he
    · exact ⟨hull_covers_old (deps := deps) (update_covers_old update_covers_new),
        hull_covers_old (deps := deps) update_covers_new⟩
    · exact ih he

/-- An invariant of the list. -/
structure Flat (m : Nat) (dv : List (Int × Int)) : Prop where
  len : m ≤ dv.length
  zero : ∀ r ∈ dv.tail, r = (0, 0)

theorem update_flat {m : Nat} {dv dist : List (Int × Int)} (h : Flat m dv) (hd : Straight m dist) :
    Flat m (update dv dist) := by
  unfold update
  split
  · exact h
  · rename_i hne
    obtain ⟨h1, h2⟩ := hd (by intro h0; subst h0; simp at hne)
    refine ⟨by rw [List.length_zipWith]; exact le_min h1 h.len, ?_⟩
    cases dist with
    | nil => intro r hr; simp at hr
    | cons d dist =>
      cases dv with
      | nil => intro r hr; simp at hr
      | cons u dv =>
        have hu := h.zero
        simp only [List.tail_cons, List.zipWith_cons_cons] at h2 hu ⊢
        clear h1 h hne hd
        induction dist generalizing dv with
        | nil => intro r hr; simp at hr
        | cons a dist ih =>
          cases dv with
          | nil => intro r hr; simp at hr
          | cons b dv =>
            intro r hr
            simp only [List.zipWith_cons_cons, List.mem_cons] at hr
            rcases hr with rfl | hr
            · rw [h2 a List.mem_cons_self, hu b List.mem_cons_self]
              rfl
            · exact ih (fun x hx => h2 x (List.mem_cons_of_mem _ hx)) dv (fun x hx => hu x (List.mem_cons_of_mem _ hx)) r hr

theorem hull_flat {m : Nat} {deps : List Dep} {dv : List (Int × Int)} (h : Flat m dv)
    (hd : ∀ e ∈ deps, Straight m e.flow ∧ Straight m e.anti) : Flat m (hull deps dv) := by
  induction deps generalizing dv with
  | nil => exact h
  | cons d deps ih =>
    obtain ⟨h1, h2⟩ := hd d List.mem_cons_self
    exact ih (update_flat (update_flat h h1) h2) fun e he => hd e (List.mem_cons_of_mem _ he)

/-- A lower bound of the first range. -/
theorem update_low {dv dist : List (Int × Int)} {c : Int} (h : ∀ v w, dv = v :: w → c ≤ v.1 ∧ c ≤ v.2)
    (hd : ∀ v w, dist = v :: w → c ≤ v.1 ∧ c ≤ v.2) : ∀ v w, update dv dist = v :: w → c ≤ v.1 ∧ c ≤ v.2 := by
  unfold update
  split
  · exact h
  · intro v w hv
    cases dist with
    | nil => simp at hv
    | cons d dist =>
      cases dv with
      | nil => simp at hv
      | cons u dv =>
        simp only [List.zipWith_cons_cons, List.cons.injEq] at hv
        obtain ⟨rfl, -⟩ := hv
        have h1 := h u dv rfl
        have h2 := hd d dist rfl
        unfold widen
        dsimp only
        constructor <;> split <;> omega

theorem hull_low {deps : List Dep} {dv : List (Int × Int)} {c : Int} (h : ∀ v w, dv = v :: w → c ≤ v.1 ∧ c ≤ v.2)
    (hd : ∀ e ∈ deps, (∀ v w, e.flow = v :: w → c ≤ v.1 ∧ c ≤ v.2) ∧ ∀ v w, e.anti = v :: w → c ≤ v.1 ∧ c ≤ v.2) :
    ∀ v w, hull deps dv = v :: w → c ≤ v.1 ∧ c ≤ v.2 := by
  induction deps generalizing dv with
  | nil => exact h
  | cons d deps ih =>
    obtain ⟨h1, h2⟩ := hd d List.mem_cons_self
    exact ih (update_low (update_low h h1) h2) fun e he => hd e (List.mem_cons_of_mem _ he)

/-- The first list of ranges. -/
def initial (f : Dep) : List (Int × Int) := if f.flow.isEmpty then f.anti else f.flow

theorem makeRange_spec {deps : List Dep} {size : Nat} {dv : List Range} (h : makeRange deps size = some dv) :
    ∃ f t r l, deps = f :: t ∧ hull deps (initial f) = r :: l ∧
      dv = List.replicate size none ++ some (-r.1, -r.2) :: l.map some := by
  unfold makeRange at h
  cases deps with
  | nil => cases h
  | cons f t =>
    dsimp only at h
    change (match hull (f :: t) (initial f) with
      | [] => none
      | r :: l => some (List.replicate size none ++ some (-r.1, -r.2) :: l.map some)) = some dv at h
    cases hh : hull (f :: t) (initial f) with
    | nil => simp [hh] at h
    | cons r l =>
      rw [hh] at h
      exact ⟨f, t, r, l, rfl, hh, (Option.some.inj h).symm⟩

theorem makeRange_some {l : Level} {m size : Nat} (hm : 0 < m) (hs : l.Straight m) (hk : l.Known)
    (hne : l.deps ≠ []) : ∃ dv, makeRange l.deps size = some dv ∧ size + m ≤ dv.length := by
  cases hd : l.deps with
  | nil => exact (hne hd).elim
  | cons f t =>
    have hf : f ∈ l.deps := by rw [hd]; exact List.mem_cons_self
    have hi : Flat m (initial f) := by
      obtain ⟨h1, h2⟩ := hs f hf
      unfold initial
      split
      · rename_i he
        obtain ⟨a, b⟩ := h2 (by
          rcases hk f hf with h | h
          · exact (h (List.isEmpty_iff.1 he)).elim
          · exact h)
        exact ⟨a, b⟩
      · rename_i he
        obtain ⟨a, b⟩ := h1 fun h0 => he (List.isEmpty_iff.2 h0)
        exact ⟨a, b⟩
    have hh := hull_flat hi (deps := f :: t) (by rw [← hd]; exact hs)
    cases hc : hull (f :: t) (initial f) with
    | nil =>
      have := hh.len
      rw [hc] at this
      simp at this
      omega
    | cons r w =>
      refine ⟨List.replicate size none ++ some (-r.1, -r.2) :: w.map some, ?_, ?_⟩
      · unfold makeRange
        dsimp only
        change (match hull (f :: t) (initial f) with
          | [] => none
          | r :: l => some (List.replicate size none ++ some (-r.1, -r.2) :: l.map some)) = _
        rw [hc]
      · have := hh.len
        rw [hc] at this
        simp at this ⊢
        omega

/-! ## The nest of loops -/

/-- Ranges which are stored in a directive. -/
def stored (o : Option Directive) : List (List Range) := (o.map (·.sink)).getD []

theorem extend_spec {ls : List Level} {o o' : Option Directive} {size n : Nat} (h : extend ls o size = some (o', n))
    (hz : ∀ d, o = some d → d.depth = 0) :
    size ≤ n ∧ n ≤ size + ls.length ∧ (∀ d, o' = some d → d.depth = 0) ∧ (∀ s ∈ stored o, s ∈ stored o') ∧
    (∀ p l, ls[p]? = some l → size + p < n → l.deps ≠ [] → ∃ dv, makeRange l.deps (size + p) = some dv ∧ dv ∈ stored o') ∧
    ∀ s ∈ stored o', s ∈ stored o ∨ ∃ p l, ls[p]? = some l ∧ size + p < n ∧ makeRange l.deps (size + p) = some s := by
  induction ls generalizing o size with
  | nil =>
    simp only [extend, Option.some.injEq, Prod.mk.injEq] at h
    obtain ⟨rfl, rfl⟩ := h
    exact ⟨le_refl _, by simp, hz, fun s hs => hs, fun p l hl => by simp at hl, fun s hs => Or.inl hs⟩
  | cons l ls ih =>
    simp only [extend] at h
    split at h
    · cases h
      exact ⟨le_refl _, by simp, hz, fun s hs => hs, fun p l hl hp => by omega, fun s hs => Or.inl hs⟩
    · split at h
      · rename_i hemp
        cases h
        refine ⟨by omega, by simp only [List.length_cons]; omega, hz, fun s hs => hs, fun p l' hl hp hne => ?_,
          fun s hs => Or.inl hs⟩
        have : p = 0 := by omega
        subst this
        simp only [List.getElem?_cons_zero, Option.some.injEq] at hl
        subst hl
        exact (hne (List.isEmpty_iff.1 hemp)).elim
      · cases hm : makeRange l.deps size with
        | none => simp [hm] at h
        | some dv =>
          rw [hm] at h
          dsimp only at h
          have hz' : ∀ d, some ((o.getD .new).push dv) = some d → d.depth = 0 := by
            intro d hd
            cases hd
            cases o with
            | none => simp [Directive.push, Directive.new]
            | some q => simp [Directive.push, hz q rfl]
          have hst : stored (some ((o.getD .new).push dv)) = stored o ++ [dv] := by
            cases o <;> simp [stored, Directive.push, Directive.new]
          split at h
          · cases h
            refine ⟨by omega, by simp only [List.length_cons]; omega, hz', ?_, ?_, ?_⟩
            · intro s hs
              rw [hst]
              exact List.mem_append_left _ hs
            · intro p l' hl hp hne
              have : p = 0 := by omega
              subst this
              simp only [List.getElem?_cons_zero, Option.some.injEq] at hl
              subst hl
              exact ⟨dv, hm, by rw [hst]; simp⟩
            · intro s hs
              rw [hst] at hs
              rcases List.mem_append.1 hs with hs | hs
              · exact Or.inl hs
              · rw [List.mem_singleton.1 hs]
                exact Or.inr ⟨0, l, rfl, by omega, hm⟩
          · obtain ⟨i1, i2, i3, i4, i5, i6⟩ := ih h hz'
            refine ⟨by omega, by simp only [List.length_cons]; omega, i3, ?_, ?_, ?_⟩
            · intro s hs
              apply i4
              rw [hst]
              exact List.mem_append_left _ hs
            · intro p l' hl hp hne
              cases p with
              | zero =>
                simp only [List.getElem?_cons_zero, Option.some.injEq] at hl
                subst hl
                exact ⟨dv, hm, i4 dv (by rw [hst]; simp)⟩
              | succ p =>
                simp only [List.getElem?_cons_succ] at hl
                obtain ⟨dv', h1, h2⟩ := i5 p l' hl (by omega) hne
                exact ⟨dv', by rw [show size + (p + 1) = size + 1 + p by omega]; exact h1, h2⟩
            · intro s hs
              rcases i6 s hs with hs | ⟨p, l', h1, h2, h3⟩
              · rw [hst] at hs
                rcases List.mem_append.1 hs with hs | hs
                · exact Or.inl hs
                · rw [List.mem_singleton.1 hs]
                  exact Or.inr ⟨0, l, rfl, by omega, hm⟩
              · exact Or.inr ⟨p + 1, l', by simpa using h1, by omega, by
                  rw [show size + (p + 1) = size + 1 + p by omega]; exact h3⟩

/-- Vectors of sinks are vectors of stored ranges. -/
theorem sinks_spec {ls : List Level} {S : List (List Int)} {n : Nat} (h : sinks ls = some (S, n)) :
    ∃ o, extend ls none 0 = some (o, n) ∧ ∀ s, s ∈ S ↔ ∃ l ∈ stored o, Fits n l s := by
  unfold sinks build at h
  cases he : extend ls none 0 with
  | none => simp [he] at h
  | some r =>
    obtain ⟨o, m⟩ := r
    rw [he] at h
    obtain ⟨-, -, hz, -⟩ := extend_spec he (by simp)
    cases o with
    | none =>
      simp only [Option.map_some, Option.map_none, Option.some.injEq, Prod.mk.injEq] at h
      obtain ⟨rfl, rfl⟩ := h
      exact ⟨none, rfl, fun s => by simp [stored]⟩
    | some d =>
      have h0 := hz d rfl
      simp only [Option.map_some, Directive.reduce, h0, Nat.not_lt_zero, if_false] at h
      cases hb : buildSinks m d.sink with
      | none => simp [hb] at h
      | some t =>
        simp only [hb, Option.map_some, Option.some.injEq, Prod.mk.injEq] at h
        obtain ⟨rfl, rfl⟩ := h
        exact ⟨some d, rfl, fun s => by rw [mem_buildSinks hb]; simp [stored]⟩

/-- A vector is obtained from zeros and one distance. -/
theorem fits_intro {p n : Nat} {v : Int × Int} {w : List (Int × Int)} {d : Int} (hn : p < n) (hw : n ≤ p + 1 + w.length)
    (hz : ∀ r ∈ w, r = (0, 0)) (hd : d ∈ values v) :
    Fits n (List.replicate p none ++ some v :: w.map some) (List.replicate p 0 ++ d :: List.replicate (n - p - 1) 0) := by
  induction p generalizing n with
  | zero =>
    obtain ⟨n, rfl⟩ : ∃ m, n = m + 1 := ⟨n - 1, by omega⟩
    refine ⟨d, _, rfl, hd, ?_⟩
    simp only [Nat.add_sub_cancel, Nat.sub_zero]
    have hw' : n ≤ w.length := by omega
    clear hw hn
    induction w generalizing n with
    | nil =>
      have : n = 0 := by simpa using hw'
      subst this
      rfl
    | cons r w ih =>
      cases n with
      | zero => rfl
      | succ n =>
        refine ⟨0, List.replicate n 0, rfl, ?_, ih (fun r hr => hz r (List.mem_cons_of_mem _ hr)) n (by simpa using hw')⟩
        rw [hz r List.mem_cons_self]
        decide
  | succ p ih =>
    obtain ⟨n, rfl⟩ : ∃ m, n = m + 1 := ⟨n - 1, by omega⟩
    refine ⟨0, List.replicate p 0 ++ d :: List.replicate (n - p - 1) 0, ?_, rfl, ih (by omega) (by omega)⟩
    rw [show n + 1 - (p + 1) - 1 = n - p - 1 by omega]
    rfl

theorem fits_elim {p n : Nat} {v : Int × Int} {w : List Range} {s : List Int} (hn : p < n)
    (h : Fits n (List.replicate p none ++ some v :: w) s) : ∃ d t, d ∈ values v ∧ s = List.replicate p 0 ++ d :: t := by
  induction p generalizing n s with
  | zero =>
    obtain ⟨n, rfl⟩ : ∃ m, n = m + 1 := ⟨n - 1, by omega⟩
    obtain ⟨d, t, rfl, hd, -⟩ := h
    exact ⟨d, t, hd, rfl⟩
  | succ p ih =>
    obtain ⟨n, rfl⟩ : ∃ m, n = m + 1 := ⟨n - 1, by omega⟩
    obtain ⟨d, t, rfl, h0, h1⟩ := h
    obtain ⟨e, u, h2, rfl⟩ := ih (by omega) h1
    dsimp only at h0
    subst h0
    exact ⟨e, u, h2, rfl⟩

theorem within_zero {w : List (Int × Int)} {ds : List Int} (h : Within w ds) (hz : ∀ r ∈ w, r = (0, 0))
    (hl : ds.length ≤ w.length) : ds = List.replicate ds.length 0 := by
  induction ds generalizing w with
  | nil => rfl
  | cons d ds ih =>
    cases w with
    | nil => simp at hl
    | cons r w =>
      obtain ⟨h1, h2, h3⟩ := h
      rw [hz r List.mem_cons_self] at h1 h2
      have : d = 0 := by
        dsimp only at h1 h2
        omega
      subst this
      rw [List.length_cons, List.replicate_succ, ← ih h3 (fun r hr => hz r (List.mem_cons_of_mem _ hr)) (by simpa using hl)]

theorem add_back {p m : Nat} {d : Int} {b y : List Int} (hy : y.length = p + 1 + m) (hb : b.length = p + 1 + m) :
    List.zipWith (· + ·) b y = List.zipWith (· + ·)
      (List.zipWith (· + ·) b (List.zipWith (· + ·) y (List.replicate p 0 ++ d :: List.replicate m 0)))
      (List.replicate p 0 ++ -d :: List.replicate m 0) := by
  apply List.ext_getElem
  · simp [hy, hb]
    omega
  · intro i h1 h2
    simp only [List.getElem_zipWith]
    have e : ∀ c : Int, ∀ hi, (List.replicate p 0 ++ c :: List.replicate m 0)[i]'hi = if i = p then c else 0 := by
      intro c hi
      rcases Nat.lt_trichotomy i p with h | h | h
      · rw [List.getElem_append_left (by simpa using h)]
        simp [Nat.ne_of_lt h]
      · subst h
        rw [List.getElem_append_right (by simp)]
        simp
      · rw [List.getElem_append_right (by simp; omega)]
        have : i - p ≠ 0 := by omega
        obtain ⟨j, hj⟩ : ∃ j, i - p = j + 1 := ⟨i - p - 1, by omega⟩
        simp [hj, Nat.ne_of_gt h]
    rw [e, e]
    split <;> omega

/-- **C103.** Sinks are inserted for a nest of `n` loops. If distances of dependences are known for all loops of the
nest and they are zero for inner loops, and steps of loops are equal to one, then iterations which are connected by
a dependence are executed one after another in each execution which obeys the directive. -/
theorem ordered_partial {ls : List Level} {S : List (List Int)} {n : Nat} (h : sinks ls = some (S, n))
    (hs : ∀ p l, ls[p]? = some l → p < n → l.Straight (n - p))
    {val : List Int → List Int} {base : List Int} (hbase : base.length = n) {I : List Int → Prop}
    (hI : ∀ k, I k → k.length = n) (hval : ∀ k, I k → val k = List.zipWith (· + ·) base k)
    {t : Timing} (ht : Obeys S val I t) {p : Nat} {l : Level} (hl : ls[p]? = some l) (hp : p < n) {e : Dep}
    (he : e ∈ l.deps) {x y : List Int} (hx : I x) (hy : I y) (hc : e.Connects p y x) : t.finish y ≤ t.start x := by
  obtain ⟨o, ho, hS⟩ := sinks_spec h
  obtain ⟨-, -, -, -, h5, -⟩ := extend_spec ho (by simp)
  simp only [Nat.zero_add] at h5
  obtain ⟨dv, hm, hdv⟩ := h5 p l hl hp fun h0 => by rw [h0] at he; cases he
  obtain ⟨f, ts, r, w, hd, hh, rfl⟩ := makeRange_spec hm
  obtain ⟨ds, rs, hrs, hne, hw, hlen, rfl⟩ := hc
  have hstr := hs p l hl hp
  have hcov : Covers (hull l.deps (initial f)) rs := by
    obtain ⟨c1, c2⟩ := hull_covers (dv := initial f) he
    rcases hrs with rfl | rfl
    · exact c1
    · exact c2
  have hrstr : Straight (n - p) rs := by
    rcases hrs with rfl | rfl
    · exact (hstr e he).1
    · exact (hstr e he).2
  obtain ⟨hr1, hr2⟩ := hrstr hne
  have hflat : Flat (n - p) (hull l.deps (initial f)) := by
    refine hull_flat ?_ hstr
    have hf : f ∈ l.deps := by rw [hd]; exact List.mem_cons_self
    obtain ⟨g1, g2⟩ := hstr f hf
    unfold initial
    split
    · rename_i hemp
      cases ha : f.anti with
      | nil =>
        -- the result is empty if the first dependence has no distances
        exfalso
        have hnil : ∀ deps : List Dep, hull deps [] = [] := by
          intro deps
          induction deps with
          | nil => rfl
          | cons d deps ih =>
            have hu : ∀ dist, update [] dist = [] := fun dist => by unfold update; split <;> simp
            change hull deps (update (update [] d.flow) d.anti) = []
            rw [hu, hu, ih]
        have : initial f = [] := by simp [initial, hemp, ha]
        rw [this, hnil] at hh
        cases hh
      | cons a b =>
        obtain ⟨q1, q2⟩ := g2 (by rw [ha]; simp)
        rw [ha] at q1 q2
        exact ⟨q1, q2⟩
    · rename_i hemp
      obtain ⟨q1, q2⟩ := g1 fun h0 => hemp (List.isEmpty_iff.2 h0)
      exact ⟨q1, q2⟩
  rw [hh] at hflat hcov
  cases rs with
  | nil => exact (hne rfl).elim
  | cons a rs =>
    cases ds with
    | nil =>
      have := hI y hy
      simp at hlen
      omega
    | cons d ds =>
      obtain ⟨w1, w2, w3⟩ := hw
      obtain ⟨v1, v2⟩ := hcov a rs rfl r w rfl
      have hylen := hI y hy
      have hlen' : ds.length + 1 + p = y.length := by simpa using hlen
      have hds := within_zero w3 hr2 (by simp at hr1; omega)
      have hdl : ds.length = n - p - 1 := by omega
      have hwl := hflat.len
      simp only [List.length_cons] at hwl
      have hfit : Fits n (List.replicate p none ++ some (-r.1, -r.2) :: w.map some)
          (List.replicate p 0 ++ -d :: List.replicate (n - p - 1) 0) := by
        refine fits_intro hp (by omega) hflat.zero (mem_values.2 (Or.inr ?_))
        dsimp only
        omega
      refine ht _ _ hx hy _ ((hS _).2 ⟨_, hdv, hfit⟩) ?_
      rw [hval _ hx, hval _ hy, hds, hdl]
      exact add_back (by omega) (by omega)

/-- **C103.** If, moreover, distances are positive then each sink refers to a previous iteration: there are no
deadlocks. -/
theorem ordered_progress_partial {ls : List Level} {S : List (List Int)} {n : Nat} (h : sinks ls = some (S, n))
    (hpos : ∀ p l, ls[p]? = some l → p < n → ∀ e ∈ l.deps, (∀ v w, e.flow = v :: w → 0 < v.1 ∧ 0 < v.2) ∧
      ∀ v w, e.anti = v :: w → 0 < v.1 ∧ 0 < v.2) {s : List Int} (hs : s ∈ S) :
    ∃ p d t, p < n ∧ d < 0 ∧ s = List.replicate p 0 ++ d :: t := by
  obtain ⟨o, ho, hS⟩ := sinks_spec h
  obtain ⟨-, -, -, -, -, h6⟩ := extend_spec ho (by simp)
  simp only [Nat.zero_add] at h6
  obtain ⟨dv, hdv, hfit⟩ := (hS s).1 hs
  rcases h6 dv hdv with h7 | ⟨p, l, hl, hp, hm⟩
  · simp [stored] at h7
  · obtain ⟨f, ts, r, w, hd, hh, rfl⟩ := makeRange_spec hm
    obtain ⟨d, t, h8, rfl⟩ := fits_elim hp hfit
    refine ⟨p, d, t, hp, ?_, rfl⟩
    have hall : ∀ e ∈ l.deps, (∀ v w, e.flow = v :: w → 1 ≤ v.1 ∧ 1 ≤ v.2) ∧
        ∀ v w, e.anti = v :: w → 1 ≤ v.1 ∧ 1 ≤ v.2 := fun e he =>
      ⟨fun v w hv => by have := (hpos p l hl hp e he).1 v w hv; omega,
       fun v w hv => by have := (hpos p l hl hp e he).2 v w hv; omega⟩
    have hf : f ∈ l.deps := by rw [hd]; exact List.mem_cons_self
    have hi : ∀ v w, initial f = v :: w → 1 ≤ v.1 ∧ 1 ≤ v.2 := by
      unfold initial
      split
      · exact (hall f hf).2
      · exact (hall f hf).1
    have := hull_low hi hall r w hh
    have h9 := mem_values.1 h8
    dsimp only at h9
    omega

/-- **C103.** If distances are known for all loops of the nest then construction of the directive has a defined
behaviour. -/
theorem ordered_defined {ls : List Level} (hs : ∀ (p : Nat) (l : Level), ls[p]? = some l → l.Straight (ls.length - p) ∧ l.Known) :
    ∃ r, sinks ls = some r := by
  have hext : ∀ (ts : List Level) (o : Option Directive) (size : Nat),
      (∀ (p : Nat) (l : Level), ts[p]? = some l → l.Straight (ts.length - p) ∧ l.Known) → ∃ r, extend ts o size = some r := by
    intro ts
    induction ts with
    | nil => intro o size _; exact ⟨_, rfl⟩
    | cons l ts ih =>
      intro o size ht
      obtain ⟨h1, h2⟩ := ht 0 l rfl
      simp only [extend]
      split
      · exact ⟨_, rfl⟩
      · split
        · exact ⟨_, rfl⟩
        · rename_i hne
          obtain ⟨dv, hm, -⟩ := makeRange_some (size := size) (by simp) h1 h2 fun h0 => hne (List.isEmpty_iff.2 h0)
          rw [hm]
          dsimp only
          split
          · exact ⟨_, rfl⟩
          · refine ih _ _ fun p l' hl => ?_
            obtain ⟨g1, g2⟩ := ht (p + 1) l' (by simpa using hl)
            exact ⟨by simpa using g1, g2⟩
  obtain ⟨⟨o, n⟩, ho⟩ := hext ls none 0 hs
  obtain ⟨-, h2, h3, -, -, h6⟩ := extend_spec ho (by simp)
  simp only [Nat.zero_add] at h2 h6
  unfold sinks build
  rw [ho]
  cases o with
  | none => exact ⟨_, rfl⟩
  | some d =>
    have h0 := h3 d rfl
    simp only [Option.map_some, Directive.reduce, h0, Nat.not_lt_zero, if_false]
    obtain ⟨t, ht⟩ := buildSinks_some (n := n) (ss := d.sink) (by
      intro s hsm
      rcases h6 s (by simpa [stored] using hsm) with h7 | ⟨p, l, hl, hp, hm⟩
      · simp [stored] at h7
      · obtain ⟨g1, g2⟩ := hs p l hl
        obtain ⟨dv, hm', hlen⟩ := makeRange_some (size := p) (by omega) g1 g2 fun hn => by
          rw [hn] at hm
          cases hm
        rw [hm] at hm'
        cases hm'
        omega)
    rw [ht]
    exact ⟨_, rfl⟩

/-! ## Examples -/

/-- Values of variables are equal to numbers of iterations. -/
def same (k : List Int) : List Int := k

/-- `for (i…) for (j…) A[i][j] = A[i-1][j] + A[i][j-2]`. -/
def demo : List Level :=
  [⟨[⟨[(1, 1), (0, 0)], []⟩], true, true⟩, ⟨[⟨[(2, 2)], []⟩], true, false⟩]

example : sinks demo = some ([[-1, 0], [0, -2]], 2) := by decide

theorem demo_straight : ∀ (p : Nat) (l : Level), demo[p]? = some l → l.Straight (2 - p) ∧ l.Known := by
  intro p l hl
  match p, hl with
  | 0, hl =>
    cases hl
    refine ⟨fun e he => ?_, fun e he => ?_⟩ <;> rw [List.mem_singleton.1 he] <;> simp [Straight]
  | 1, hl =>
    cases hl
    refine ⟨fun e he => ?_, fun e he => ?_⟩ <;> rw [List.mem_singleton.1 he] <;> simp [Straight]
  | p + 2, hl => simp [demo] at hl

example {t : Timing} (ht : Obeys [[-1, 0], [0, -2]] (fun k => List.zipWith (· + ·) [0, 0] k) (fun k => k.length = 2) t) :
    t.finish [3, 5] ≤ t.start [4, 5] ∧ t.finish [3, 5] ≤ t.start [3, 7] :=
  have h : sinks demo = some ([[-1, 0], [0, -2]], 2) := by decide
  ⟨ordered_partial h (fun p l hl _ => (demo_straight p l hl).1) (base := [0, 0]) rfl (fun _ h => h) (fun _ _ => rfl) ht
    (p := 0) rfl (by decide) List.mem_cons_self rfl rfl
    ⟨[1, 0], _, Or.inl rfl, by simp, ⟨by decide, by decide, by decide, by decide, trivial⟩, rfl, rfl⟩,
   ordered_partial h (fun p l hl _ => (demo_straight p l hl).1) (base := [0, 0]) rfl (fun _ h => h) (fun _ _ => rfl) ht
    (p := 1) rfl (by decide) List.mem_cons_self rfl rfl
    ⟨[2], _, Or.inl rfl, by simp, ⟨by decide, by decide, trivial⟩, rfl, rfl⟩⟩

/-- There is an execution which obeys the directive: iterations are executed one after another. -/
example : ∃ t : Timing, Obeys [[-1, 0], [0, -2]] same
    (fun k => k = [3, 5] ∨ k = [4, 5] ∨ k = [3, 7]) t := by
  refine ⟨⟨fun k => if k = [3, 5] then 0 else 2, fun k => if k = [3, 5] then 1 else 3, fun k => by split <;> decide⟩, ?_⟩
  rintro k k' (rfl | rfl | rfl) (rfl | rfl | rfl) s hs <;>
    simp only [List.mem_cons, List.not_mem_nil, or_false] at hs <;> rcases hs with rfl | rfl <;>
    simp (config := { decide := true })

example : ∀ s ∈ ([[-1, 0], [0, -2]] : List (List Int)), ∃ p d t, p < 2 ∧ d < 0 ∧ s = List.replicate p 0 ++ d :: t :=
  fun s hs => ordered_progress_partial (ls := demo) (by decide) (by
    intro p l hl hp e he
    match p, hl with
    | 0, hl =>
      cases hl
      rw [List.mem_singleton.1 he]
      simp
    | 1, hl =>
      cases hl
      rw [List.mem_singleton.1 he]
      simp
    | p + 2, hl => simp [demo] at hl) hs

example : ∃ r, sinks demo = some r := ordered_defined demo_straight

/-! ## Wrong sinks -/

/-- A timing from a list of iterations which start at the second moment. -/
def late (l : List (List Int)) : Timing :=
  ⟨fun k => if l.contains k then 2 else 0, fun k => if l.contains k then 3 else 1, fun k => by split <;> decide⟩

/-- **C103 does not hold** for `A[i][j] = A[i-1][j+1]`: only the first component is negated, the sink is
`(i-1, j-1)`. The iterations `(1, 1)` and `(0, 2)` are dependent, they may be executed at the same time. -/
theorem ordered_inner_fails : ∃ (ls : List Level) (l : Level) (e : Dep) (S : List (List Int)) (t : Timing)
    (I : List Int → Prop), sinks ls = some (S, 2) ∧ ls[0]? = some l ∧ e ∈ l.deps ∧
    Obeys S same I t ∧ I [0, 2] ∧ I [1, 1] ∧ e.Connects 0 [0, 2] [1, 1] ∧ ¬ t.finish [0, 2] ≤ t.start [1, 1] := by
  refine ⟨[⟨[⟨[(1, 1), (-1, -1)], []⟩], true, true⟩, ⟨[], true, false⟩], ⟨[⟨[(1, 1), (-1, -1)], []⟩], true, true⟩,
    ⟨[(1, 1), (-1, -1)], []⟩, [[-1, -1]], late [], fun k => k = [0, 2] ∨ k = [1, 1], by decide, rfl, by simp, ?_,
    Or.inl rfl, Or.inr rfl, ?_, by decide⟩
  · rintro k k' (rfl | rfl) (rfl | rfl) s hs <;> rw [List.mem_singleton.1 hs] <;> simp [same]
  · exact ⟨[1, -1], _, Or.inl rfl, by simp, ⟨by decide, by decide, by decide, by decide, trivial⟩, rfl, rfl⟩

/-- **C103 does not hold** if distances are known for the outer loop only: the depth is equal to the size of the nest,
a range which is out of the list is read. -/
theorem ordered_short_fails : sinks [⟨[⟨[(1, 1)], []⟩], true, true⟩, ⟨[], true, false⟩] = none := by decide

/-- **C103 does not hold** if the step of the loop is not equal to one: distances are numbers of iterations, but they
are subtracted from a variable. The sink of `for (i = 0; …; i += 2) A[i] = A[i-2]` is `i-1`, there is no such
iteration. -/
theorem ordered_step_fails : ∃ (ls : List Level) (l : Level) (e : Dep) (S : List (List Int)) (t : Timing)
    (I : List Int → Prop), sinks ls = some (S, 1) ∧ ls[0]? = some l ∧ e ∈ l.deps ∧ l.Straight 1 ∧
    Obeys S (fun k => k.map (2 * ·)) I t ∧ I [0] ∧ I [1] ∧ e.Connects 0 [0] [1] ∧ ¬ t.finish [0] ≤ t.start [1] := by
  refine ⟨[⟨[⟨[(1, 1)], []⟩], true, false⟩], ⟨[⟨[(1, 1)], []⟩], true, false⟩, ⟨[(1, 1)], []⟩, [[-1]], late [],
    fun k => k = [0] ∨ k = [1], by decide, rfl, by simp, ?_, ?_, Or.inl rfl, Or.inr rfl, ?_, by decide⟩
  · intro e he
    rw [List.mem_singleton.1 he]
    simp [Straight]
  · rintro k k' (rfl | rfl) (rfl | rfl) s hs <;> rw [List.mem_singleton.1 hs] <;> simp
  · exact ⟨[1], _, Or.inl rfl, by simp, ⟨by decide, by decide, trivial⟩, rfl, rfl⟩

end Ordered
end Tsar
