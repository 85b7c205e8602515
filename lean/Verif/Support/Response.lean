import Mathlib.Data.List.Basic
import Mathlib.Data.List.Induction

/-!
# Responses of an analysis server (C66)

Models requests for functions in `AnalysisResponsePass::runOnModule`
(`/repo/include/tsar/Analysis/AnalysisServer.h:247-340`).

Contract of the legacy pass manager of LLVM: there is one object per function pass which a module
pass requires, so an address is identified with the ID of the pass; each call of
`getAnalysis<T>(F)` and `findImplPass(P, ID, F)` executes all these passes for `F` (see also
`/repo/include/tsar/Support/PassProvider.h:28-36`).
-/

namespace Tsar.Response

/-- An element of `ResponseT...`: the ID of the pass and the list of passes it provides if it is a
provider. -/
structure Item where
  id : ℕ
  provides : Option (List ℕ)
  deriving DecidableEq

/-- State: the function for which the function passes have been executed last, and variables
`ActiveFunc` and `ActiveIDs` (`AnalysisServer.h:253-254`). -/
structure State where
  ran : Option ℕ
  active : Option ℕ
  cache : List ℕ
  deriving DecidableEq

/-- Search in the cache (`AnalysisServer.h:274-290`). -/
def lookup (s : State) (f : ℕ) (ids : List ℕ) : List ℕ × State :=
  if s.active = some f then
    if ids.all (· ∈ s.cache) then (ids, s) else ([], { s with cache := [] })
  else ([], { s with active := some f })

/-- Request of one pass (`AnalysisServer.h:296-310`). -/
def single (items : List Item) (s : State) (f : ℕ) (ids : List ℕ) : List ℕ × State :=
  match ids with
  | [id] =>
    if items.any (·.id = id) then ([id], { s with ran := some f, cache := s.cache ++ [id] })
    else ([], s)
  | _ => ([], s)

/-- `FindProvider` (`AnalysisServer.h:203-239`) applied to all elements of the list. -/
def providers (f : ℕ) (ids : List ℕ) : List Item → List ℕ × State → List ℕ × State
  | [], r => r
  | it :: rest, r =>
    providers f ids rest
      (if r.1 = [] then
        match it.provides with
        | some ps =>
          if ids.all (· ∈ ps) then
            (ids, { r.2 with ran := some f, cache := r.2.cache ++ ps })
          else r
        | none => r
      else r)

/-- Processing of a request (`AnalysisServer.h:270-318`); the function has a clone.  An empty list
is a response without data. -/
def respond (items : List Item) (s : State) (f : ℕ) (ids : List ℕ) : List ℕ × State :=
  let r := lookup s f ids
  if r.1 = [] then
    let r' := single items r.2 f ids
    if r'.1 = [] then providers f ids items r' else r'
  else r

/-- State after a sequence of requests. -/
def run (items : List Item) (reqs : List (ℕ × List ℕ)) : State :=
  reqs.foldl (fun s q => (respond items s q.1 q.2).2) ⟨none, none, []⟩

/-! ## Specification -/

/-- The list of passes is available: it is one pass from the list, or there is a provider of all of
them. -/
def Available (items : List Item) (ids : List ℕ) : Prop :=
  (∃ id, ids = [id] ∧ ∃ it ∈ items, it.id = id) ∨
    ∃ it ∈ items, ∃ ps, it.provides = some ps ∧ ∀ id ∈ ids, id ∈ ps

/-! ## Proofs -/

theorem providers_keep (f : ℕ) (ids : List ℕ) (items : List Item) (r : List ℕ × State)
    (h : r.1 ≠ []) : providers f ids items r = r := by
  induction items generalizing r with
  | nil => rfl
  | cons it rest ih =>
    unfold providers
    rw [if_neg h]
    exact ih r h

theorem providers_eq (f : ℕ) {ids : List ℕ} (hne : ids ≠ []) (items : List Item) (s : State) :
    (providers f ids items ([], s)).2.active = s.active ∧
    ((providers f ids items ([], s)).1 = ids ∧ (providers f ids items ([], s)).2.ran = some f ∧
        (∃ it ∈ items, ∃ ps, it.provides = some ps ∧ ∀ id ∈ ids, id ∈ ps) ∨
      (providers f ids items ([], s)).1 = [] ∧ (providers f ids items ([], s)).2 = s ∧
        ¬ ∃ it ∈ items, ∃ ps, it.provides = some ps ∧ ∀ id ∈ ids, id ∈ ps) := by
  induction items with
  | nil => simp [providers]
  | cons it rest ih =>
    unfold providers
    rw [if_pos rfl]
    cases hp : it.provides with
    | none =>
      simp only [List.mem_cons, exists_eq_or_imp, hp, reduceCtorEq, false_and, exists_const,
        false_or]
      exact ih
    | some ps =>
      by_cases hall : ids.all (· ∈ ps)
      · simp only [hall, if_true]
        rw [providers_keep _ _ _ _ hne]
        refine ⟨rfl, .inl ⟨rfl, rfl, it, by simp, ps, hp, ?_⟩⟩
        simpa using hall
      · simp only [hall, Bool.false_eq_true, if_false]
        have hn : ¬ ∀ id ∈ ids, id ∈ ps := by simpa using hall
        simp only [List.mem_cons, exists_eq_or_imp, hp, Option.some.injEq, exists_eq_left', hn,
          false_or]
        exact ih

theorem single_eq (items : List Item) (s : State) (f : ℕ) (ids : List ℕ) :
    (single items s f ids).2.active = s.active ∧
    ((single items s f ids).1 = ids ∧ ids ≠ [] ∧ (single items s f ids).2.ran = some f ∧
        (∃ id, ids = [id] ∧ ∃ it ∈ items, it.id = id) ∨
      (single items s f ids).1 = [] ∧ (single items s f ids).2 = s ∧
        ¬ ∃ id, ids = [id] ∧ ∃ it ∈ items, it.id = id) := by
  unfold single
  split
  · rename_i id
    by_cases h : items.any (·.id = id)
    · rw [if_pos h]
      refine ⟨rfl, .inl ⟨rfl, by simp, rfl, id, rfl, ?_⟩⟩
      simpa using h
    · rw [if_neg h]
      refine ⟨rfl, .inr ⟨rfl, rfl, ?_⟩⟩
      rintro ⟨id', he, it, hm, hi⟩
      simp only [List.cons.injEq, and_true] at he
      subst he
      exact h (by simpa using ⟨it, hm, hi⟩)
  · rename_i hno
    refine ⟨rfl, .inr ⟨rfl, rfl, ?_⟩⟩
    rintro ⟨id, he, _⟩
    exact hno id he

/-- What one request does. -/
theorem respond_eq (items : List Item) (s : State) (f : ℕ) {ids : List ℕ} (hne : ids ≠ []) :
    (respond items s f ids).2.active = some f ∧
    ((respond items s f ids).1 = ids ∧
        ((respond items s f ids).2.ran = some f ∧ Available items ids ∨
          s.active = some f ∧ (∀ id ∈ ids, id ∈ s.cache) ∧ (respond items s f ids).2.ran = s.ran) ∨
      (respond items s f ids).1 = [] ∧ (respond items s f ids).2.ran = s.ran ∧
        ¬ Available items ids) := by
  unfold respond
  have miss : ∀ s1 : State, s1.active = some f → s1.ran = s.ran →
      let r' := single items s1 f ids
      let r := if r'.1 = [] then providers f ids items r' else r'
      r.2.active = some f ∧ (r.1 = ids ∧ r.2.ran = some f ∧ Available items ids ∨
        r.1 = [] ∧ r.2.ran = s.ran ∧ ¬ Available items ids) := by
    intro s1 ha hr
    obtain ⟨h0, h⟩ := single_eq items s1 f ids
    rcases h with ⟨h1, _, h2, h3⟩ | ⟨h1, h2, h3⟩
    · simp only [h1, hne, if_false]
      exact ⟨h0.trans ha, .inl ⟨trivial, h2, .inl h3⟩⟩
    · have he : single items s1 f ids = ([], s1) := Prod.ext h1 h2
      simp only [he, if_true]
      obtain ⟨g0, g⟩ := providers_eq f hne items s1
      refine ⟨g0.trans ha, ?_⟩
      rcases g with ⟨g1, g2, g3⟩ | ⟨g1, g2, g3⟩
      · exact .inl ⟨g1, g2, .inr g3⟩
      · refine .inr ⟨g1, by rw [g2, hr], ?_⟩
        rintro (h | h)
        · exact h3 h
        · exact g3 h
  unfold lookup
  by_cases ha : s.active = some f
  · by_cases hc : ids.all (· ∈ s.cache)
    · simp only [ha, hc, if_true, hne, if_false]
      refine ⟨trivial, .inl ⟨trivial, .inr ⟨trivial, ?_, trivial⟩⟩⟩
      simpa using hc
    · simp only [ha, hc, if_true, Bool.false_eq_true, if_false]
      obtain ⟨h1, h2 | h2⟩ := miss ⟨s.ran, some f, []⟩ rfl rfl
      · exact ⟨h1, .inl ⟨h2.1, .inl h2.2⟩⟩
      · exact ⟨h1, .inr h2⟩
  · simp only [ha, if_false, if_true]
    obtain ⟨h1, h2 | h2⟩ := miss { s with active := some f } rfl rfl
    · exact ⟨h1, .inl ⟨h2.1, .inl h2.2⟩⟩
    · exact ⟨h1, .inr h2⟩

theorem run_snoc (items : List Item) (reqs : List (ℕ × List ℕ)) (q : ℕ × List ℕ) :
    run items (reqs ++ [q]) = (respond items (run items reqs) q.1 q.2).2 := by
  simp [run]

/-- **C66**, the parts which hold for every history of requests: a response is empty or consists of
the requested passes in the requested order, and it is not empty if the passes are available. -/
theorem respond_form (items : List Item) (reqs : List (ℕ × List ℕ)) (f : ℕ) {ids : List ℕ}
    (hne : ids ≠ []) :
    ((respond items (run items reqs) f ids).1 = ids ∨
      (respond items (run items reqs) f ids).1 = []) ∧
    (Available items ids → (respond items (run items reqs) f ids).1 = ids) := by
  obtain ⟨_, ⟨h, _⟩ | ⟨h, _, hn⟩⟩ := respond_eq items (run items reqs) f hne
  · exact ⟨.inl h, fun _ => h⟩
  · exact ⟨.inr h, fun ha => absurd ha hn⟩

/-- In a history of requests each of which was available, passes have been executed for the active
function. -/
theorem ran_active (items : List Item) (reqs : List (ℕ × List ℕ))
    (h : ∀ q ∈ reqs, q.2 ≠ [] ∧ Available items q.2) :
    (run items reqs).ran = (run items reqs).active := by
  induction reqs using List.reverseRecOn with
  | nil => rfl
  | append_singleton reqs q ih =>
    rw [run_snoc]
    obtain ⟨hne, hav⟩ := h q (by simp)
    have ih := ih fun q hq => h q (List.mem_append_left _ hq)
    obtain ⟨ha, ⟨_, ⟨hr, _⟩ | ⟨h1, _, h2⟩⟩ | ⟨_, _, hn⟩⟩ :=
      respond_eq items (run items reqs) q.1 hne
    · rw [ha, hr]
    · rw [ha, h2, ih, h1]
    · exact absurd hav hn

/-- **C66**, the part which holds: if all previous requests were for available passes, then each
response which is not empty refers to passes which hold results for the requested function.
Missing: a history with a request for passes which are not available (`respond_fails`). -/
theorem respond_partial (items : List Item) (reqs : List (ℕ × List ℕ))
    (h : ∀ q ∈ reqs, q.2 ≠ [] ∧ Available items q.2) (f : ℕ) {ids : List ℕ} (hne : ids ≠ [])
    (hr : (respond items (run items reqs) f ids).1 ≠ []) :
    (respond items (run items reqs) f ids).1 = ids ∧
      (respond items (run items reqs) f ids).2.ran = some f := by
  have hi := ran_active items reqs h
  obtain ⟨_, ⟨h1, ⟨h2, _⟩ | ⟨h2, _, h3⟩⟩ | ⟨h1, _⟩⟩ := respond_eq items (run items reqs) f hne
  · exact ⟨h1, h2⟩
  · exact ⟨h1, by rw [h3, hi, h2]⟩
  · exact absurd h1 hr

/-- Two passes and a provider of two other passes. -/
def exItems : List Item := [⟨1, none⟩, ⟨2, none⟩, ⟨9, some [3, 4]⟩]

example : (∀ q ∈ [(10, [3]), (20, [1]), (20, [4, 3])], q.2 ≠ [] ∧ Available exItems q.2) ∧
    (respond exItems (run exItems [(10, [3]), (20, [1]), (20, [4, 3])]) 20 [3]).1 ≠ [] := by
  refine ⟨?_, by decide⟩
  intro q hq
  simp only [List.mem_cons, List.not_mem_nil, or_false] at hq
  rcases hq with rfl | rfl | rfl
  · exact ⟨by simp, .inr ⟨⟨9, some [3, 4]⟩, by simp [exItems], [3, 4], rfl, by simp⟩⟩
  · exact ⟨by simp, .inl ⟨1, rfl, ⟨1, none⟩, by simp [exItems], rfl⟩⟩
  · exact ⟨by simp, .inr ⟨⟨9, some [3, 4]⟩, by simp [exItems], [3, 4], rfl, by simp⟩⟩

/-- The full property C66 is false for every server which has at least one pass: after a request of
this pass for one function and a request of unavailable passes for another function, the pass is
returned as a result for the second function although it has been executed for the first one. -/
theorem respond_fails (items : List Item) {it : Item} (hit : it ∈ items) {bad : List ℕ}
    (hb : bad ≠ []) (hbad : ¬ Available items bad) {f g : ℕ} (hfg : f ≠ g) :
    (respond items (run items [(f, [it.id]), (g, bad)]) g [it.id]).1 = [it.id] ∧
      (respond items (run items [(f, [it.id]), (g, bad)]) g [it.id]).2.ran = some f := by
  have hany : items.any (·.id = it.id) := by simpa using ⟨it, hit, rfl⟩
  have h1 : (respond items ⟨none, none, []⟩ f [it.id]).2 = ⟨some f, some f, [it.id]⟩ := by
    unfold respond lookup single
    simp [hany]
  have h2 : (respond items ⟨some f, some f, [it.id]⟩ g bad).2 = ⟨some f, some g, [it.id]⟩ := by
    unfold respond lookup
    have hne : ¬ (some f = some g) := by simpa using hfg
    simp only [hne, if_false, if_true]
    obtain ⟨_, ⟨_, _, _, h⟩ | ⟨e1, e2, _⟩⟩ :=
      single_eq items ⟨some f, some g, [it.id]⟩ g bad
    · exact absurd (.inl h) hbad
    · have he : single items ⟨some f, some g, [it.id]⟩ g bad = ([], ⟨some f, some g, [it.id]⟩) :=
        Prod.ext e1 e2
      rw [he]
      simp only [if_true]
      obtain ⟨_, ⟨_, _, h⟩ | ⟨_, e, _⟩⟩ :=
        providers_eq g hb items ⟨some f, some g, [it.id]⟩
      · exact absurd (.inr h) hbad
      · exact e
  have h3 : run items [(f, [it.id]), (g, bad)] = ⟨some f, some g, [it.id]⟩ := by
    simp only [run, List.foldl_cons, List.foldl_nil, h1, h2]
  rw [h3]
  unfold respond lookup
  simp

example : ¬ Available exItems [1, 2] := by
  rintro (⟨id, h, _⟩ | ⟨it, hit, ps, hp, h⟩)
  · simp at h
  · simp only [exItems, List.mem_cons, List.not_mem_nil, or_false] at hit
    rcases hit with rfl | rfl | rfl <;> simp at hp
    subst hp
    simpa using h 1 (by simp)

end Tsar.Response
