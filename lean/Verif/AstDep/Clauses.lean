import Verif.AstDep.Props
import Verif.AstDep.Sound
import Verif.Parallel.Props
import Verif.Parallel.Combine

/-!
# A loop with inserted directives (C100)

Models the part of `lib/Transform/Clang/OpenMPAutoPar.cpp` which builds clauses of a directive for a single loop, and
relates results of the analysis with parallel execution of the loop.
-/

set_option linter.unusedSectionVars false

namespace Tsar
namespace AstDep

open BitTrait Parallel

variable {M N V W L A : Type} [DecidableEq M] [DecidableEq N] [DecidableEq V] [DecidableEq W] [DecidableEq L]

/-! ## Model -/

/-- `OMPForDirective::ClauseList` (OpenMPAutoPar.cpp:73-103) as names which are printed by `ClausePrinter`
(OpenMPAutoPar.cpp:191-252). -/
structure Clauses where
  priv : List String
  first : List String
  last : List String
  red : RedKind → List String

/-- `exploitParallelism` (OpenMPAutoPar.cpp:498-578) if a directive for an outer loop does not exist. A loop with
regular dependences is not modelled, the result is `none` for it. -/
def exploit (c : Ctx M N W) (s : St M N V W) : Option Clauses :=
  if s.inds.length ≠ 1 then none
  else if !s.deps.isEmpty then none
  else
    let names := fun d => (s.lists d).map fun p => c.name p.1
    some ⟨names .priv, names .first, names .last, fun k => names (.red k)⟩

/-! ## Specification -/

/-- How a variable from a clause is treated. -/
def Clauses.treat (cl : Clauses) (x : String) : Cls :=
  if cl.priv.contains x then .priv false false
  else
    match redKinds.find? fun k => (cl.red k).contains x with
    | some k => .red k
    | none =>
      if cl.first.contains x || cl.last.contains x then .priv (cl.first.contains x) (cl.last.contains x)
      else .shared

/-- What is known about the source code and the memory of a loop: a variable which owns a cell, a variable which is
visible in a directive with the specified name, whether a variable has automatic storage duration. -/
structure View (L W : Type) where
  owner : L → Option W
  vis : String → Option W
  auto : W → Bool

/-- How a cell is treated in a parallel loop: the loop variable is private, automatic variables which are declared in
the loop exist for each iteration separately, other variables are treated according to clauses if they are visible
at the directive, and all the rest is shared. -/
def treat (c : Ctx M N W) (r : Src W) (v : View L W) (P : Loop L A) (cl : Clauses) (l : L) : Cls :=
  if (P.hdr l).isSome then .loopVar
  else
    match v.owner l with
    | none => .shared
    | some w =>
      if (r.init ++ r.decls).contains w then (if v.auto w then .priv false false else .shared)
      else if v.vis (c.name w) ≠ some w then .shared
      else cl.treat (c.name w)

/-- What traits of a location mean for its cell `l`; `observed` if the value of the cell is used after the loop. -/
structure Means (O : Ops A) (P : Loop L A) (σ : L → A) (observed : Prop) (d : Dptr) (e : Elem M N V) (l : L) :
    Prop where
  noAccess : d.dep .noAccess = true → ∀ i < P.n, ¬ Accesses O P σ i l
  readonly : d.dep .readonly = true → NeverWritten O P σ l
  shared : d.dep .shared = true → Independent O P σ l
  priv : d.dep .priv = true → ¬ Shares d → WriteFirst O P σ l ∧ ¬ observed
  reduction : d.dep .reduction = true → ∀ k, e.reduction = some k → OnlyUpdates O P σ k l
  copied : (d.dep .firstPrivate = true ∨ d.dep .secondToLastPrivate = true) → ¬ Shares d →
    (d.dep .firstPrivate = true ∧ NeverWritten O P σ l) ∨
    (WriteFirst O P σ l ∧ (d.dep .secondToLastPrivate = true → LastAssigns O P σ l) ∧
      (d.dep .secondToLastPrivate = false → ¬ observed))

/-- Results of the analysis `ds` are right. `cell m l` if a location contains a cell. -/
structure Right (O : Ops A) (P : Loop L A) (σ : L → A) (c : Ctx M N W) (v : View L W) (cell : M → L → Prop)
    (observed : L → Prop) (tree : Tree N) (ds : List (Entry M N V)) : Prop where
  /-- All accesses are known. -/
  sees : ∀ i < P.n, ∀ l, P.hdr l = none → Accesses O P σ i l →
    ∃ E ∈ ds, E.node ∈ coverage false tree ds ∧ ∃ e ∈ E.elems, cell e.mem l
  /-- Traits are not contradictory and they hold. -/
  legal : ∀ E ∈ ds, E.node ∈ coverage false tree ds → Legal E.dptr
  means : ∀ E ∈ ds, E.node ∈ coverage false tree ds → ∀ e ∈ E.elems, ∀ l, cell e.mem l →
    Means O P σ (observed l) E.dptr e l
  /-- Distances are attached to dependences only. -/
  attached : ∀ E ∈ ds, ∀ e ∈ E.elems, (e.flow.isSome = true → e.dptr.dep .flow = true) ∧
    (e.anti.isSome = true → e.dptr.dep .anti = true)
  /-- Cells of a whole variable. -/
  whole : ∀ m w, Whole c m w → ∀ l, cell m l ↔ v.owner l = some w
  /-- A variable is accessed without its name only if its address is known or it is accessible in a called function
  with unknown effects or in the same node as other locations. -/
  outside : ∀ E ∈ ds, E.node ∈ coverage false tree ds → ∀ e ∈ E.elems, ∀ w, Whole c e.mem w →
    ∀ l, v.owner l = some w → ∀ i < P.n, ∀ a ∈ P.acts O σ i, a.loc = l → a.direct = false →
    E.dptr.unit .addressAccess = true ∨ 1 < E.elems.length ∨
    (IsGlobal c e.mem ∧ ∃ E' ∈ ds, E'.dptr.unit .directAccess = true ∧ ∃ e' ∈ E'.elems,
      e'.dptr.unit .directAccess = true ∧ (∃ x, c.desc e'.mem = .unknown x true) ∧
      c.unreachable E.node e'.node = false)

/-- The source code of a loop corresponds to the loop. -/
structure Source (O : Ops A) (P : Loop L A) (σ : L → A) (c : Ctx M N W) (v : View L W) (observed : L → Prop)
    (r : Src W) : Prop where
  header : ∀ l, P.hdr l ≠ none ↔ ∃ w, v.owner l = some w ∧ r.loopVar = some w
  /-- The loop variable is not changed in the loop. -/
  loopVar : ∀ l, P.hdr l ≠ none → NeverWritten O P σ l ∧
    ∀ i < P.n, ∀ a ∈ P.acts O σ i, a.loc = l → a.direct = true
  /-- An automatic variable which is declared in the loop is initialized at each iteration. -/
  declared : ∀ l w, v.owner l = some w → w ∈ r.init ++ r.decls → v.auto w = true → P.hdr l = none →
    WriteFirst O P σ l ∧ (∀ i < P.n, ∀ a ∈ P.acts O σ i, a.loc = l → a.direct = true) ∧ ¬ observed l
  visible : ∀ w ∈ r.refs, w ∉ r.init ++ r.decls → v.vis (c.name w) = some w

/-- Cases in which the code is right: there are no locations which are assigned by the last incomplete iteration only,
a location which is not shared is known, and if it is related with a variable which is declared in the loop then it is
this variable, which is automatic; the loop variable is not used after the loop. -/
structure Plain (P : Loop L A) (c : Ctx M N W) (v : View L W) (observed : L → Prop) (r : Src W) (tree : Tree N)
    (ds : List (Entry M N V)) : Prop where
  unused : ∀ l, P.hdr l ≠ none → ¬ observed l
  auto : ∀ w ∈ r.init ++ r.decls, v.auto w = true
  last : ∀ E ∈ ds, E.node ∈ coverage false tree ds → ¬ Shares E.dptr → E.dptr.dep .lastPrivate = false
  known : ∀ E ∈ ds, E.node ∈ coverage false tree ds → ¬ Shares E.dptr → ∀ e ∈ E.elems, ¬ Hidden c e.mem
  inner : ∀ E ∈ ds, E.node ∈ coverage false tree ds → ¬ Shares E.dptr → ∀ e ∈ E.elems, ∀ w, VarOf c e.mem w →
    w ∈ r.init ++ r.decls → Whole c e.mem w

/-! ## Proof -/

theorem VarOf.unique {c : Ctx M N W} {m : M} {w w' : W} (h : VarOf c m w) (h' : VarOf c m w') : w = w' := by
  obtain ⟨v, e, s, t, h1, h2⟩ := h
  obtain ⟨v', e', s', t', h1', h2'⟩ := h'
  rw [h1] at h1'
  cases h1'
  rw [h2] at h2'
  exact Option.some.inj h2'

theorem Whole.varOf {c : Ctx M N W} {m : M} {w : W} (h : Whole c m w) : VarOf c m w := by
  obtain ⟨v, e, s, t, h1, h2, _⟩ := h
  exact ⟨v, e, s, t, h1, h2⟩

theorem considered_no {tree : Tree N} {ds : List (Entry M N V)} {E : Entry M N V} {t : Dptr}
    (h : Considered .no tree ds E t) : E ∈ ds ∧ E.node ∈ coverage false tree ds ∧ t = E.dptr := by
  obtain ⟨h1, h2 | h2⟩ := h
  · exact ⟨h1, h2.1, h2.2⟩
  · exact (h2.1 rfl).elim

section
variable {O : Ops A} {P : Loop L A} {σ : L → A} {c : Ctx M N W} {v : View L W} {cell : M → L → Prop}
  {observed : L → Prop} {tree : Tree N} {ds : List (Entry M N V)} {r : Src W} {s : St M N V W}

/-- A reason for a visible variable to be in a list. -/
theorem listed (he : evaluateDependency c .no tree ds r = (true, s)) (hR : Right O P σ c v cell observed tree ds)
    (hS : Source O P σ c v observed r) (hv : checkDeps (coverage false tree ds) ds = some true) {d : Dest}
    (hd : d ≠ .loc ∧ d ≠ .stub) {w : W} {l : L} (ho : v.owner l = some w) (hvis : v.vis (c.name w) = some w)
    (hn : c.name w ∈ (s.lists d).map fun p => c.name p.1) :
    ∃ E ∈ ds, E.node ∈ coverage false tree ds ∧ ¬ Shares E.dptr ∧ ∃ e ∈ E.elems, Whole c e.mem w ∧
      TraitFor E.dptr e d ∧ Means O P σ (observed l) E.dptr e l ∧
      ∀ i < P.n, ∀ a ∈ P.acts O σ i, a.loc = l → a.direct = true := by
  obtain ⟨p, hp, hpn⟩ := List.mem_map.1 hn
  obtain ⟨h1, h2, h3, E, t, hc, hsh, ⟨e, hee, hem, htr⟩, hg⟩ := evaluate_reason he hd (w := p.1) (m := p.2) hp
  have hw : p.1 = w := by
    have := hS.visible p.1 h3 h2
    rw [hpn, hvis] at this
    exact (Option.some.inj this).symm
  rw [hw] at h1
  obtain ⟨hE, hcov, rfl⟩ := considered_no hc
  refine ⟨E, hE, hcov, hsh, e, hee, hem ▸ h1, htr, hR.means E hE hcov e hee l ?_, ?_⟩
  · rw [hem]; exact (hR.whole p.2 w h1 l).2 ho
  · intro i hi a ha hal
    by_contra hdir
    obtain ⟨k1, k2, k3, k4, k5⟩ := checkDeps_spec _ ds hv E hE hcov
    rcases hR.outside E hE hcov e hee w (hem ▸ h1) l ho i hi a ha hal (by simpa using hdir) with h | h | ⟨h, hx⟩
    · rw [k1] at h; cases h
    · exact hsh (k4 h)
    · obtain ⟨E', hE', hu, e', he', hu', hunk, hur⟩ := hx
      rw [hg (hem ▸ h) E' hE' hu e' he' hu' hunk] at hur
      cases hur

/-- The variable of a copied location is treated separately. -/
theorem copied_treat (hR : Right O P σ c v cell observed tree ds) (hP : Plain P c v observed r tree ds)
    (hS : Source O P σ c v observed r) (hl : s.locals = r.init ++ r.decls)
    (hrefs : ∀ w ∈ s.refs.map Prod.fst, w ∈ r.refs) {d : Dest} {E : Entry M N V} (hE : E ∈ ds)
    (hcov : E.node ∈ coverage false tree ds) (hsh : ¬ Shares E.dptr) {e : Elem M N V} (hee : e ∈ E.elems) {l : L}
    (hcell : cell e.mem l) (h : Copied c s d E.node e.mem) : ∃ w, v.owner l = some w ∧
      (w ∈ r.init ++ r.decls ∨ (w ∉ r.init ++ r.decls ∧ v.vis (c.name w) = some w ∧
        c.name w ∈ (s.lists d).map fun p => c.name p.1)) := by
  rcases h with h | ⟨w, h1, h2⟩ | ⟨w, h1, h2, h3, ⟨p, hp, hpn⟩, _⟩
  · exact (hP.known E hE hcov hsh e hee h).elim
  · rw [hl] at h2
    exact ⟨w, (hR.whole _ _ (hP.inner E hE hcov hsh e hee w h1 h2) l).1 hcell, Or.inl h2⟩
  · rw [hl] at h2
    exact ⟨w, (hR.whole _ _ h1 l).1 hcell, Or.inr ⟨h2, hS.visible w (hrefs w h3) h2,
      List.mem_map.2 ⟨p, hp, hpn⟩⟩⟩

theorem refs_subset (he : evaluateDependency c .no tree ds r = (true, s)) :
    ∀ w ∈ s.refs.map Prod.fst, w ∈ r.refs := by
  obtain ⟨ind, hi, hle, -⟩ := evaluate_parts he
  have hl : Le (traverse c r St.empty) (analyzed c .no tree ds r ind) :=
    foldl_le (entryStep_le c ind .no _ _) ds _
  intro w hw
  rw [hle.refs, hl.refs] at hw
  rcases (visitAll (c := c) r.refs ([] : List (W × List (Derived M))) (fun p hp => by cases hp)).2.2.1 w hw with h | h
  · cases h
  · exact h

theorem mem_redKinds {k : RedKind} (h : k ≠ .noReduction) : k ∈ redKinds := by
  cases k <;> first | exact (h rfl).elim | decide

/-- A variable which is listed in one of clauses is not shared. -/
theorem treat_listed {cl : Clauses} {x : String} (h : x ∈ cl.priv ∨ x ∈ cl.first ∨ x ∈ cl.last ∨
    ∃ k, k ≠ .noReduction ∧ x ∈ cl.red k) : cl.treat x ≠ .shared := by
  unfold Clauses.treat
  split
  · intro e; cases e
  · rename_i hp
    split
    · intro e; cases e
    · rename_i hr
      split
      · intro e; cases e
      · rename_i hf
        rcases h with h | h | h | ⟨k, hk, h⟩
        · exact (hp (by simpa using h)).elim
        · exact (hf (by simp [h])).elim
        · exact (hf (by simp [h])).elim
        · have := List.find?_eq_none.1 hr k (mem_redKinds hk)
          simp [h] at this

/-- Clauses correspond to lists. -/
theorem exploit_some {cl : Clauses} (h : exploit c s = some cl) : s.inds.length = 1 ∧ s.deps = [] ∧
    cl.priv = (s.lists .priv).map (fun p => c.name p.1) ∧ cl.first = (s.lists .first).map (fun p => c.name p.1) ∧
    cl.last = (s.lists .last).map (fun p => c.name p.1) ∧
    ∀ k, cl.red k = (s.lists (.red k)).map fun p => c.name p.1 := by
  unfold exploit at h
  split at h
  · cases h
  · rename_i h1
    split at h
    · cases h
    · rename_i h2
      cases h
      refine ⟨by simpa using h1, by simpa using h2, rfl, rfl, rfl, fun _ => rfl⟩

/-- A cell which is not shared is treated separately. -/
theorem not_shared (hv : checkDeps (coverage false tree ds) ds = some true)
    (he : evaluateDependency c .no tree ds r = (true, s)) {cl : Clauses} (hx : exploit c s = some cl)
    (hR : Right O P σ c v cell observed tree ds) (hS : Source O P σ c v observed r) (hP : Plain P c v observed r tree ds)
    {E : Entry M N V} (hE : E ∈ ds) (hcov : E.node ∈ coverage false tree ds) (hsh : ¬ Shares E.dptr)
    {e : Elem M N V} (hee : e ∈ E.elems) {l : L} (hcell : cell e.mem l)
    (hacc : ∃ i < P.n, Accesses O P σ i l) : treat c r v P cl l ≠ .shared := by
  obtain ⟨ind, hind, hloc, hH⟩ := evaluate_handled he
  have hH := hH E hE (by simpa using hcov)
  have hrefs := refs_subset he
  obtain ⟨-, hdeps, x1, x2, x3, x4⟩ := exploit_some hx
  obtain ⟨k1, k2, k3, k4, f, rest, hf, hbad⟩ := checkDeps_spec _ ds hv E hE hcov
  obtain ⟨⟨a, ha⟩, u, hu, hleg⟩ := hR.legal E hE hcov
  have hM := hR.means E hE hcov e hee l hcell
  -- a copied location
  have hcopy : ∀ d, (∀ x, x ∈ (s.lists d).map (fun p => c.name p.1) → x ∈ cl.priv ∨ x ∈ cl.first ∨ x ∈ cl.last ∨
      ∃ k, k ≠ .noReduction ∧ x ∈ cl.red k) → Copied c s d E.node e.mem → treat c r v P cl l ≠ .shared := by
    intro d hd hc
    obtain ⟨w, hw, h⟩ := copied_treat hR hP hS hloc hrefs hE hcov hsh hee hcell hc
    unfold treat
    split
    · intro e; cases e
    · rename_i hh
      have hnone : P.hdr l = none := by simpa using hh
      rw [hw]
      simp only
      rcases h with h | ⟨h1, h2, h3⟩
      · rw [if_pos (by simpa using h), if_pos (hP.auto w h)]
        intro e; cases e
      · rw [if_neg (by simpa using h1), if_neg (by simpa using h2)]
        exact treat_listed (hd _ h3)
  have hind' : E.dptr.dep .induction = true → treat c r v P cl l ≠ .shared := by
    intro hi
    obtain ⟨g1, g2⟩ := hH.induction hsh hi e hee
    have hwh : Whole c e.mem ind := by
      rcases g2 with g2 | g2
      · rw [hloc] at g2
        exact hP.inner E hE hcov hsh e hee ind g1 g2
      · exact g2
    have ho := (hR.whole _ _ hwh l).1 hcell
    have : P.hdr l ≠ none := (hS.header l).2 ⟨ind, ho, hind⟩
    unfold treat
    rw [if_pos (by simpa [Option.isSome_iff_ne_none] using this)]
    intro e; cases e
  by_cases h0 : E.dptr.dep .noAccess = true
  · obtain ⟨i, hi, h⟩ := hacc
    exact (hM.noAccess h0 i hi h).elim
  by_cases h1 : E.dptr.dep .induction = true
  · exact hind' h1
  by_cases h2 : E.dptr.dep .priv = true
  · exact hcopy .priv (fun x h => Or.inl (x1 ▸ h)) (hH.priv hsh (by simpa using h1) h2 e hee)
  by_cases h3 : E.dptr.dep .reduction = true
  · rcases hH.reduction hsh (by simpa using h1) (by simpa using h2) h3 with h | ⟨k, hk, h⟩
    · rw [h] at hee; cases hee
    · exact hcopy (.red k) (fun x h => Or.inr (Or.inr (Or.inr ⟨k, hk, by rw [x4]; exact h⟩))) (h e hee).2
  have hsh' : E.dptr.dep .shared = false ∧ E.dptr.dep .readonly = false := by simpa [Shares] using hsh
  have hone : e = f := by
    have : ¬ 1 < E.elems.length := fun h => hsh (k4 h)
    rw [hf] at this hee
    cases rest with
    | nil => simpa using hee
    | cons y rest => simp at this
  by_cases h4 : E.dptr.dep .anti = true ∨ E.dptr.dep .flow = true
  · obtain ⟨q1, q2⟩ := hR.attached E hE e hee
    rw [← hone] at hbad
    simp only [badElem, Bool.or_eq_false_iff, Bool.and_eq_false_iff] at hbad
    rcases hH.dependence hsh (by simpa using h1) (by simpa using h2) (by simpa using h3) h4 k2 e hee with h | h | h
    · have := q1 (by rw [h]; rfl)
      rcases hbad.1.2 with hb | hb
      · rw [this] at hb; cases hb
      · rw [h] at hb; cases hb
    · have := q2 (by rw [h]; rfl)
      rcases hbad.2 with hb | hb
      · rw [this] at hb; cases hb
      · rw [h] at hb; cases hb
    · obtain ⟨_, _, _, _, _, p, hp, _⟩ := h
      rw [hdeps] at hp; cases hp
  have h4' : E.dptr.dep .output = true ∨ (E.dptr.dep .anti = false ∧ E.dptr.dep .flow = false) := by
    right; simpa using h4
  by_cases h5 : E.dptr.dep .secondToLastPrivate = true
  · exact hcopy .last (fun x h => Or.inr (Or.inr (Or.inl (x3 ▸ h))))
      (hH.last hsh (by simpa using h1) (by simpa using h2) (by simpa using h3) h4' h5 e hee)
  by_cases h6 : E.dptr.dep .firstPrivate = true
  · exact hcopy .first (fun x h => Or.inr (Or.inl (x2 ▸ h)))
      (hH.first hsh (by simpa using h1) (by simpa using h2) (by simpa using h3) h4' h6 e hee)
  have h7 := hP.last E hE hcov hsh
  have h8 : E.dptr.dep .dynamicPrivate ≠ true := fun h => by
    have := k3 h; rw [hsh'.1] at this; cases this
  simp only [not_or, Bool.not_eq_true] at h4
  have hno : ∀ {t : DepTrait}, E.dptr.dep t = false → E.dptr.dep t ≠ true := fun h h' => by rw [h] at h'; cases h'
  cases a with
  | noAccess => exact (h0 ha).elim
  | readonly => exact (hno hsh'.2 ha).elim
  | reduction => exact (h3 ha).elim
  | induction => exact (h1 ha).elim
  | flow => exact (hno h4.2 ha).elim
  | anti => exact (hno h4.1 ha).elim
  | output => exact (hno k2 ha).elim
  | priv => exact (h2 ha).elim
  | shared => exact (hno hsh'.1 ha).elim
  | lastPrivate => exact (hno h7 ha).elim
  | firstPrivate => exact (h6 ha).elim
  | secondToLastPrivate => exact (h5 ha).elim
  | dynamicPrivate => exact (h8 ha).elim

theorem treat_cases {cl : Clauses} (l : L) :
    ((P.hdr l ≠ none) ∧ treat c r v P cl l = .loopVar) ∨
    (P.hdr l = none ∧ treat c r v P cl l = .shared) ∨
    (∃ w, P.hdr l = none ∧ v.owner l = some w ∧ w ∈ r.init ++ r.decls ∧ treat c r v P cl l = .priv false false) ∨
    ∃ w, P.hdr l = none ∧ v.owner l = some w ∧ w ∉ r.init ++ r.decls ∧ v.vis (c.name w) = some w ∧
      treat c r v P cl l = cl.treat (c.name w) := by
  unfold treat
  split
  · rename_i h
    left
    exact ⟨by simpa [Option.isSome_iff_ne_none] using h, rfl⟩
  · rename_i h
    have hn : P.hdr l = none := by simpa using h
    right
    split
    · exact Or.inl ⟨hn, rfl⟩
    · rename_i w hw
      split
      · rename_i hd
        split
        · exact Or.inr (Or.inl ⟨w, hn, hw, by simpa using hd, rfl⟩)
        · exact Or.inl ⟨hn, rfl⟩
      · rename_i hd
        split
        · exact Or.inl ⟨hn, rfl⟩
        · rename_i hvis
          exact Or.inr (Or.inr ⟨w, hn, hw, by simpa using hd, by simpa using hvis, rfl⟩)

theorem clause_cases (cl : Clauses) (x : String) :
    (x ∈ cl.priv ∧ cl.treat x = .priv false false) ∨
    (∃ k, x ∈ cl.red k ∧ k ≠ .noReduction ∧ cl.treat x = .red k) ∨
    ((x ∈ cl.first ∨ x ∈ cl.last) ∧ cl.treat x = .priv (decide (x ∈ cl.first)) (decide (x ∈ cl.last))) ∨
    cl.treat x = .shared := by
  unfold Clauses.treat
  split
  · rename_i h; exact Or.inl ⟨by simpa using h, rfl⟩
  · right
    split
    · rename_i k hk
      refine Or.inl ⟨k, by simpa using List.find?_some hk, ?_, rfl⟩
      have := List.mem_of_find?_eq_some hk
      intro e
      subst e
      revert this
      decide
    · right
      split
      · rename_i h
        refine Or.inl ⟨by simpa using h, ?_⟩
        simp
      · exact Or.inr rfl

/-- C100 (partial). If a loop is reported as parallel and the source-level analysis succeeds, then a loop with the
inserted directive computes the same values of all cells which are used after the loop, in any parallel execution.

The analysis should be right (`Right`, `Source`). What is missing are cases which are excluded by `Plain`; the code is
wrong in each of these cases, see `last_private_fails`, `inner_variable_fails`, `static_variable_fails`,
`hidden_variable_fails` and `loop_variable_fails`. Redundant memory is not ignored. Loops with regular dependences
are not modelled. -/
theorem parallel_loop_partial {li : LoopInfo M N V} {host : Bool} (hv : verdict false tree li = .parallel host)
    (hli : li.deps = some ds) (he : evaluateDependency c .no tree ds r = (true, s)) {cl : Clauses}
    (hx : exploit c s = some cl) (hR : Right O P σ c v cell observed tree ds) (hS : Source O P σ c v observed r)
    (hP : Plain P c v observed r tree ds) (hC : ∀ k, cl.red k ≠ [] → Combines O k) {τ : L → A}
    (hrun : RunsParallel O P (treat c r v P cl) σ τ) {l : L} (hob : observed l) : τ l = P.seq O σ P.n l := by
  have hv : checkDeps (coverage false tree ds) ds = some true := by
    obtain ⟨-, -, -, -, -, -, ds', h1, h2⟩ := verdict_parallel hv
    rw [hli] at h1
    cases h1
    exact h2
  obtain ⟨ind, hind, hloc, hH⟩ := evaluate_handled he
  have hrefs := refs_subset he
  obtain ⟨-, hdeps, x1, x2, x3, x4⟩ := exploit_some hx
  -- what is known about a variable from a clause
  have hpriv : ∀ l w, v.owner l = some w → v.vis (c.name w) = some w → c.name w ∈ cl.priv →
      WriteFirst O P σ l ∧ ¬ observed l ∧ ∀ i < P.n, ∀ a ∈ P.acts O σ i, a.loc = l → a.direct = true := by
    intro l w ho hvis hn
    rw [x1] at hn
    obtain ⟨E, hE, hcov, hsh, e, hee, hwh, htr, hM, hdir⟩ :=
      listed he hR hS hv ⟨by decide, by decide⟩ ho hvis hn
    exact ⟨(hM.priv htr hsh).1, (hM.priv htr hsh).2, hdir⟩
  have hred : ∀ l w k, v.owner l = some w → v.vis (c.name w) = some w → c.name w ∈ cl.red k →
      OnlyUpdates O P σ k l ∧ ∀ i < P.n, ∀ a ∈ P.acts O σ i, a.loc = l → a.direct = true := by
    intro l w k ho hvis hn
    rw [x4] at hn
    obtain ⟨E, hE, hcov, hsh, e, hee, hwh, htr, hM, hdir⟩ := listed he hR hS hv
      (d := .red k) ⟨fun e => (by cases e), fun e => (by cases e)⟩ ho hvis hn
    exact ⟨hM.reduction htr.1 k htr.2.1, hdir⟩
  have hfl : ∀ l w, v.owner l = some w → w ∉ r.init ++ r.decls → v.vis (c.name w) = some w →
      (c.name w ∈ cl.first ∨ c.name w ∈ cl.last) →
      ((c.name w ∈ cl.first ∧ NeverWritten O P σ l) ∨
        (WriteFirst O P σ l ∧ (c.name w ∈ cl.last → LastAssigns O P σ l) ∧
          (c.name w ∉ cl.last → ¬ observed l))) ∧
      ∀ i < P.n, ∀ a ∈ P.acts O σ i, a.loc = l → a.direct = true := by
    intro l w ho hnd hvis hn
    -- consider a node which is a reason for `last` if it exists, and for `first` otherwise
    have key : ∃ E ∈ ds, E.node ∈ coverage false tree ds ∧ ¬ Shares E.dptr ∧ ∃ e ∈ E.elems, Whole c e.mem w ∧
        Means O P σ (observed l) E.dptr e l ∧
        (∀ i < P.n, ∀ a ∈ P.acts O σ i, a.loc = l → a.direct = true) ∧
        (E.dptr.dep .firstPrivate = true ∨ E.dptr.dep .secondToLastPrivate = true) ∧
        (c.name w ∈ cl.last → E.dptr.dep .secondToLastPrivate = true) := by
      by_cases hla : c.name w ∈ cl.last
      · rw [x3] at hla
        obtain ⟨E, hE, hcov, hsh, e, hee, hwh, htr, hM, hdir⟩ :=
          listed he hR hS hv (d := .last) ⟨by decide, by decide⟩ ho hvis hla
        exact ⟨E, hE, hcov, hsh, e, hee, hwh, hM, hdir, Or.inr htr, fun _ => htr⟩
      · have hfi : c.name w ∈ cl.first := hn.resolve_right hla
        rw [x2] at hfi
        obtain ⟨E, hE, hcov, hsh, e, hee, hwh, htr, hM, hdir⟩ :=
          listed he hR hS hv (d := .first) ⟨by decide, by decide⟩ ho hvis hfi
        exact ⟨E, hE, hcov, hsh, e, hee, hwh, hM, hdir, Or.inl htr, fun h => (hla h).elim⟩
    obtain ⟨E, hE, hcov, hsh, e, hee, hwh, hM, hdir, htr, hlast⟩ := key
    refine ⟨?_, hdir⟩
    have hE' := hH E hE (by simpa using hcov)
    -- other traits are not set
    obtain ⟨⟨a, ha⟩, u, hu, hleg⟩ := hR.legal E hE hcov
    have hno : E.dptr.dep .induction = false ∧ E.dptr.dep .priv = false ∧ E.dptr.dep .reduction = false ∧
        E.dptr.dep .anti = false ∧ E.dptr.dep .flow = false := by
      have hm : ∀ t, E.dptr.dep t = true → t ∈ u := hleg
      have h1 : DepTrait.firstPrivate ∈ u ∨ DepTrait.secondToLastPrivate ∈ u :=
        htr.imp (fun h => hm _ h) (fun h => hm _ h)
      have h2 : DepTrait.induction ∉ u ∧ DepTrait.priv ∉ u ∧ DepTrait.reduction ∉ u ∧ DepTrait.anti ∉ u ∧
          DepTrait.flow ∉ u := by
        clear hm hleg
        revert u
        decide
      refine ⟨?_, ?_, ?_, ?_, ?_⟩ <;> rw [← Bool.not_eq_true] <;> intro h
      · exact h2.1 (hm _ h)
      · exact h2.2.1 (hm _ h)
      · exact h2.2.2.1 (hm _ h)
      · exact h2.2.2.2.1 (hm _ h)
      · exact h2.2.2.2.2 (hm _ h)
    obtain ⟨n1, n2, n3, n4, n5⟩ := hno
    have hcell : cell e.mem l := (hR.whole _ _ hwh l).2 ho
    have hnamed : ∀ d, Copied c s d E.node e.mem → c.name w ∈ (s.lists d).map fun p => c.name p.1 := by
      intro d hc
      obtain ⟨w', hw', h⟩ := copied_treat hR hP hS hloc hrefs hE hcov hsh hee hcell hc
      rw [ho] at hw'
      cases hw'
      rcases h with h | h
      · exact (hnd h).elim
      · exact h.2.2
    rcases hM.copied htr hsh with ⟨h1, h2⟩ | ⟨h1, h2, h3⟩
    · left
      refine ⟨?_, h2⟩
      rw [x2]
      exact hnamed .first (hE'.first hsh n1 n2 n3 (Or.inr ⟨n4, n5⟩) h1 e hee)
    · right
      refine ⟨h1, fun h => h2 (hlast h), fun h => h3 ?_⟩
      rw [← Bool.not_eq_true]
      intro h5
      apply h
      rw [x3]
      exact hnamed .last (hE'.last hsh n1 n2 n3 (Or.inr ⟨n4, n5⟩) h5 e hee)
  have hsharedInd : ∀ l, P.hdr l = none → treat c r v P cl l = .shared → Independent O P σ l := by
    intro l hn ht i j hi hj hij hw ha
    obtain ⟨E, hE, hcov, e, hee, hcell⟩ := hR.sees j hj l hn ha
    by_cases hsh : Shares E.dptr
    · have hM := hR.means E hE hcov e hee l hcell
      rcases hsh with h | h
      · exact hM.shared h i j hi hj hij hw ha
      · exact hM.readonly h i hi hw
    · exact not_shared hv he hx hR hS hP hE hcov hsh hee hcell ⟨j, hj, ha⟩ ht
  have hfit : Fit O P (treat c r v P cl) σ := by
    refine ⟨fun l hl => ?_, fun l hl => ?_, fun l hl => ?_, fun l k hl => ?_, fun l f la hl => ?_⟩ <;>
    rcases treat_cases (c := c) (r := r) (v := v) (P := P) (cl := cl) l with
      ⟨hh, ht⟩ | ⟨hh, ht⟩ | ⟨w, hh, ho, hd, ht⟩ | ⟨w, hh, ho, hd, hvis, ht⟩
    · exact (hS.loopVar l hh).2
    · exact (hl ht).elim
    · exact (hS.declared l w ho hd (hP.auto w hd) hh).2.1
    · rcases clause_cases cl (c.name w) with ⟨h1, h2⟩ | ⟨k, h1, hk, h2⟩ | ⟨h1, h2⟩ | h2
      · exact (hpriv l w ho hvis h1).2.2
      · exact (hred l w k ho hvis h1).2
      · exact (hfl l w ho hd hvis h1).2
      · exact (hl (ht.trans h2)).elim
    · rw [ht] at hl; cases hl
    · exact ⟨hh, hsharedInd l hh hl⟩
    · rw [ht] at hl; cases hl
    · exact ⟨hh, hsharedInd l hh hl⟩
    · exact ⟨hh, (hS.loopVar l hh).1⟩
    · rw [ht] at hl; cases hl
    · rw [ht] at hl; cases hl
    · rw [ht] at hl
      rcases clause_cases cl (c.name w) with ⟨h1, h2⟩ | ⟨k, h1, hk, h2⟩ | ⟨h1, h2⟩ | h2 <;> rw [h2] at hl <;> cases hl
    · rw [ht] at hl; cases hl
    · rw [ht] at hl; cases hl
    · rw [ht] at hl; cases hl
    · rw [ht] at hl
      rcases clause_cases cl (c.name w) with ⟨h1, h2⟩ | ⟨k', h1, hk, h2⟩ | ⟨h1, h2⟩ | h2
      · rw [h2] at hl; cases hl
      · rw [h2] at hl
        cases hl
        exact ⟨hh, (hred l w k ho hvis h1).1, hC k (List.ne_nil_of_mem h1)⟩
      · rw [h2] at hl; cases hl
      · rw [h2] at hl; cases hl
    · rw [ht] at hl; cases hl
    · rw [ht] at hl; cases hl
    · rw [ht] at hl
      cases hl
      exact ⟨hh, Or.inr ⟨(hS.declared l w ho hd (hP.auto w hd) hh).1, fun h => by cases h⟩⟩
    · rw [ht] at hl
      rcases clause_cases cl (c.name w) with ⟨h1, h2⟩ | ⟨k', h1, hk, h2⟩ | ⟨h1, h2⟩ | h2
      · rw [h2] at hl
        cases hl
        exact ⟨hh, Or.inr ⟨(hpriv l w ho hvis h1).1, fun h => by cases h⟩⟩
      · rw [h2] at hl; cases hl
      · rw [h2] at hl
        cases hl
        refine ⟨hh, ?_⟩
        rcases (hfl l w ho hd hvis h1).1 with ⟨g1, g2⟩ | ⟨g1, g2, -⟩
        · exact Or.inl ⟨by simpa using g1, g2⟩
        · exact Or.inr ⟨g1, fun h => g2 (by simpa using h)⟩
      · rw [h2] at hl; cases hl
  refine parallel_sequential hfit hrun ?_
  rcases treat_cases (c := c) (r := r) (v := v) (P := P) (cl := cl) l with
    ⟨hh, ht⟩ | ⟨hh, ht⟩ | ⟨w, hh, ho, hd, ht⟩ | ⟨w, hh, ho, hd, hvis, ht⟩
  · exact (hP.unused l hh hob).elim
  · exact Or.inl ht
  · exact ((hS.declared l w ho hd (hP.auto w hd) hh).2.2 hob).elim
  · rcases clause_cases cl (c.name w) with ⟨h1, h2⟩ | ⟨k', h1, hk, h2⟩ | ⟨h1, h2⟩ | h2
    · exact ((hpriv l w ho hvis h1).2.1 hob).elim
    · exact Or.inr (Or.inl ⟨k', ht.trans h2⟩)
    · by_cases hla : c.name w ∈ cl.last
      · refine Or.inr (Or.inr (Or.inl ⟨decide (c.name w ∈ cl.first), ?_⟩))
        rw [ht, h2, decide_eq_true hla]
      · have hfi : c.name w ∈ cl.first := h1.resolve_right hla
        refine Or.inr (Or.inr (Or.inr ⟨?_, ?_⟩))
        · rw [ht, h2, decide_eq_true hfi, decide_eq_false hla]
        · rcases (hfl l w ho hd hvis h1).1 with ⟨-, g⟩ | ⟨-, -, g⟩
          · exact g
          · exact (g hla hob).elim
    · exact Or.inl (ht.trans h2)

end

end AstDep
end Tsar
