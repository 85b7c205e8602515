import Verif.AstDep.Handled
import Mathlib.Tactic.ByContra

/-!
# Properties of the source-level dependence analysis (C99)
-/

set_option linter.unusedSectionVars false

namespace Tsar
namespace AstDep

open BitTrait Parallel

variable {M N V W : Type} [DecidableEq M] [DecidableEq N] [DecidableEq V] [DecidableEq W]

/-! ## References to variables -/

/-- A location with the specified number of dereferences of a variable; the size of memory is not restricted if
`strong` is set. -/
def Level (c : Ctx M N W) (m : M) (w : W) (i : Nat) (strong : Prop) : Prop :=
  ∃ v e s t, c.desc m = .est (some v) e s t ∧ v.ast = some w ∧ numDeref e = i ∧ (strong → e = [] ∨ s = false)

/-- Derived locations of variables have been found among `K`. -/
def RefInv (c : Ctx M N W) (K : M → Prop) (refs : List (W × List (Derived M))) : Prop :=
  ∀ p ∈ refs, p.2.length = (c.ty p.1).pointers + 1 ∧
    ∀ i d, p.2[i]? = some d → ∀ m ∈ d.mems, K m ∧ Level c m p.1 i (d.kind = .strong)

/-- References are changed by searches for locations. -/
inductive Looks (c : Ctx M N W) (K : M → Prop) :
    List (W × List (Derived M)) → List (W × List (Derived M)) → Prop
  | refl {refs} : Looks c K refs refs
  | tail {refs refs' m} : Looks c K refs refs' → K m → Looks c K refs (findDecl c refs' m).2.2

theorem Looks.trans {c : Ctx M N W} {K : M → Prop} {a b d : List (W × List (Derived M))} (h : Looks c K a b)
    (h' : Looks c K b d) : Looks c K a d := by
  induction h' with
  | refl => exact h
  | tail _ hm ih => exact ih.tail hm

theorem Looks.one {c : Ctx M N W} {K : M → Prop} {a : List (W × List (Derived M))} {m : M} (h : K m) :
    Looks c K a (findDecl c a m).2.2 := Looks.tail .refl h

theorem setDerived_inv {c : Ctx M N W} {K : M → Prop} {refs : List (W × List (Derived M))} (h : RefInv c K refs)
    {w : W} {i : Nat} {f : Derived M → Derived M}
    (hf : ∀ d, (∀ m ∈ d.mems, K m ∧ Level c m w i (d.kind = .strong)) →
      ∀ m ∈ (f d).mems, K m ∧ Level c m w i ((f d).kind = .strong)) : RefInv c K (setDerived refs w i f) := by
  intro p hp
  obtain ⟨q, hq, rfl⟩ := List.mem_map.1 hp
  obtain ⟨h1, h2⟩ := h q hq
  split
  · rename_i e
    subst e
    refine ⟨by simpa using h1, fun j d hd => ?_⟩
    simp only [List.getElem?_modify] at hd
    obtain ⟨d', hd', e⟩ := Option.map_eq_some_iff.1 hd
    split at e
    · rename_i hij
      subst hij
      subst e
      exact hf d' (h2 i d' hd')
    · subst e
      exact h2 j d' hd'
  · exact ⟨h1, h2⟩

theorem findDecl_inv {c : Ctx M N W} {K : M → Prop} {refs : List (W × List (Derived M))} (h : RefInv c K refs)
    {m : M} (hm : K m) : RefInv c K (findDecl c refs m).2.2 := by
  unfold findDecl
  cases hd : c.desc m with
  | unknown x y => exact h
  | est cl e s t =>
    cases cl with
    | none => exact h
    | some v =>
      cases hv : v.ast with
      | none => simpa only [hv] using h
      | some u =>
        simp only [hv]
        have hlev : ∀ b : Prop, (b → e = [] ∨ s = false) → Level c m u (numDeref e) b :=
          fun b hb => ⟨v, e, s, t, hd, hv, rfl, hb⟩
        split
        · exact h
        · split
          · split
            · rename_i hw
              simp only [wholeUnsized, Bool.and_eq_true, decide_eq_true_eq, Bool.not_eq_eq_eq_not, Bool.not_true]
                at hw
              refine setDerived_inv h fun d _ x hx => ?_
              rw [List.mem_singleton.1 hx]
              have := hlev (DKind.strong = .strong) fun _ => Or.inr hw.2
              rw [hw.1.1.1.1] at this
              exact ⟨hm, this⟩
            · unfold noteDerived
              split
              · split
                · rename_i hs
                  have hs : s = false := by simpa using hs
                  split
                  · refine setDerived_inv h fun d _ x hx => ?_
                    rw [List.mem_singleton.1 hx]
                    exact ⟨hm, hlev _ fun _ => Or.inr hs⟩
                  · exact h
                · split
                  · refine setDerived_inv h fun d _ x hx => ?_
                    rw [List.mem_singleton.1 hx]
                    exact ⟨hm, hlev _ fun hb => by cases hb⟩
                  · refine setDerived_inv h fun d hp x hx => ?_
                    rcases List.mem_append.1 hx with hx | hx
                    · obtain ⟨h1, v', e', s', t', a, b, g, _⟩ := hp x hx
                      exact ⟨h1, v', e', s', t', a, b, g, fun hb => by cases hb⟩
                    · rw [List.mem_singleton.1 hx]
                      exact ⟨hm, hlev _ fun hb => by cases hb⟩
              · exact h
          · rename_i he
            have he : e = [] := by
              cases e with
              | nil => rfl
              | cons x e => exact (he rfl).elim
            subst he
            refine setDerived_inv h fun d _ x hx => ?_
            rw [List.mem_singleton.1 hx]
            exact ⟨hm, hlev (DKind.strong = .strong) fun _ => Or.inl rfl⟩

theorem Looks.inv {c : Ctx M N W} {K : M → Prop} {a b : List (W × List (Derived M))} (h : Looks c K a b)
    (ha : RefInv c K a) : RefInv c K b := by
  induction h with
  | refl => exact ha
  | tail _ hm ih => exact findDecl_inv ih hm

theorem diagIf_refs (s : St M N V W) (b : Bool) (d : Diag) : (s.diagIf b d).refs = s.refs := by
  unfold St.diagIf; split <;> rfl

theorem localize_refs (c : Ctx M N W) (s : St M N V W) (n : N) (m : M) :
    (localize c s n m).2.refs = (findDecl c s.refs m).2.2 := by
  unfold localize
  simp only []
  split
  · rfl
  · split <;> rfl

theorem localizeTo_refs (c : Ctx M N W) (d : Dest) (n : N) (m : M) (s : St M N V W) :
    (localizeTo c d n m s).2.refs = (findDecl c s.refs m).2.2 := by
  unfold localizeTo
  simp only []
  split
  · exact localize_refs c s n m
  · split <;> exact localize_refs c s n m

theorem localizeAll_looks {c : Ctx M N W} {K : M → Prop} (d : Dest) (n : N) {l : List (Elem M N V)}
    (h : ∀ e ∈ l, K e.mem) : ∀ s : St M N V W, Looks c K s.refs (localizeAll c d n l s).2.refs := by
  induction l with
  | nil => exact fun s => .refl
  | cons x l ih =>
    intro s
    have h1 : Looks c K s.refs (localizeTo c d n x.mem s).2.refs := by
      rw [localizeTo_refs]; exact .one (h x List.mem_cons_self)
    exact h1.trans (ih (fun e he => h e (List.mem_cons_of_mem _ he)) _)

theorem foldl_looks {c : Ctx M N W} {K : M → Prop} {f : St M N V W → Elem M N V → St M N V W} {l : List (Elem M N V)}
    (hf : ∀ s, ∀ e ∈ l, Looks c K s.refs (f s e).refs) : ∀ s, Looks c K s.refs (l.foldl f s).refs := by
  induction l with
  | nil => exact fun s => .refl
  | cons x l ih =>
    exact fun s => (hf s x List.mem_cons_self).trans (ih (fun s e he => hf s e (List.mem_cons_of_mem _ he)) _)

theorem addInduction_refs (c : Ctx M N W) (E : Entry M N V) (w : W) (m : M) (b : Bool) (s : St M N V W) :
    (addInduction c E w m b s).refs = s.refs := by
  unfold addInduction; simp only []; split <;> rfl

theorem inductionStep_looks {c : Ctx M N W} {K : M → Prop} (ind : W) (ig : Bool) (E : Entry M N V)
    (s : St M N V W) {e : Elem M N V} (h : K e.mem) : Looks c K s.refs (inductionStep c ind ig E s e).refs := by
  have h1 : Looks c K s.refs (localize c s E.node e.mem).2.refs := by rw [localize_refs]; exact .one h
  unfold inductionStep
  simp only []
  split
  · split
    · rw [addInduction_refs]; exact h1
    · split
      · exact h1
      · split
        · exact h1
        · rw [addInduction_refs]; exact h1
  · split
    · exact h1
    · split <;> exact h1

theorem privateStep_looks {c : Ctx M N W} {K : M → Prop} (d : Dest) (ig : Bool) (E : Entry M N V)
    (s : St M N V W) (h : ∀ e ∈ E.elems, K e.mem) : Looks c K s.refs (privateStep c d ig E s).refs := by
  unfold privateStep
  rw [diagIf_refs]
  exact localizeAll_looks d E.node h s

theorem reductionHead_looks {c : Ctx M N W} {K : M → Prop} (ig : Bool) (n : N) {e : Elem M N V} (s : St M N V W)
    (h : K e.mem) : Looks c K s.refs (reductionHead c ig n e s).2.refs := by
  unfold reductionHead
  simp only []
  rw [diagIf_refs, localizeTo_refs]
  split
  · exact (Looks.one h).tail h
  · exact .one h

theorem reductionTail_looks {c : Ctx M N W} {K : M → Prop} (ig : Bool) (n : N) (k : RedKind) (s : St M N V W)
    {e : Elem M N V} (h : K e.mem) : Looks c K s.refs (reductionTail c ig n k s e).refs := by
  unfold reductionTail
  split
  · split
    · exact .one h
    · exact .refl
  · simp only []
    rw [diagIf_refs, localizeTo_refs]; exact .one h

theorem dependenceStep_looks {c : Ctx M N W} {K : M → Prop} (ig : Bool) (E : Entry M N V) {x : Elem M N V}
    (s : St M N V W) (e : Elem M N V) (h : K x.mem) : Looks c K s.refs (dependenceStep c ig E x s e).refs := by
  unfold dependenceStep
  split
  · simp only []
    split
    · exact .one h
    · rw [diagIf_refs]; exact .one h
  · exact .refl

theorem nodeStep_looks {c : Ctx M N W} {K : M → Prop} (ind : W) (d : Dptr) (ig : Bool) (E : Entry M N V)
    (s : St M N V W) (h : ∀ e ∈ E.elems, K e.mem) : Looks c K s.refs (nodeStep c ind d ig E s).refs := by
  unfold nodeStep
  split
  · have := foldl_looks (c := c) (K := K) (f := fun s e => note c s e.mem) (fun s e he => .one (h e he)) s
    simp only []
    split <;> exact this
  · split
    · exact foldl_looks (fun s e he => inductionStep_looks ind ig E s (h e he)) s
    · split
      · exact privateStep_looks .priv ig E s h
      · split
        · split
          · exact .refl
          · rename_i x l hE
            rw [hE] at h
            exact (reductionHead_looks ig E.node s (h x List.mem_cons_self)).trans
              (foldl_looks (fun s e he => reductionTail_looks ig E.node _ s (h e (List.mem_cons_of_mem _ he))) _)
        · split
          · split
            · exact .refl
            · rename_i x l hE
              rw [hE] at h
              exact foldl_looks (fun s e _ => dependenceStep_looks ig E s e (h x List.mem_cons_self)) s
          · have h1 : Looks c K s.refs
                (if d.dep .secondToLastPrivate = true then privateStep c .last ig E s else s).refs := by
              split
              · exact privateStep_looks .last ig E s h
              · exact .refl
            simp only []
            split
            · exact h1.trans (privateStep_looks .first ig E _ h)
            · exact h1

theorem visitRef_inv {c : Ctx M N W} {refs : List (W × List (Derived M))} {w : W}
    (h : ∀ p ∈ refs, p.2.length = (c.ty p.1).pointers + 1 ∧ ∀ d ∈ p.2, d.mems = []) :
    ∀ p ∈ visitRef c refs w, p.2.length = (c.ty p.1).pointers + 1 ∧ ∀ d ∈ p.2, d.mems = [] := by
  have hres : ∀ (n : Nat) (ds : List (Derived M)), (∀ d ∈ ds, d.mems = []) →
      (resize n ds).length = n ∧ ∀ d ∈ resize n ds, d.mems = [] := by
    intro n ds hd
    unfold resize
    refine ⟨by simp [List.length_append, List.length_take]; omega, fun d hx => ?_⟩
    rcases List.mem_append.1 hx with hx | hx
    · exact hd d (List.mem_of_mem_take hx)
    · rw [(List.mem_replicate.1 hx).2]
  unfold visitRef
  split
  · exact h
  · split
    · intro p hp
      obtain ⟨q, hq, rfl⟩ := List.mem_map.1 hp
      split
      · exact hres _ _ (h q hq).2
      · exact h q hq
    · intro p hp
      rcases List.mem_append.1 hp with hp | hp
      · exact h p hp
      · rw [List.mem_singleton.1 hp]
        exact hres _ _ fun d hd => by cases hd

theorem visitRef_keys {c : Ctx M N W} (refs : List (W × List (Derived M))) (w : W) :
    (∀ u ∈ refs.map Prod.fst, u ∈ (visitRef c refs w).map Prod.fst) ∧
    (∀ u ∈ (visitRef c refs w).map Prod.fst, u ∈ refs.map Prod.fst ∨ u = w) ∧
    (((c.ty w).pointers = 0 → c.const w = false) → w ∈ (visitRef c refs w).map Prod.fst) := by
  unfold visitRef
  split
  · rename_i hc
    refine ⟨fun _ h => h, fun _ h => Or.inl h, fun h => ?_⟩
    simp only [Bool.and_eq_true, decide_eq_true_eq] at hc
    rw [h hc.1] at hc
    cases hc.2
  · split
    · rename_i hl
      have hk : (refs.map fun p => if p.1 = w then (w, resize ((c.ty w).pointers + 1) p.2) else p).map Prod.fst
          = refs.map Prod.fst := by
        rw [List.map_map]
        apply List.map_congr_left
        intro p _
        simp only [Function.comp]
        split
        · rename_i h; exact h.symm
        · rfl
      rw [hk]
      refine ⟨fun _ h => h, fun _ h => Or.inl h, fun _ => ?_⟩
      obtain ⟨ds, hds⟩ := Option.isSome_iff_exists.1 hl
      exact lookup_mem hds
    · rw [List.map_append]
      refine ⟨fun _ h => List.mem_append_left _ h, fun u h => ?_, fun _ => by simp⟩
      rcases List.mem_append.1 h with h | h
      · exact Or.inl h
      · exact Or.inr (by simpa using h)

theorem visitAll {c : Ctx M N W} (l : List W) : ∀ refs : List (W × List (Derived M)),
    (∀ p ∈ refs, p.2.length = (c.ty p.1).pointers + 1 ∧ ∀ d ∈ p.2, d.mems = []) →
    (∀ p ∈ l.foldl (visitRef c) refs, p.2.length = (c.ty p.1).pointers + 1 ∧ ∀ d ∈ p.2, d.mems = []) ∧
    (∀ u ∈ refs.map Prod.fst, u ∈ (l.foldl (visitRef c) refs).map Prod.fst) ∧
    (∀ u ∈ (l.foldl (visitRef c) refs).map Prod.fst, u ∈ refs.map Prod.fst ∨ u ∈ l) ∧
    ∀ w ∈ l, ((c.ty w).pointers = 0 → c.const w = false) → w ∈ (l.foldl (visitRef c) refs).map Prod.fst := by
  induction l with
  | nil => exact fun refs h => ⟨h, fun _ h => h, fun _ h => Or.inl h, fun w hw => by cases hw⟩
  | cons x l ih =>
    intro refs h
    obtain ⟨a, b, d, e⟩ := ih (visitRef c refs x) (visitRef_inv h)
    obtain ⟨k1, k2, k3⟩ := visitRef_keys (c := c) refs x
    refine ⟨a, fun u hu => b u (k1 u hu), fun u hu => ?_, fun w hw hc => ?_⟩
    · rcases d u hu with h | h
      · rcases k2 u h with h | rfl
        · exact Or.inl h
        · exact Or.inr List.mem_cons_self
      · exact Or.inr (List.mem_cons_of_mem _ h)
    · rcases List.mem_cons.1 hw with rfl | hw
      · exact b w (k3 hc)
      · exact e w hw hc

/-! ## All nodes -/

/-- Nodes which are considered and their traits: all nodes in the coverage, and nodes with a single location which
are covered with redundant memory. -/
def Considered (ir : IR) (tree : Tree N) (ds : List (Entry M N V)) (E : Entry M N V) (d : Dptr) : Prop :=
  E ∈ ds ∧ ((E.node ∈ coverage (decide (ir ≠ .no)) tree ds ∧ d = E.dptr) ∨
    (ir ≠ .no ∧ E.node ∈ coverage false tree ds ∧ ∃ e, E.elems = [e] ∧ d = e.dptr))

theorem traitsOf_considered {ir : IR} {tree : Tree N} {ds : List (Entry M N V)} {E : Entry M N V} (hE : E ∈ ds)
    {d : Dptr} {b : Bool}
    (h : traitsOf ir (coverage (decide (ir ≠ .no)) tree ds) (coverage false tree ds) E = some (d, b)) :
    Considered ir tree ds E d := by
  unfold traitsOf at h
  split at h
  · rename_i hc
    cases h
    exact ⟨hE, Or.inl ⟨by simpa using hc, rfl⟩⟩
  · split at h
    · rename_i e he
      split at h
      · rename_i hc
        cases h
        simp only [Bool.and_eq_true, decide_eq_true_eq, List.contains_eq_mem] at hc
        exact ⟨hE, Or.inr ⟨hc.1, hc.2, e, he, rfl⟩⟩
      · cases h
    · cases h

/-- The state before checks. -/
def analyzed (c : Ctx M N W) (ir : IR) (tree : Tree N) (ds : List (Entry M N V)) (r : Src W) (ind : W) :
    St M N V W :=
  ds.foldl (entryStep c ind ir (coverage (decide (ir ≠ .no)) tree ds) (coverage false tree ds))
    (traverse c r St.empty)

/-- Checks after all nodes have been analyzed. -/
def checked (c : Ctx M N W) (ir : IR) (ds : List (Entry M N V)) (s : St M N V W) : St M N V W :=
  (s.diagIf (globalBad c s.globals (sideEffects c ds)) .globalUnable).diagIf
    (refsBad ir (s.diagIf (globalBad c s.globals (sideEffects c ds)) .globalUnable).locals
      (s.diagIf (globalBad c s.globals (sideEffects c ds)) .globalUnable).refs) .notAnalyzed

theorem entryStep_le (c : Ctx M N W) (ind : W) (ir : IR) (cov red : List N) (s : St M N V W) (E : Entry M N V) :
    Le s (entryStep c ind ir cov red s E) := by
  unfold entryStep
  split
  · exact Le.refl s
  · exact nodeStep_le c ind _ _ E s

theorem evaluate_parts {c : Ctx M N W} {ir : IR} {tree : Tree N} {ds : List (Entry M N V)} {r : Src W}
    {s : St M N V W} (h : evaluateDependency c ir tree ds r = (true, s)) : ∃ ind, r.loopVar = some ind ∧
      Le (analyzed c ir tree ds r ind) s ∧ (analyzed c ir tree ds r ind).diags = [] ∧
      s.lists = (analyzed c ir tree ds r ind).lists ∧ s.refs = (analyzed c ir tree ds r ind).refs ∧
      globalBad c s.globals (sideEffects c ds) = false ∧ refsBad ir s.locals s.refs = false := by
  unfold evaluateDependency at h
  split at h
  · cases h
  · rename_i ind hi
    change ((checked c ir ds (analyzed c ir tree ds r ind)).diags.isEmpty,
      checked c ir ds (analyzed c ir tree ds r ind)) = (true, s) at h
    refine ⟨ind, hi, ?_⟩
    generalize analyzed c ir tree ds r ind = s0 at h ⊢
    simp only [Prod.mk.injEq] at h
    obtain ⟨hd, hs⟩ := h
    have hd : (checked c ir ds s0).diags = [] := List.isEmpty_iff.1 hd
    unfold checked at hs hd
    have h2 := diagIf_empty hd
    have hd1 := (diagIf_le _ _ _).diags hd
    have h1 := diagIf_empty hd1
    have e1 : St.diagIf s0 (globalBad c s0.globals (sideEffects c ds)) .globalUnable = s0 := by
      unfold St.diagIf; rw [h1]; rfl
    rw [e1] at h2 hs hd
    have e2 : St.diagIf s0 (refsBad ir s0.locals s0.refs) .notAnalyzed = s0 := by
      unfold St.diagIf; rw [h2]; rfl
    rw [e2] at hs hd
    subst hs
    exact ⟨Le.refl _, hd, rfl, rfl, h1, h2⟩

/-- C99. If the analysis succeeds, then the loop has a variable, and each analyzed node is handled: a variable with
a trait is in the corresponding list or it is declared in the loop. -/
theorem evaluate_handled {c : Ctx M N W} {ir : IR} {tree : Tree N} {ds : List (Entry M N V)} {r : Src W}
    {s : St M N V W} (h : evaluateDependency c ir tree ds r = (true, s)) : ∃ ind, r.loopVar = some ind ∧
      s.locals = r.init ++ r.decls ∧
      ∀ E ∈ ds, E.node ∈ coverage (decide (ir ≠ .no)) tree ds → Handled c ind s E.dptr E := by
  obtain ⟨ind, hi, hle, hd, -, -, -, -⟩ := evaluate_parts h
  have hl : Le (traverse c r St.empty) (analyzed c ir tree ds r ind) :=
    foldl_le (entryStep_le c ind ir _ _) ds _
  refine ⟨ind, hi, ?_, fun E hE hc => ?_⟩
  · rw [hle.locals, hl.locals]; rfl
  · have := foldl_post (entryStep_le c ind ir (coverage (decide (ir ≠ .no)) tree ds) (coverage false tree ds))
      (R := fun E s => E.node ∈ coverage (decide (ir ≠ .no)) tree ds → Handled c ind s E.dptr E)
      (fun E s s' h hl hc => (h hc).mono hl) ds
      (fun s E _ hd hc => by
        have ht : traitsOf ir (coverage (decide (ir ≠ .no)) tree ds) (coverage false tree ds) E
            = some (E.dptr, false) := by
          unfold traitsOf; rw [if_pos (by simpa using hc)]
        have he : entryStep c ind ir (coverage (decide (ir ≠ .no)) tree ds) (coverage false tree ds) s E
            = nodeStep c ind E.dptr false E s := by
          unfold entryStep; rw [ht]
        rw [he] at hd ⊢
        exact nodeStep_handled c ind E.dptr E s hd) (traverse c r St.empty) hd E hE hc
    exact this.mono hle

/-- C99. A variable is in a list only if there is a location of a considered node which is the whole variable and
has the corresponding trait; the variable is not declared in the loop, but it is referenced there. If it is global, no
call with unknown effects is related with this node. -/
theorem evaluate_reason {c : Ctx M N W} {ir : IR} {tree : Tree N} {ds : List (Entry M N V)} {r : Src W}
    {s : St M N V W} (h : evaluateDependency c ir tree ds r = (true, s)) {d : Dest}
    (hd : d ≠ .loc ∧ d ≠ .stub) {w : W} {m : M} (hp : (w, m) ∈ s.lists d) :
    Whole c m w ∧ w ∉ r.init ++ r.decls ∧ w ∈ r.refs ∧
    ∃ E t, Considered ir tree ds E t ∧ ¬ Shares t ∧ (∃ e ∈ E.elems, e.mem = m ∧ TraitFor t e d) ∧
      (IsGlobal c m → ∀ E' ∈ ds, E'.dptr.unit .directAccess = true → ∀ e' ∈ E'.elems,
        e'.dptr.unit .directAccess = true → (∃ x, c.desc e'.mem = .unknown x true) →
        c.unreachable E.node e'.node = true) := by
  obtain ⟨ind, hi, hle, hdg, hls, hrf, hgb, -⟩ := evaluate_parts h
  have hl : Le (traverse c r St.empty) (analyzed c ir tree ds r ind) :=
    foldl_le (entryStep_le c ind ir _ _) ds _
  have horg : Org c (fun x m n => ∃ E t, Considered ir tree ds E t ∧ ¬ Shares t ∧ E.node = n ∧
      ∃ e ∈ E.elems, e.mem = m ∧ TraitFor t e x) (analyzed c ir tree ds r ind) := by
    refine foldl_org ds (fun s E hE hs => ?_) _ ?_
    · unfold entryStep
      split
      · exact hs
      · rename_i t b ht
        exact nodeStep_org hs fun hsh e he x hx =>
          ⟨E, t, traitsOf_considered hE ht, hsh, rfl, e, he, rfl, hx⟩
    · intro x _ p hp
      cases hp
  rw [hls] at hp
  obtain ⟨h1, h2, h3, n, ⟨E, t, hc, hsh, hn, e, he, hm, ht⟩, hg⟩ := horg d hd.1 (w, m) hp
  refine ⟨h1, ?_, ?_, E, t, hc, hsh, ⟨e, he, hm, ht⟩, fun hG E' hE' hu e' he' hu' hx => ?_⟩
  · rw [hl.locals] at h2; exact h2
  · rw [hl.refs] at h3
    have := (visitAll (c := c) r.refs ([] : List (W × List (Derived M))) (fun p hp => by cases hp)).2.2.1 w h3
    rcases this with h | h
    · cases h
    · exact h
  · obtain ⟨q, hq, hqn⟩ := hg hG
    have hq := hle.globals q hq
    by_contra hne
    have hne : c.unreachable E.node e'.node = false := by simpa using hne
    have : globalBad c s.globals (sideEffects c ds) = true := by
      unfold globalBad
      refine List.any_eq_true.2 ⟨q, hq, List.any_eq_true.2 ⟨e'.node, ?_, ?_⟩⟩
      · unfold sideEffects
        refine List.mem_flatMap.2 ⟨E', hE', ?_⟩
        rw [if_pos hu]
        refine List.mem_filterMap.2 ⟨e', he', ?_⟩
        obtain ⟨x, hx⟩ := hx
        rw [if_pos hu', hx]
      · rw [hqn, ← hn, hne]; rfl
    rw [this] at hgb
    cases hgb

/-- C99. If redundant memory is not ignored or it is ignored strictly, then each variable which is referenced in the
loop and is not declared there has been analyzed: for each number of dereferences which is possible for its type,
there is a location of a considered node which is not restricted in size. Constant scalars are not analyzed. -/
theorem evaluate_complete {c : Ctx M N W} {ir : IR} {tree : Tree N} {ds : List (Entry M N V)} {r : Src W}
    {s : St M N V W} (h : evaluateDependency c ir tree ds r = (true, s)) (hir : ir = .no ∨ ir = .strict) {w : W}
    (hw : w ∈ r.refs) (hnl : w ∉ r.init ++ r.decls) (hc : (c.ty w).pointers = 0 → c.const w = false) {i : Nat}
    (hiw : i ≤ (c.ty w).pointers) :
    ∃ E t, Considered ir tree ds E t ∧ ∃ e ∈ E.elems, Level c e.mem w i True := by
  obtain ⟨ind, hi, hle, hdg, hls, hrf, -, hrb⟩ := evaluate_parts h
  obtain ⟨h0, -, -, h4⟩ := visitAll (c := c) r.refs ([] : List (W × List (Derived M))) (fun p hp => by cases hp)
  have hl : Le (traverse c r St.empty) (analyzed c ir tree ds r ind) :=
    foldl_le (entryStep_le c ind ir _ _) ds _
  have hlook : ∀ (l : List (Entry M N V)) (s : St M N V W), (∀ E ∈ l, E ∈ ds) →
      Looks c (fun m => ∃ E t, Considered ir tree ds E t ∧ ∃ e ∈ E.elems, e.mem = m) s.refs
        (l.foldl (entryStep c ind ir (coverage (decide (ir ≠ .no)) tree ds) (coverage false tree ds)) s).refs := by
    intro l
    induction l with
    | nil => exact fun s _ => .refl
    | cons E l ih =>
      intro s hs
      refine Looks.trans ?_ (ih _ fun E' h => hs E' (List.mem_cons_of_mem _ h))
      unfold entryStep
      split
      · exact .refl
      · rename_i t b ht
        exact nodeStep_looks ind t b E s fun e he =>
          ⟨E, t, traitsOf_considered (hs E List.mem_cons_self) ht, e, he, rfl⟩
  have hinv : RefInv c (fun m => ∃ E t, Considered ir tree ds E t ∧ ∃ e ∈ E.elems, e.mem = m) s.refs := by
    rw [hrf]
    refine (hlook ds _ fun _ h => h).inv ?_
    intro p hp
    obtain ⟨a, b⟩ := h0 p hp
    refine ⟨a, fun i d hd m hm => ?_⟩
    rw [b d (List.mem_of_getElem? hd)] at hm
    cases hm
  have hkey : w ∈ s.refs.map Prod.fst := by
    rw [hle.refs, hl.refs]
    exact h4 w hw hc
  obtain ⟨p, hp, hpw⟩ := List.mem_map.1 hkey
  obtain ⟨hlen, hmem⟩ := hinv p hp
  subst hpw
  obtain ⟨d, hd⟩ : ∃ d, p.2[i]? = some d := by
    rw [List.getElem?_eq_getElem (by omega)]; exact ⟨_, rfl⟩
  have hgood : d.good ir = true := by
    by_contra hb
    have : refsBad ir s.locals s.refs = true := by
      unfold refsBad
      refine List.any_eq_true.2 ⟨p, hp, ?_⟩
      simp only [Bool.and_eq_true, Bool.not_eq_eq_eq_not, Bool.not_true]
      constructor
      · rw [hle.locals, hl.locals]
        simpa [traverse, St.empty] using hnl
      · rw [← Bool.not_eq_true]
        intro ha
        exact hb (List.all_eq_true.1 ha d (List.mem_of_getElem? hd))
    rw [this] at hrb
    cases hrb
  have hk : d.ok = true ∧ d.kind = .strong := by
    unfold Derived.good at hgood
    rcases hir with rfl | rfl <;> simpa using hgood
  have hne : d.mems ≠ [] := by
    have := hk.1
    unfold Derived.ok at this
    simp only [Bool.and_eq_true, Bool.not_eq_eq_eq_not, Bool.not_true, List.isEmpty_eq_false_iff] at this
    exact this.2
  obtain ⟨m, hm⟩ := List.exists_mem_of_ne_nil _ hne
  obtain ⟨⟨E, t, hcons, e, he, rfl⟩, v, x, z, y, g1, g2, g3, g4⟩ := hmem i d hd m hm
  exact ⟨E, t, hcons, e, he, v, x, z, y, g1, g2, g3, fun _ => g4 hk.2⟩

end AstDep
end Tsar
