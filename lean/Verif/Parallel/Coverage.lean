import Verif.Parallel.Model
import Mathlib.Data.List.Nodup
import Mathlib.Data.List.Pairwise

/-!
# Coverage of accesses by alias nodes (C73)
-/

namespace Tsar
namespace Parallel

open BitTrait

set_option linter.unusedSectionVars false

variable {M N V : Type} [DecidableEq M] [DecidableEq N] [DecidableEq V]

/-! ## Specification -/

/-- `Sub s t`: the node `s` is the node `t` or a descendant of it (a node is represented by its subtree). -/
inductive Sub : Tree N → Tree N → Prop
  | refl (t : Tree N) : Sub t t
  | child {s c : Tree N} {n : N} {cs : List (Tree N)} : c ∈ cs → Sub s c → Sub s (.node n cs)

/-- Explicitly accessed node which is not ignored as redundant. -/
def Explicit (ir : Bool) (dptr : N → Option Dptr) (t : Tree N) : Prop :=
  ∃ d, dptr t.root = some d ∧ d.unit .explicitAccess = true ∧ (ir = true → d.unit .noRedundant = true)

/-- A node which contains memory that should not be ignored as redundant. -/
def Relevant (ir : Bool) (dptr : N → Option Dptr) (t : Tree N) : Prop :=
  ∃ d, dptr t.root = some d ∧ (d.unit .noRedundant = true ∨ (ir = false ∧ d.unit .redundant = true))

/-! ## Proofs -/

theorem Sub.trans {a b c : Tree N} (h1 : Sub a b) (h2 : Sub b c) : Sub a c := by
  induction h2 with
  | refl => exact h1
  | child hm _ ih => exact .child hm ih

/-- Induction over trees. -/
theorem tree_ind {P : Tree N → Prop} (h : ∀ n cs, (∀ c ∈ cs, P c) → P (.node n cs)) : ∀ t, P t := by
  intro t
  refine Tree.rec (motive_1 := P) (motive_2 := fun cs => ∀ c ∈ cs, P c) h ?_ ?_ t
  · intro c hc; cases hc
  · intro c cs hc hcs x hx
    rcases List.mem_cons.1 hx with rfl | hx
    · exact hc
    · exact hcs x hx

theorem explicitCoverL_eq (ir : Bool) (dptr : N → Option Dptr) (cs : List (Tree N)) :
    explicitCoverL ir dptr cs = cs.flatMap (explicitCover ir dptr) := by
  induction cs with
  | nil => simp [explicitCoverL]
  | cons c cs ih => simp [explicitCoverL, ih]

theorem accessCoverL_eq (ir : Bool) (dptr : N → Option Dptr) (cs : List (Tree N)) :
    accessCoverL ir dptr cs = cs.flatMap (accessCover ir dptr) := by
  induction cs with
  | nil => simp [accessCoverL]
  | cons c cs ih => simp [accessCoverL, ih]

theorem nodesL_eq (cs : List (Tree N)) : Tree.nodesL cs = cs.flatMap Tree.nodes := by
  induction cs with
  | nil => simp [Tree.nodesL]
  | cons c cs ih => simp [Tree.nodesL, ih]

theorem explicitCover_pos {ir : Bool} {dptr : N → Option Dptr} {n : N} {cs : List (Tree N)}
    (h : Explicit ir dptr (.node n cs)) : explicitCover ir dptr (.node n cs) = [.node n cs] := by
  obtain ⟨d, hd, h1, h2⟩ := h
  simp only [Tree.root] at hd
  simp only [explicitCover, hd, h1]
  cases ir with
  | false => simp
  | true => simp [h2 rfl]

theorem explicitCover_neg {ir : Bool} {dptr : N → Option Dptr} {n : N} {cs : List (Tree N)}
    (h : ¬ Explicit ir dptr (.node n cs)) :
    explicitCover ir dptr (.node n cs) = cs.flatMap (explicitCover ir dptr) := by
  simp only [explicitCover, explicitCoverL_eq]
  split
  · rfl
  · rename_i d hd
    rw [if_pos]
    simp only [Bool.or_eq_true, Bool.not_eq_eq_eq_not, Bool.not_true, Bool.and_eq_true]
    by_contra hc
    push Not at hc
    exact h ⟨d, hd, by simpa using hc.1, fun hi => by simpa using hc.2 hi⟩

theorem accessCover_pos {ir : Bool} {dptr : N → Option Dptr} {n : N} {cs : List (Tree N)}
    (h : Relevant ir dptr (.node n cs)) : accessCover ir dptr (.node n cs) = [.node n cs] := by
  obtain ⟨d, hd, h1⟩ := h
  simp only [Tree.root] at hd
  simp only [accessCover, hd]
  rw [if_pos]
  rcases h1 with h | ⟨h, h'⟩
  · simp [h]
  · simp [h, h']

theorem accessCover_neg {ir : Bool} {dptr : N → Option Dptr} {n : N} {cs : List (Tree N)}
    (h : ¬ Relevant ir dptr (.node n cs)) :
    accessCover ir dptr (.node n cs) = if (dptr n).isSome then cs.flatMap (accessCover ir dptr) else [] := by
  simp only [accessCover, accessCoverL_eq]
  split
  · rename_i hd; simp [hd]
  · rename_i d hd
    rw [if_neg, hd]
    · rfl
    · intro hc
      simp only [Bool.or_eq_true, Bool.not_eq_eq_eq_not, Bool.not_true, Bool.and_eq_true] at hc
      exact h ⟨d, hd, hc⟩

theorem sub_nodes {s t : Tree N} (h : Sub s t) : ∀ n ∈ s.nodes, n ∈ t.nodes := by
  induction h with
  | refl => exact fun _ h => h
  | child hm _ ih =>
    intro n hn
    simp only [Tree.nodes, nodesL_eq, List.mem_cons, List.mem_flatMap]
    exact Or.inr ⟨_, hm, ih n hn⟩

theorem root_mem (t : Tree N) : t.root ∈ t.nodes := by cases t; simp [Tree.root, Tree.nodes]

theorem sub_size {s t : Tree N} (h : Sub s t) : s = t ∨ s.nodes.length < t.nodes.length := by
  induction h with
  | refl => exact Or.inl rfl
  | @child c n cs hm _ ih =>
    right
    have h1 : c.nodes.length ≤ (Tree.nodesL cs).length := by
      rw [nodesL_eq]
      exact (List.sublist_flatten_of_mem (List.mem_map_of_mem hm)).length_le
    simp only [Tree.nodes, List.length_cons]
    rcases ih with rfl | ih <;> omega

theorem sub_antisymm {s t : Tree N} (h1 : Sub s t) (h2 : Sub t s) : s = t := by
  rcases sub_size h1 with h | h
  · exact h
  · rcases sub_size h2 with h' | h'
    · exact h'.symm
    · omega

theorem nodup_child {n : N} {cs : List (Tree N)} (h : (Tree.node n cs).nodes.Nodup) {c : Tree N} (hc : c ∈ cs) :
    c.nodes.Nodup := by
  simp only [Tree.nodes, nodesL_eq, List.nodup_cons] at h
  exact (List.nodup_flatMap.1 h.2).1 c hc

theorem same_child {n : N} {cs : List (Tree N)} (h : (Tree.node n cs).nodes.Nodup) {c d : Tree N} (hc : c ∈ cs)
    (hd : d ∈ cs) {x : N} (h1 : x ∈ c.nodes) (h2 : x ∈ d.nodes) : c = d := by
  simp only [Tree.nodes, nodesL_eq, List.nodup_cons] at h
  by_contra hne
  haveI : Std.Symm (Function.onFun List.Disjoint (Tree.nodes (N := N))) := ⟨fun _ _ hab => hab.symm⟩
  exact (List.nodup_flatMap.1 h.2).2.forall hc hd hne h1 h2

/-- A general form of both algorithms: a node which satisfies `P` is inserted, otherwise its children are visited
if `Q` holds. -/
structure Walk (P Q : Tree N → Prop) (f : Tree N → List (Tree N)) : Prop where
  pos : ∀ n cs, P (.node n cs) → f (.node n cs) = [.node n cs]
  visit : ∀ n cs, ¬ P (.node n cs) → Q (.node n cs) → f (.node n cs) = cs.flatMap f
  skip : ∀ n cs, ¬ P (.node n cs) → ¬ Q (.node n cs) → f (.node n cs) = []

open Classical in
theorem Walk.sound {P Q : Tree N → Prop} {f : Tree N → List (Tree N)} (hf : Walk P Q f) :
    ∀ t c, c ∈ f t → Sub c t ∧ P c := by
  refine tree_ind ?_
  intro n cs ih c hc
  by_cases hp : P (.node n cs)
  · rw [hf.pos n cs hp, List.mem_singleton] at hc
    subst hc
    exact ⟨.refl _, hp⟩
  · by_cases hq : Q (.node n cs)
    · rw [hf.visit n cs hp hq, List.mem_flatMap] at hc
      obtain ⟨x, hx, hcx⟩ := hc
      exact ⟨.child hx (ih x hx c hcx).1, (ih x hx c hcx).2⟩
    · rw [hf.skip n cs hp hq] at hc
      cases hc

open Classical in
theorem Walk.complete {P Q : Tree N → Prop} {f : Tree N → List (Tree N)} (hf : Walk P Q f) :
    ∀ t s, Sub s t → P s → (∀ u, Sub s u → Sub u t → Q u) → ∃ c ∈ f t, Sub s c := by
  intro t s hs hp hq
  induction hs with
  | refl =>
    cases s with
    | node n cs => exact ⟨_, by rw [hf.pos n cs hp]; simp, .refl _⟩
  | @child c n cs hm hsc ih =>
    by_cases hpn : P (.node n cs)
    · exact ⟨.node n cs, by rw [hf.pos n cs hpn]; simp, .child hm hsc⟩
    · obtain ⟨x, hx, hsx⟩ := ih (fun u h1 h2 => hq u h1 (.child hm h2))
      refine ⟨x, ?_, hsx⟩
      rw [hf.visit n cs hpn (hq _ (.child hm hsc) (.refl _)), List.mem_flatMap]
      exact ⟨c, hm, hx⟩

open Classical in
theorem Walk.highest {P Q : Tree N → Prop} {f : Tree N → List (Tree N)} (hf : Walk P Q f) :
    ∀ t c, t.nodes.Nodup → c ∈ f t → ∀ s, Sub s t → Sub c s → P s → s = c := by
  refine tree_ind ?_
  intro n cs ih c hnd hc s hs hcs hps
  by_cases hp : P (.node n cs)
  · rw [hf.pos n cs hp, List.mem_singleton] at hc
    subst hc
    exact sub_antisymm hs hcs
  · by_cases hq : Q (.node n cs)
    · rw [hf.visit n cs hp hq, List.mem_flatMap] at hc
      obtain ⟨x, hx, hcx⟩ := hc
      cases hs with
      | refl => exact absurd hps hp
      | @child y _ _ hy hsy =>
        have hxy : x = y := same_child hnd hx hy
          (sub_nodes (hf.sound x c hcx).1 _ (root_mem c)) (sub_nodes (hcs.trans hsy) _ (root_mem c))
        subst hxy
        exact ih x hx c (nodup_child hnd hx) hcx s hsy hcs hps
    · rw [hf.skip n cs hp hq] at hc
      cases hc

theorem flatMap_sublist {α β γ : Type} (cs : List α) (f : α → List β) (g : β → List γ) (h : α → List γ)
    (hs : ∀ c ∈ cs, ((f c).flatMap g).Sublist (h c)) : ((cs.flatMap f).flatMap g).Sublist (cs.flatMap h) := by
  induction cs with
  | nil => simp
  | cons c cs ih =>
    rw [List.flatMap_cons, List.flatMap_append, List.flatMap_cons]
    exact (hs c (by simp)).append (ih fun c hc => hs c (by simp [hc]))

open Classical in
theorem Walk.once {P Q : Tree N → Prop} {f : Tree N → List (Tree N)} (hf : Walk P Q f) :
    ∀ t, ((f t).flatMap Tree.nodes).Sublist t.nodes := by
  refine tree_ind ?_
  intro n cs ih
  by_cases hp : P (.node n cs)
  · rw [hf.pos n cs hp]; simp
  · by_cases hq : Q (.node n cs)
    · rw [hf.visit n cs hp hq, Tree.nodes, nodesL_eq]
      exact (flatMap_sublist cs f Tree.nodes Tree.nodes ih).cons n
    · rw [hf.skip n cs hp hq]; simp

theorem explicit_walk (ir : Bool) (dptr : N → Option Dptr) :
    Walk (Explicit ir dptr) (fun _ => True) (explicitCover ir dptr) where
  pos _ _ h := explicitCover_pos h
  visit _ _ h _ := explicitCover_neg h
  skip _ _ _ h := absurd trivial h

theorem access_walk (ir : Bool) (dptr : N → Option Dptr) :
    Walk (Relevant ir dptr) (fun t => (dptr t.root).isSome = true) (accessCover ir dptr) where
  pos _ _ h := accessCover_pos h
  visit n cs h hq := by rw [accessCover_neg h]; exact if_pos hq
  skip n cs h hq := by rw [accessCover_neg h]; exact if_neg hq

/-! ## C73 -/

/-- C73. The coverage of explicit accesses: nodes of the coverage are explicitly accessed nodes of the tree, each
explicitly accessed node belongs to a subtree of the coverage, explicitly accessed nodes which contain a node of
the coverage are this node, and each node of the tree belongs to at most one subtree of the coverage. -/
theorem explicit_coverage (ir : Bool) (dptr : N → Option Dptr) (t : Tree N) (hnd : t.nodes.Nodup) :
    (∀ c ∈ explicitCover ir dptr t, Sub c t ∧ Explicit ir dptr c) ∧
    (∀ s, Sub s t → Explicit ir dptr s → ∃ c ∈ explicitCover ir dptr t, Sub s c) ∧
    (∀ c ∈ explicitCover ir dptr t, ∀ s, Sub s t → Sub c s → Explicit ir dptr s → s = c) ∧
    ((explicitCover ir dptr t).flatMap Tree.nodes).Nodup :=
  ⟨(explicit_walk ir dptr).sound t,
   fun s hs hp => (explicit_walk ir dptr).complete t s hs hp (fun _ _ _ => trivial),
   fun c hc => (explicit_walk ir dptr).highest t c hnd hc,
   hnd.sublist ((explicit_walk ir dptr).once t)⟩

/-- C73. The coverage of all accesses: the same holds for nodes with relevant memory, but a node belongs to a
subtree of the coverage only if there are traits for all nodes which contain it. -/
theorem access_coverage_partial (ir : Bool) (dptr : N → Option Dptr) (t : Tree N) (hnd : t.nodes.Nodup) :
    (∀ c ∈ accessCover ir dptr t, Sub c t ∧ Relevant ir dptr c) ∧
    (∀ s, Sub s t → Relevant ir dptr s → (∀ u, Sub s u → Sub u t → (dptr u.root).isSome = true) →
      ∃ c ∈ accessCover ir dptr t, Sub s c) ∧
    (∀ c ∈ accessCover ir dptr t, ∀ s, Sub s t → Sub c s → Relevant ir dptr s → s = c) ∧
    ((accessCover ir dptr t).flatMap Tree.nodes).Nodup :=
  ⟨(access_walk ir dptr).sound t, (access_walk ir dptr).complete t,
   fun c hc => (access_walk ir dptr).highest t c hnd hc, hnd.sublist ((access_walk ir dptr).once t)⟩

/-- Traits with unit flags only. -/
def exUnit (us : List UnitTrait) : Dptr := ⟨fun u => us.contains u, fun d => d == .shared⟩

/-- The tree `0 → (1 → 2), 3`, where `1` and `2` are explicitly accessed. -/
def exTree : Tree Nat := .node 0 [.node 1 [.node 2 []], .node 3 []]

/-- Traits of nodes of the tree. -/
def exTraits (n : Nat) : Option Dptr :=
  if n = 0 then some (exUnit []) else if n = 1 then some (exUnit [.noRedundant, .explicitAccess])
  else if n = 2 then some (exUnit [.redundant, .explicitAccess]) else none

/-- The node `2` is explicitly accessed and it is covered by its parent; both kinds of coverage are `{1}`. -/
example : exTree.nodes.Nodup ∧ Explicit false exTraits (.node 2 []) ∧
    Sub (.node 2 []) exTree ∧
    (explicitCover true exTraits exTree).map Tree.root = [1] ∧
    (accessCover true exTraits exTree).map Tree.root = [1] := by
  refine ⟨by decide +kernel, ⟨_, rfl, rfl, fun h => by cases h⟩,
    .child (List.mem_cons_self ..) (.child (List.mem_singleton_self _) (.refl _)), by decide +kernel, by decide +kernel⟩

/-- Traits of a leaf without traits of its parent. -/
def exGap (n : Nat) : Option Dptr :=
  if n = 0 then some (exUnit []) else if n = 2 then some (exUnit [.noRedundant, .explicitAccess]) else none

/-- C73. If there are no traits for an intermediate node then memory which is accessed in the region may be left
without coverage. -/
theorem access_coverage_fails : ∃ (dptr : Nat → Option Dptr) (t s : Tree Nat), t.nodes.Nodup ∧ Sub s t ∧
    Relevant true dptr s ∧ (dptr t.root).isSome = true ∧ ¬ ∃ c ∈ accessCover true dptr t, Sub s c := by
  refine ⟨exGap, exTree, .node 2 [], by decide +kernel,
    .child (List.mem_cons_self ..) (.child (List.mem_singleton_self _) (.refl _)), ⟨_, rfl, Or.inl rfl⟩, rfl, ?_⟩
  rintro ⟨c, hc, _⟩
  have : (accessCover true exGap exTree).length = 0 := by decide +kernel
  rw [List.length_eq_zero_iff] at this
  rw [this] at hc
  cases hc

end Parallel
end Tsar
