import Verif.Graph.BackEdge
import Verif.Graph.Numbering
import Verif.Graph.General

/-! # Tree relation: properties C26, C27 and C57 (back edges are in `Verif.Graph.BackEdge`) -/

namespace Tsar
namespace Graph

variable {N : Type} [DecidableEq N]

set_option linter.unusedSectionVars false

theorem below_entry {ch : N → List N} {entry x : N} : Below ch [entry] x ↔ Reach ch entry x := by
  simp [Below]

/-- C26. A finite graph can always be numbered. -/
theorem numberGraph_total (ch : N → List N) (entry : N) (size : Nat) (nodes : List N)
    (h : Within ch entry nodes) (fuel : Nat) (hf : nodes.length ≤ fuel) :
    ∃ s, numberGraph ch entry size fuel = some s := by
  classical
  let ns := nodes.filter fun n => decide (Reach ch entry n)
  have hmem : ∀ n, n ∈ ns ↔ Reach ch entry n := by
    intro n; simp only [ns, List.mem_filter, decide_eq_true_eq]
    exact ⟨fun h => h.2, fun hr => ⟨h _ hr, hr⟩⟩
  have := number_total (ch := ch) (nodes := ns)
    (fun a ha b hb => (hmem b).2 (((hmem a).1 ha).tail hb)) fuel [entry]
    (Numbering.init size) (fun m hm => (hmem m).2 (by rw [List.mem_singleton.1 hm]; exact .refl))
    (Nat.le_trans List.countP_le_length (Nat.le_trans (List.length_filter_le _ _) hf))
  unfold numberGraph
  exact Option.ne_none_iff_exists'.1 this

/-- C26. If the size of a graph is the number of its reachable nodes then reverse post-order numbers
are between one and the size, i.e. unsigned numbers do not wrap around. -/
theorem numberGraph_range (ch : N → List N) (entry : N) (nodes : List N)
    (h : Within ch entry nodes) (fuel : Nat) (s : Numbering N)
    (hs : numberGraph ch entry nodes.length fuel = some s) (x : N) (q : Int)
    (hq : s.rpost x = some q) : 1 ≤ q ∧ q ≤ nodes.length := by
  obtain ⟨a1, a2, a3, a4, a5⟩ := number_range _ _ _ _ hs (by simp [Numbering.init])
  have hsub : s.visited.length ≤ nodes.length := by
    refine (List.Nodup.subperm a1 fun x hx => ?_).length_le
    rcases a4 x hx with h' | h'
    · simp [Numbering.init] at h'
    · exact h _ (below_entry.1 h')
  rcases a5 x q hq with h' | h'
  · simp [Numbering.init] at h'
  · simp only [Numbering.init, List.length_nil] at a3 h'
    omega

/-- Numbers of a tree. -/
theorem numberGraph_tree {ch : N → List N} (hf : Forest ch) {entry : N} {size fuel : Nat}
    {s : Numbering N} (hs : numberGraph ch entry size fuel = some s) :
    Numbered ch [entry] (Numbering.init size) s :=
  numbered hf _ _ _ _ hs (by simp) (by simp) (by simp [Numbering.init])

/-- C26. On a tree the relation is exact. -/
theorem compare_tree (ch : N → List N) (hf : Forest ch) (entry : N) (size fuel : Nat)
    (s : Numbering N) (hs : numberGraph ch entry size fuel = some s) (l r : N)
    (hl : Reach ch entry l) (hr : Reach ch entry r) :
    (compare s l r = some .ancestor ↔ Path ch l r) ∧
    (compare s l r = some .descendant ↔ Path ch r l) ∧
    (compare s l r = some .equal ↔ l = r) ∧
    (compare s l r = some .unreachable ↔ l ≠ r ∧ ¬ Path ch l r ∧ ¬ Path ch r l) ∧
    compare s l r ≠ none := by
  have H := numberGraph_tree hf hs
  obtain ⟨l1, l2, -⟩ := H.known l (below_entry.2 hl)
  obtain ⟨r1, r2, -⟩ := H.known r (below_entry.2 hr)
  have o1 := H.order l r (below_entry.2 hl) (below_entry.2 hr)
  have o2 := H.order r l (below_entry.2 hr) (below_entry.2 hl)
  have hc : ¬ (Path ch l r ∧ Path ch r l) := fun h => hf.acyclic _ (h.1.trans h.2)
  unfold compare
  by_cases heq : l = r
  · subst heq
    simp [hf.acyclic l]
  · rw [if_neg heq, l1, l2, r1, r2]
    simp only [gt_iff_lt]
    by_cases h1 : Path ch l r
    · have h2 : ¬ Path ch r l := fun h => hc ⟨h1, h⟩
      rw [if_pos (o1.2 h1)]
      simp [h1, h2, heq]
    · rw [if_neg (fun h => h1 (o1.1 h))]
      by_cases h2 : Path ch r l
      · rw [if_pos (o2.2 h2)]; simp [h1, h2, heq]
      · rw [if_neg (fun h => h2 (o2.1 h))]; simp [h1, h2, heq]

/-- A tree with the root `0`, its children `1` and `2` and a grandchild `3` below `2`. -/
def tree4 (n : Nat) : List Nat := if n = 0 then [1, 2] else if n = 2 then [3] else []

theorem tree4_path {a b : Nat} (h : Path tree4 a b) : a < b := by
  have edge : ∀ a b, Edge tree4 a b → a < b := by
    intro a b e
    unfold Edge tree4 at e
    split at e
    · simp at e; omega
    · split at e
      · simp at e; omega
      · simp at e
  induction h with
  | single e => exact edge _ _ e
  | tail _ e ih => exact Nat.lt_trans ih (edge _ _ e)

theorem tree4_forest : Forest tree4 := by
  refine ⟨fun a a' b e e' => ?_, fun a => ?_, fun a h => absurd (tree4_path h) (Nat.lt_irrefl _)⟩
  · unfold Edge tree4 at e e'
    split at e
    · split at e'
      · omega
      · split at e'
        · simp at e e'; omega
        · simp at e'
    · split at e
      · split at e'
        · simp at e e'; omega
        · split at e'
          · omega
          · simp at e'
      · simp at e
  · unfold tree4
    split
    · decide
    · split <;> decide

example : Forest tree4 ∧
    (numberGraph tree4 0 4 4).map (fun s => (compare s 2 3, compare s 3 0, compare s 1 3)) =
      some (some .ancestor, some .descendant, some .unreachable) :=
  ⟨tree4_forest, by
    simp [numberGraph, numberFrom, tree4, Numbering.init, Numbering.insert, Numbering.completed,
      compare]⟩

/-- The graph `0 → 1`, `0 → 2`, `0 → 3`, `3 → 1`. -/
def dag4 (n : Nat) : List Nat := if n = 0 then [1, 2, 3] else if n = 3 then [1] else []

/-- C27. On a graph which is not a tree a node may be reported as an ancestor of a node which it
does not reach at all: the number of a node is overwritten when an edge to an already visited node
is examined. -/
theorem compare_graph_fails :
    ¬ ∀ (ch : Nat → List Nat) (entry size fuel : Nat) (s : Numbering Nat) (l r : Nat),
      numberGraph ch entry size fuel = some s → compare s l r = some .ancestor → Reach ch l r := by
  intro h
  have hs : ∃ s, numberGraph dag4 0 4 4 = some s ∧ compare s 2 1 = some .ancestor := by
    simp [numberGraph, numberFrom, dag4, Numbering.init, Numbering.insert, Numbering.completed,
      compare]
  obtain ⟨s, hs, hc⟩ := hs
  have hr := h dag4 0 4 4 s 2 1 hs hc
  rcases Relation.ReflTransGen.cases_head hr with h | ⟨z, hz, -⟩
  · omega
  · simp [Edge, dag4] at hz

/-- C27. What is true for all graphs: nodes reachable from the entry are always comparable, a node is
equal to itself only, and the two directions agree. If the graph has no cycles then the direction is
never inverted: a node which is reported as an ancestor is not reachable from its descendant.
What is missing: an ancestor reaches its descendant (it is false). -/
theorem compare_graph_partial (ch : N → List N) (entry : N) (size fuel : Nat)
    (s : Numbering N) (hs : numberGraph ch entry size fuel = some s) (l r : N)
    (hl : Reach ch entry l) (hr : Reach ch entry r) :
    compare s l r ≠ none ∧ (compare s l r = some .equal ↔ l = r) ∧
    (compare s l r = some .ancestor ↔ compare s r l = some .descendant) ∧
    (¬ HasCycle ch entry → compare s l r = some .ancestor → ¬ Reach ch r l) := by
  have ht : Tidy (Numbering.init size : Numbering N) := ⟨by simp [Numbering.init], by
    simp [Numbering.init]⟩
  obtain ⟨g1, -, g3, -, g5, -⟩ := number_general _ _ _ _ hs ht
  have vis : ∀ x, Reach ch entry x → x ∈ s.visited := by
    intro x hx
    induction hx with
    | refl => exact g3 entry List.mem_cons_self
    | tail _ e ih => exact (g5 _ ih (by simp [Numbering.init])).2 _ e
  have num : ∀ x, Reach ch entry x → ∃ p q, s.pre x = some p ∧ s.rpost x = some q := by
    intro x hx
    obtain ⟨p, hp⟩ := Option.ne_none_iff_exists'.1 (g1.pre x (vis x hx))
    obtain ⟨q, hq⟩ := Option.ne_none_iff_exists'.1 (g5 x (vis x hx) (by simp [Numbering.init])).1
    exact ⟨p, q, hp, hq⟩
  obtain ⟨pl, ql, hpl, hql⟩ := num l hl
  obtain ⟨pr, qr, hpr, hqr⟩ := num r hr
  have e1 : compare s l r = if l = r then some .equal else if pl < pr ∧ ql < qr then some .ancestor
      else if pl > pr ∧ ql > qr then some .descendant else some .unreachable := by
    unfold compare; rw [hpl, hpr, hql, hqr]
  have e2 : compare s r l = if r = l then some .equal else if pr < pl ∧ qr < ql then some .ancestor
      else if pr > pl ∧ qr > ql then some .descendant else some .unreachable := by
    unfold compare; rw [hpl, hpr, hql, hqr]
  refine ⟨?_, ?_, ?_, fun hc ha hrl => ?_⟩
  · rw [e1]; repeat' split
    all_goals simp
  · rw [e1]; repeat' split
    all_goals simp_all
  · rw [e1, e2]
    by_cases h : l = r
    · simp [h]
    · rw [if_neg h, if_neg (Ne.symm h)]
      by_cases h1 : pl < pr ∧ ql < qr
      · rw [if_pos h1, if_neg (by omega), if_pos (by omega)]; simp
      · rw [if_neg h1]
        constructor
        · intro h'; split at h' <;> simp at h'
        · intro h'
          split at h'
          · simp at h'
          · simp at h'
  · obtain ⟨hsort, -⟩ := number_sorted _ _ _ _ hs ht (by simpa using hc)
      (by simp [Numbering.init]) (by intro x q hq; simp [Numbering.init] at hq)
    have mono : ∀ x, Reach ch r x → ∃ q, s.rpost x = some q ∧ qr ≤ q := by
      intro x hx
      induction hx with
      | refl => exact ⟨qr, hqr, Int.le_refl _⟩
      | tail _ e ih =>
        obtain ⟨q, h1, h2⟩ := ih
        obtain ⟨q', h3, h4⟩ := hsort _ q h1 _ e
        exact ⟨q', h3, by omega⟩
    obtain ⟨q, h1, h2⟩ := mono l hrl
    rw [hql] at h1
    simp only [Option.some.injEq] at h1
    rw [e1] at ha
    split at ha
    · simp at ha
    · split at ha
      · omega
      · split at ha <;> simp at ha

example : ∃ s, numberGraph dag4 0 4 4 = some s ∧ Reach dag4 0 3 ∧ Reach dag4 0 1 ∧
    compare s 3 1 = some .ancestor ∧ compare s 0 1 = some .ancestor := by
  simp [numberGraph, numberFrom, dag4, Numbering.init, Numbering.insert, Numbering.completed,
      compare]
  exact ⟨.single (by simp [Edge, dag4]), .single (by simp [Edge, dag4])⟩

/-! ## C57: parents and the lowest common ancestor -/

section LCA

variable {ch pr : N → List N} {entry : N} {size fuel : Nat} {s : Numbering N}

/-- The graph is a tree with the specified root and `pr` lists parents. -/
structure Rooted (ch pr : N → List N) (entry : N) : Prop where
  forest : Forest ch
  inverse : ∀ a b, Edge ch a b ↔ a ∈ pr b
  root : pr entry = []

theorem reach_parent (hf : Forest ch) {p n : N} (hn : Reach ch entry n) (hne : n ≠ entry)
    (hp : Edge ch p n) : Reach ch entry p := by
  rcases Relation.ReflTransGen.cases_tail hn with h | ⟨z, hz, ez⟩
  · exact absurd h hne
  · rw [← hf.parent _ _ _ ez hp]; exact hz

/-- C57. A parent is found for each node of a tree except the root. -/
theorem findParent_tree (h : Rooted ch pr entry) (hs : numberGraph ch entry size fuel = some s)
    (n : N) (hn : Reach ch entry n) :
    (n = entry ∧ findParent s n (pr n) = some none) ∨
    ∃ p, Edge ch p n ∧ Reach ch entry p ∧ findParent s n (pr n) = some (some p) := by
  by_cases hne : n = entry
  · left; subst hne; exact ⟨rfl, by rw [h.root]; rfl⟩
  · right
    obtain ⟨p, hp, ep⟩ := (Relation.ReflTransGen.cases_tail hn).resolve_left hne
    refine ⟨p, ep, hp, ?_⟩
    have hall : ∀ q ∈ pr n, q = p := fun q hq => h.forest.parent _ _ _ ((h.inverse _ _).2 hq) ep
    have hmem := (h.inverse _ _).1 ep
    obtain ⟨-, hd, -⟩ := compare_tree ch h.forest entry size fuel s hs n p hn hp
    have hd' := hd.2 (.single ep)
    cases hl : pr n with
    | nil => simp [hl] at hmem
    | cons q qs =>
      have := hall q (by simp [hl])
      subst this
      simp [findParent, hd']

/-- Results of climbing. -/
def ClimbOK (ch : N → List N) (node lca : N) : Option (N × TreeRelation) → Prop
  | some (l, .ancestor) => Reach ch l lca ∧ Path ch l node ∧
      ∀ q, Reach ch q lca → Path ch q node → Reach ch q l
  | some (_, .descendant) => Path ch node lca
  | some _ => False
  | none => ∀ q, Reach ch q lca → ¬ Path ch q node

theorem climb_tree (h : Rooted ch pr entry) (hs : numberGraph ch entry size fuel = some s)
    (node lca : N) (hn : Reach ch entry node) (hl : Reach ch entry lca) :
    ∃ f0 r, (∀ f, f0 ≤ f → climb s pr node f lca = some r) ∧ ClimbOK ch node lca r ∧
      ∀ l k, r = some (l, k) → Reach ch entry l := by
  induction hl with
  | refl =>
    obtain ⟨ha, hd, he, hu, hnn⟩ := compare_tree ch h.forest entry size fuel s hs entry node .refl hn
    cases hc : compare s entry node with
    | none => exact absurd hc hnn
    | some k =>
      have up : ∀ q, Reach ch q entry → q = entry := by
        intro q hq
        rcases Relation.ReflTransGen.cases_tail hq with h' | ⟨z, hz, ez⟩
        · exact h'.symm
        · have := (h.inverse _ _).1 ez
          simp [h.root] at this
      cases k with
      | ancestor =>
        refine ⟨0, some (entry, .ancestor), fun f _ => by unfold climb; simp [hc], ?_, ?_⟩
        · exact ⟨.refl, ha.1 hc, fun q hq _ => hq⟩
        · rintro l k ⟨⟩; exact .refl
      | descendant =>
        refine ⟨0, some (entry, .descendant), fun f _ => by unfold climb; simp [hc], ?_, ?_⟩
        · exact hd.1 hc
        · rintro l k ⟨⟩; exact .refl
      | equal =>
        have := he.1 hc
        subst this
        refine ⟨1, none, fun f hf => ?_, ?_, by simp⟩
        · obtain ⟨f', rfl⟩ : ∃ f', f = f' + 1 := ⟨f - 1, by omega⟩
          unfold climb; simp [hc, h.root, findParent]
        · intro q hq hp
          rw [up q hq] at hp
          exact h.forest.acyclic _ hp
      | unreachable =>
        obtain ⟨h1, h2, -⟩ := hu.1 hc
        rcases Relation.ReflTransGen.cases_head hn with h' | ⟨z, hz, hr⟩
        · exact absurd h' h1
        · exact absurd (Relation.TransGen.head' hz hr) h2
  | @tail p lca hp e ih =>
    have hl : Reach ch entry lca := hp.tail e
    obtain ⟨ha, hd, he, hu, hnn⟩ := compare_tree ch h.forest entry size fuel s hs lca node hl hn
    have hpar : findParent s lca (pr lca) = some (some p) := by
      rcases findParent_tree h hs lca hl with ⟨rfl, -⟩ | ⟨p', ep', -, hf⟩
      · have := (h.inverse _ _).1 e
        simp [h.root] at this
      · rw [hf, h.forest.parent _ _ _ ep' e]
    obtain ⟨f0, r, h1, h2, h3⟩ := ih
    -- a climb which continues with the parent
    have cont : (compare s lca node = some .equal ∨ compare s lca node = some .unreachable) →
        ¬ Path ch lca node →
        ∃ f0 r, (∀ f, f0 ≤ f → climb s pr node f lca = some r) ∧ ClimbOK ch node lca r ∧
          ∀ l k, r = some (l, k) → Reach ch entry l := by
      intro hc hnp
      refine ⟨f0 + 1, r, fun f hf => ?_, ?_, h3⟩
      · obtain ⟨f', rfl⟩ : ∃ f', f = f' + 1 := ⟨f - 1, by omega⟩
        unfold climb
        rcases hc with hc | hc <;> simp [hc, hpar, h1 f' (by omega)]
      · have up : ∀ q, Reach ch q lca → Path ch q node → Reach ch q p := by
          intro q hq hqn
          rcases Relation.ReflTransGen.cases_tail hq with h' | ⟨z, hz, ez⟩
          · rw [h'] at hnp; exact absurd hqn hnp
          · rw [← h.forest.parent _ _ _ ez e]; exact hz
        match r, h2 with
        | some (l, .ancestor), h2 => exact ⟨h2.1.tail e, h2.2.1, fun q hq hqn => h2.2.2 q (up q hq hqn) hqn⟩
        | some (_, .descendant), h2 => exact Relation.TransGen.tail h2 e
        | none, h2 => exact fun q hq hqn => h2 q (up q hq hqn) hqn
    cases hc : compare s lca node with
    | none => exact absurd hc hnn
    | some k =>
      cases k with
      | ancestor =>
        refine ⟨0, some (lca, .ancestor), fun f _ => by unfold climb; simp [hc], ?_, ?_⟩
        · exact ⟨.refl, ha.1 hc, fun q hq _ => hq⟩
        · rintro l k ⟨⟩; exact hl
      | descendant =>
        refine ⟨0, some (lca, .descendant), fun f _ => by unfold climb; simp [hc], ?_, ?_⟩
        · exact hd.1 hc
        · rintro l k ⟨⟩; exact hl
      | equal =>
        have := he.1 hc
        exact cont (.inl hc) (this ▸ h.forest.acyclic _)
      | unreachable => exact cont (.inr hc) (hu.1 hc).2.1

/-- Results of the search. -/
def LcaOK (ch : N → List N) (ns : List N) : Option N → Prop
  | some p => LowestCommonAncestor ch p ns
  | none => ∀ q, ¬ CommonAncestor ch q ns

theorem lcaLoop_tree (h : Rooted ch pr entry) (hs : numberGraph ch entry size fuel = some s)
    (ns : List N) (hns : ∀ n ∈ ns, Reach ch entry n) (done : List N) (lca : N)
    (hl : Reach ch entry lca) (hd : LowestCommonAncestor ch lca done) (hne : done ≠ []) :
    ∃ f0 r, (∀ f, f0 ≤ f → lcaLoop s pr f ns lca = some r) ∧ LcaOK ch (done ++ ns) r := by
  induction ns generalizing done lca with
  | nil => exact ⟨0, some lca, fun _ _ => rfl, by simpa [LcaOK] using hd⟩
  | cons n ns ih =>
    have hn := hns n List.mem_cons_self
    have hns' : ∀ m ∈ ns, Reach ch entry m := fun m hm => hns m (List.mem_cons_of_mem _ hm)
    obtain ⟨f0, r, h1, h2, h3⟩ := climb_tree h hs n lca hn hl
    have app : done ++ n :: ns = (done ++ [n]) ++ ns := by simp
    match r, h1, h2, h3 with
    | some (l, .ancestor), h1, h2, h3 =>
      obtain ⟨f1, r1, g1, g2⟩ := ih hns' (done ++ [n]) l (h3 _ _ rfl) (by
        refine ⟨fun m hm => ?_, fun q hq => ?_⟩
        · rcases List.mem_append.1 hm with hm | hm
          · exact Relation.TransGen.trans_right h2.1 (hd.1 m hm)
          · rw [List.mem_singleton.1 hm]; exact h2.2.1
        · exact h2.2.2 q (hd.2 q fun m hm => hq m (List.mem_append_left _ hm)) (hq n (by simp)))
        (by simp)
      refine ⟨max f0 f1, r1, fun f hf => ?_, by rw [app]; exact g2⟩
      have a := h1 f (by omega)
      have b := g1 f (by omega)
      simp [lcaLoop, a, b]
    | some (l, .descendant), h1, h2, h3 =>
      rcases findParent_tree h hs n hn with ⟨rfl, hp⟩ | ⟨p, ep, rp, hp⟩
      · refine ⟨f0, none, fun f hf => ?_, ?_⟩
        · have a := h1 f hf
          simp [lcaLoop, a, hp]
        · intro q hq
          have := hq n (by simp)
          obtain ⟨z, -, ez⟩ := Relation.TransGen.tail'_iff.1 this
          have := (h.inverse _ _).1 ez
          simp [h.root] at this
      · obtain ⟨f1, r1, g1, g2⟩ := ih hns' (done ++ [n]) p rp (by
          refine ⟨fun m hm => ?_, fun q hq => h.forest.path_parent (hq n (by simp)) ep⟩
          rcases List.mem_append.1 hm with hm | hm
          · exact Relation.TransGen.trans (.head ep h2) (hd.1 m hm)
          · rw [List.mem_singleton.1 hm]; exact .single ep) (by simp)
        refine ⟨max f0 f1, r1, fun f hf => ?_, by rw [app]; exact g2⟩
        have a := h1 f (by omega)
        have b := g1 f (by omega)
        simp [lcaLoop, a, b, hp]
    | none, h1, h2, h3 =>
      refine ⟨f0, none, fun f hf => ?_, ?_⟩
      · have a := h1 f hf
        simp [lcaLoop, a]
      · intro q hq
        exact h2 q (hd.2 q fun m hm => hq m (List.mem_append_left _ hm)) (hq n (by simp))

/-- C57. On a tree `findLCA()` always ends; it returns the lowest node which is a proper ancestor of
all specified nodes, or nothing if there is no such node. -/
theorem findLCA_tree (h : Rooted ch pr entry) (hs : numberGraph ch entry size fuel = some s)
    (ns : List N) (hne : ns ≠ []) (hns : ∀ n ∈ ns, Reach ch entry n) :
    ∃ f0 r, (∀ f, f0 ≤ f → findLCA s pr f ns = some r) ∧
      ((∃ p, r = some p ∧ LowestCommonAncestor ch p ns) ∨
       r = none ∧ ∀ q, ¬ CommonAncestor ch q ns) := by
  have conv : ∀ r, LcaOK ch ns r → ((∃ p, r = some p ∧ LowestCommonAncestor ch p ns) ∨
       r = none ∧ ∀ q, ¬ CommonAncestor ch q ns) := by
    intro r hr
    cases r with
    | none => exact .inr ⟨rfl, hr⟩
    | some p => exact .inl ⟨p, rfl, hr⟩
  cases ns with
  | nil => exact absurd rfl hne
  | cons n ns =>
    have hn := hns n List.mem_cons_self
    rcases findParent_tree h hs n hn with ⟨rfl, hp⟩ | ⟨p, ep, rp, hp⟩
    · refine ⟨0, none, fun f _ => by simp [findLCA, hp], conv _ ?_⟩
      intro q hq
      obtain ⟨z, -, ez⟩ := Relation.TransGen.tail'_iff.1 (hq n List.mem_cons_self)
      have := (h.inverse _ _).1 ez
      simp [h.root] at this
    · obtain ⟨f0, r, g1, g2⟩ := lcaLoop_tree h hs ns (fun m hm => hns m (List.mem_cons_of_mem _ hm))
        [n] p rp ⟨fun m hm => by rw [List.mem_singleton.1 hm]; exact .single ep,
          fun q hq => h.forest.path_parent (hq n (by simp)) ep⟩ (by simp)
      exact ⟨f0, r, fun f hf => by simp [findLCA, hp, g1 f hf], conv _ (by simpa using g2)⟩

end LCA

/-- Parents in the tree `tree4`. -/
def tree4Parents (n : Nat) : List Nat := if n = 1 ∨ n = 2 then [0] else if n = 3 then [2] else []

theorem tree4_rooted : Rooted tree4 tree4Parents 0 := by
  refine ⟨tree4_forest, fun a b => ?_, by simp [tree4Parents]⟩
  unfold Edge tree4 tree4Parents
  by_cases a0 : a = 0
  · by_cases b12 : b = 1 ∨ b = 2
    · simp [a0, b12]
    · by_cases b3 : b = 3 <;> simp [a0, b12, b3]
  · by_cases a2 : a = 2
    · by_cases b12 : b = 1 ∨ b = 2
      · rcases b12 with rfl | rfl <;> simp [a2]
      · by_cases b3 : b = 3 <;> simp [a2, b12, b3]
    · by_cases b12 : b = 1 ∨ b = 2
      · simp [a0, a2, b12]
      · by_cases b3 : b = 3 <;> simp [a0, a2, b12, b3]

example : Rooted tree4 tree4Parents 0 ∧
    (numberGraph tree4 0 4 4).map (fun s => findLCA s tree4Parents 4 [3, 1]) =
      some (some (some 0)) ∧
    (numberGraph tree4 0 4 4).map (fun s => findLCA s tree4Parents 4 [3, 3]) =
      some (some (some 2)) :=
  ⟨tree4_rooted, by
    simp [numberGraph, numberFrom, tree4, Numbering.init, Numbering.insert, Numbering.completed,
      compare, findLCA, findParent, lcaLoop, climb, tree4Parents], by
    simp [numberGraph, numberFrom, tree4, Numbering.init, Numbering.insert, Numbering.completed,
      compare, findLCA, findParent, lcaLoop, climb, tree4Parents]⟩

end Graph
end Tsar
