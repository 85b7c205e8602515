import Verif.Private.Propagate
import Verif.Graph.Props

/-!
# Coverage of a memory location

Models `cover()` from `include/tsar/Analysis/Memory/MemoryCoverage.h`: property C36.

The estimate memory tree is `Private.Forest` (parents of locations and the alias node of each location), the
alias tree is a graph of alias nodes and its numbers come from the model of `numberGraph()`.
-/

namespace Tsar
namespace Cover

open Graph (Numbering numberGraph Reach Path)
open Private (Forest)

set_option linter.unusedSectionVars false

/-! ## Model -/

/-- An element of the map `PreorderTraversal` (MemoryCoverage.h:62-65): the key is the preorder number, the value
is the reverse postorder number and the size. -/
structure Entry where
  p : Nat
  q : Int
  n : Nat
  deriving DecidableEq, Repr

/-- `std::map::emplace()`: nothing changes if the key exists. The map is a list sorted by keys. -/
def emplace (e : Entry) : List Entry → List Entry
  | [] => [e]
  | e' :: m => if e.p < e'.p then e :: e' :: m else if e.p = e'.p then e' :: m else e' :: emplace e m

/-- The result of the first loop. -/
inductive Collected where
  /-- The function returns `true`. -/
  | covered
  /-- The loop has been finished with a map. -/
  | map (m : List Entry)
  /-- There are no numbers for an alias node (the assertion at line 74 fails). -/
  | unnumbered
  deriving DecidableEq, Repr

/-- The loop at MemoryCoverage.h:66-80. `isDescendantOf()`, `isAncestorOf()` and `isUnreachable()`
(EstimateMemory.h:542-566) look for a location on a chain of parents. -/
def collect (f : Forest) (size : Nat → Option Nat) (s : Numbering Nat) (em : Nat) :
    List Nat → List Entry → Collected
  | [], m => .map m
  | i :: l, m =>
    if f.above i em then .covered
    else if !f.above em i && !f.above i em then collect f size s em l m
    else
      match size i with
      | none => .covered
      | some n =>
        match s.pre (f.node i), s.rpost (f.node i) with
        | some p, some q => collect f size s em l (emplace ⟨p, q, n⟩ m)
        | _, _ => .unnumbered

/-- The number of values of `uint64_t`. -/
def W : Nat := 2 ^ 64

/-- The loop at MemoryCoverage.h:89-98: `root` is `SubTreeRoot`, `cur` is `CurrentSize`, `tot` is
`TotalSize`. -/
def total (root : Int) : List Entry → (tot cur : Nat) → Nat
  | [], tot, cur => (tot + cur) % W
  | e :: m, tot, cur =>
    if root < e.q then total root m tot (max cur e.n) else total root m ((tot + cur) % W) e.n

/-- `cover()` (MemoryCoverage.h:44-100). The result `none` means that the assertion fails or `begin()` of an empty
map is dereferenced (line 87). -/
def cover (f : Forest) (size : Nat → Option Nat) (s : Numbering Nat) (em : Nat) (l : List Nat) : Option Bool :=
  match l with
  | [] => some false
  | _ :: _ =>
    match collect f size s em l [] with
    | .covered => some true
    | .unnumbered => none
    | .map m =>
      match size em with
      | none => some false
      | some n =>
        match m with
        | [] => none
        | e :: m => some (decide (n ≤ total e.q m 0 e.n))

/-! ## Specification -/

/-- Alias nodes are different and none of them is above the other one: memory in these nodes does not
overlap. -/
def Apart (ch : Nat → List Nat) (a b : Nat) : Prop := a ≠ b ∧ ¬ Path ch a b ∧ ¬ Path ch b a

/-- The sum of known sizes. -/
def sizes (size : Nat → Option Nat) (l : List Nat) : Nat := (l.map fun i => (size i).getD 0).sum

/-- What a user expects if a location is covered by a list: a listed location contains it, or a listed location of
an unknown size is a part of it, or there are listed parts which do not overlap and which are not smaller in
total. -/
def Covered (f : Forest) (ch : Nat → List Nat) (size : Nat → Option Nat) (em : Nat) (l : List Nat) : Prop :=
  (∃ i ∈ l, f.Contains i em) ∨ (∃ i ∈ l, f.Contains em i ∧ size i = none) ∨
  ∃ n, size em = some n ∧ ∃ sub : List Nat, (∀ i ∈ sub, i ∈ l ∧ f.Contains em i) ∧
    sub.Pairwise (fun i j => Apart ch (f.node i) (f.node j)) ∧ n ≤ sizes size sub

/-! ## The map -/

theorem mem_emplace {e x : Entry} : ∀ {m : List Entry}, x ∈ emplace e m → x = e ∨ x ∈ m := by
  intro m
  induction m with
  | nil => simp [emplace]
  | cons e' m ih =>
    unfold emplace
    split
    · simp
    · split
      · intro h; exact .inr h
      · intro h
        rcases List.mem_cons.1 h with rfl | h
        · exact .inr List.mem_cons_self
        · rcases ih h with h | h
          · exact .inl h
          · exact .inr (List.mem_cons_of_mem _ h)

/-- Keys increase. -/
def Sorted (m : List Entry) : Prop := m.Pairwise fun a b => a.p < b.p

theorem Sorted.emplace {e : Entry} : ∀ {m : List Entry}, Sorted m → Sorted (emplace e m) := by
  intro m
  induction m with
  | nil => intro _; exact List.pairwise_singleton _ _
  | cons e' m ih =>
    intro h
    obtain ⟨h1, h2⟩ := List.pairwise_cons.1 h
    unfold Cover.emplace
    split
    · rename_i hlt
      refine List.pairwise_cons.2 ⟨fun x hx => ?_, h⟩
      rcases List.mem_cons.1 hx with rfl | hx
      · exact hlt
      · exact Nat.lt_trans hlt (h1 x hx)
    · split
      · exact h
      · rename_i h3 h4
        refine List.pairwise_cons.2 ⟨fun x hx => ?_, ih h2⟩
        rcases mem_emplace hx with rfl | hx
        · omega
        · exact h1 x hx

/-- The entry represents a listed location inside `em`. -/
structure Repr (f : Forest) (size : Nat → Option Nat) (s : Numbering Nat) (em : Nat) (l : List Nat) (e : Entry)
    (i : Nat) : Prop where
  mem : i ∈ l
  inside : f.Contains em i
  size : size i = some e.n
  pre : s.pre (f.node i) = some e.p
  rpost : s.rpost (f.node i) = some e.q

theorem collect_map {f : Forest} {size : Nat → Option Nat} {s : Numbering Nat} {em : Nat} {l0 : List Nat} :
    ∀ (l : List Nat) (m m' : List Entry), (∀ i ∈ l, i ∈ l0) → Sorted m →
      (∀ e ∈ m, ∃ i, Repr f size s em l0 e i) → collect f size s em l m = .map m' →
      Sorted m' ∧ ∀ e ∈ m', ∃ i, Repr f size s em l0 e i := by
  intro l
  induction l with
  | nil =>
    intro m m' _ hs hr h
    simp only [collect, Collected.map.injEq] at h
    exact h ▸ ⟨hs, hr⟩
  | cons i l ih =>
    intro m m' hl hs hr h
    unfold collect at h
    split at h
    · cases h
    · rename_i h1
      split at h
      · exact ih m m' (fun j hj => hl j (List.mem_cons_of_mem _ hj)) hs hr h
      · rename_i h2
        split at h
        · cases h
        · rename_i n hn
          split at h
          · rename_i p q hp hq
            refine ih _ m' (fun j hj => hl j (List.mem_cons_of_mem _ hj)) hs.emplace ?_ h
            intro e he
            rcases mem_emplace he with rfl | he
            · refine ⟨i, hl i List.mem_cons_self, ?_, hn, hp, hq⟩
              refine Forest.above_iff.1 ?_
              cases h3 : f.above em i
              · simp [h3, h1] at h2
              · rfl
            · exact hr e he
          · cases h

theorem collect_covered {f : Forest} {size : Nat → Option Nat} {s : Numbering Nat} {em : Nat} :
    ∀ (l : List Nat) (m : List Entry), collect f size s em l m = .covered →
      (∃ i ∈ l, f.Contains i em) ∨ ∃ i ∈ l, f.Contains em i ∧ size i = none := by
  intro l
  induction l with
  | nil => intro m h; cases h
  | cons i l ih =>
    intro m h
    have lift : ((∃ i ∈ l, f.Contains i em) ∨ ∃ i ∈ l, f.Contains em i ∧ size i = none) →
        (∃ j ∈ i :: l, f.Contains j em) ∨ ∃ j ∈ i :: l, f.Contains em j ∧ size j = none := by
      rintro (⟨j, hj, h⟩ | ⟨j, hj, h⟩)
      · exact .inl ⟨j, List.mem_cons_of_mem _ hj, h⟩
      · exact .inr ⟨j, List.mem_cons_of_mem _ hj, h⟩
    unfold collect at h
    split at h
    · rename_i h1
      exact .inl ⟨i, List.mem_cons_self, Forest.above_iff.1 h1⟩
    · rename_i h1
      split at h
      · exact lift (ih m h)
      · rename_i h2
        split at h
        · rename_i hn
          refine .inr ⟨i, List.mem_cons_self, Forest.above_iff.1 ?_, hn⟩
          cases h3 : f.above em i
          · simp [h3, h1] at h2
          · rfl
        · split at h
          · exact lift (ih _ h)
          · cases h

/-! ## The sum -/

theorem total_le (root : Int) : ∀ (m : List Entry) (tot cur : Nat), (∀ e ∈ m, ¬ root < e.q) →
    total root m tot cur ≤ tot + cur + (m.map Entry.n).sum := by
  intro m
  induction m with
  | nil => intro tot cur _; simpa [total] using Nat.mod_le _ _
  | cons e m ih =>
    intro tot cur h
    unfold total
    rw [if_neg (h e List.mem_cons_self)]
    have := ih ((tot + cur) % W) e.n (fun x hx => h x (List.mem_cons_of_mem _ hx))
    have := Nat.mod_le (tot + cur) W
    simp only [List.map_cons, List.sum_cons]
    omega

theorem total_class (root : Int) (B : List Entry) : ∀ (A : List Entry) (c : Entry) (tot : Nat),
    (∀ e ∈ A, root < e.q) → ∃ c' ∈ c :: A, total root (A ++ B) tot c.n = total root B tot c'.n := by
  intro A
  induction A with
  | nil => intro c tot _; exact ⟨c, List.mem_cons_self, rfl⟩
  | cons e A ih =>
    intro c tot h
    rw [List.cons_append, total, if_pos (h e List.mem_cons_self)]
    by_cases hc : c.n ≤ e.n
    · obtain ⟨c', h1, h2⟩ := ih e tot (fun x hx => h x (List.mem_cons_of_mem _ hx))
      exact ⟨c', List.mem_cons_of_mem _ h1, by rw [Nat.max_eq_right hc, h2]⟩
    · obtain ⟨c', h1, h2⟩ := ih c tot (fun x hx => h x (List.mem_cons_of_mem _ hx))
      refine ⟨c', ?_, by rw [Nat.max_eq_left (by omega), h2]⟩
      rcases List.mem_cons.1 h1 with rfl | h1
      · exact List.mem_cons_self
      · exact List.mem_cons_of_mem _ (List.mem_cons_of_mem _ h1)

/-- Without any assumptions the sum does not exceed the sum of all entries. -/
theorem total_all (root : Int) : ∀ (m : List Entry) (tot cur : Nat),
    total root m tot cur ≤ tot + cur + (m.map Entry.n).sum := by
  intro m
  induction m with
  | nil => intro tot cur; simpa [total] using Nat.mod_le _ _
  | cons e m ih =>
    intro tot cur
    unfold total
    simp only [List.map_cons, List.sum_cons]
    split
    · have := ih tot (max cur e.n)
      omega
    · have := ih ((tot + cur) % W) e.n
      have := Nat.mod_le (tot + cur) W
      omega

/-! ## Trees -/

/-- Ancestors of a node of a tree are comparable. -/
theorem comparable {ch : Nat → List Nat} (hf : Graph.Forest ch) {a b c : Nat} (h1 : Path ch a c) (h2 : Path ch b c) :
    a = b ∨ Path ch a b ∨ Path ch b a := by
  induction h1 generalizing b with
  | single e =>
    cases h2 with
    | single e' => exact .inl (hf.parent _ _ _ e e')
    | tail h2 e' => exact .inr (.inr (hf.parent _ _ _ e e' ▸ h2))
  | tail h1 e ih =>
    cases h2 with
    | single e' => exact .inr (.inl (hf.parent _ _ _ e e' ▸ h1))
    | tail h2 e' =>
      rw [hf.parent _ _ _ e' e] at h2
      exact ih h2

section Tree

variable {f : Forest} {ch : Nat → List Nat} {size : Nat → Option Nat} {s : Numbering Nat} {em entry gsize fuel : Nat}
  {l : List Nat}

theorem Repr.order (hf : Graph.Forest ch) (hs : numberGraph ch entry gsize fuel = some s)
    (hr : ∀ i ∈ l, Reach ch entry (f.node i)) {e e' : Entry} {i j : Nat} (hi : Repr f size s em l e i)
    (hj : Repr f size s em l e' j) : (e.p < e'.p ∧ e.q < e'.q) ↔ Path ch (f.node i) (f.node j) := by
  have h := (Graph.numberGraph_tree hf hs).order (f.node i) (f.node j) (Graph.below_entry.2 (hr i hi.mem))
    (Graph.below_entry.2 (hr j hj.mem))
  simpa [Numbering.pn, Numbering.qn, hi.pre, hj.pre, hi.rpost, hj.rpost] using h

/-- Members of the first class go before all other entries. -/
theorem contiguous (hf : Graph.Forest ch) (hs : numberGraph ch entry gsize fuel = some s)
    (hr : ∀ i ∈ l, Reach ch entry (f.node i)) {a b c : Entry} {i j k : Nat} (hi : Repr f size s em l a i)
    (hj : Repr f size s em l b j) (hk : Repr f size s em l c k) (h1 : a.p < b.p) (h2 : b.p < c.p)
    (h3 : a.q < c.q) : a.q < b.q := by
  by_contra hq
  have hac := (hi.order hf hs hr hk).1 ⟨by omega, h3⟩
  have hbc := (hj.order hf hs hr hk).1 ⟨h2, by omega⟩
  rcases comparable hf hac hbc with h | h | h
  · have e1 := hi.pre
    rw [h, hj.pre] at e1
    have : b.p = a.p := by simpa using e1
    omega
  · exact hq ((hi.order hf hs hr hj).2 h).2
  · have := ((hj.order hf hs hr hi).2 h).1
    omega

theorem split_class (root : Int) : ∀ (m : List Entry),
    m.Pairwise (fun b c => root < c.q → root < b.q) →
    ∃ A B, m = A ++ B ∧ (∀ e ∈ A, root < e.q) ∧ ∀ e ∈ B, ¬ root < e.q := by
  intro m
  induction m with
  | nil => intro _; exact ⟨[], [], rfl, by simp, by simp⟩
  | cons e m ih =>
    intro h
    obtain ⟨h1, h2⟩ := List.pairwise_cons.1 h
    by_cases he : root < e.q
    · obtain ⟨A, B, rfl, hA, hB⟩ := ih h2
      refine ⟨e :: A, B, rfl, fun x hx => ?_, hB⟩
      rcases List.mem_cons.1 hx with rfl | hx
      · exact he
      · exact hA x hx
    · refine ⟨[], e :: m, rfl, by simp, fun x hx => ?_⟩
      rcases List.mem_cons.1 hx with rfl | hx
      · exact he
      · exact fun hc => he (h1 x hx hc)

/-! ## Theorems -/

/-- Choose locations for entries. -/
theorem locate {m : List Entry} (h : ∀ e ∈ m, ∃ i, Repr f size s em l e i) :
    ∃ g : Entry → Nat, ∀ e ∈ m, Repr f size s em l e (g e) := by
  have h' : ∀ e, ∃ i, e ∈ m → Repr f size s em l e i := by
    intro e
    by_cases he : e ∈ m
    · obtain ⟨i, hi⟩ := h e he
      exact ⟨i, fun _ => hi⟩
    · exact ⟨0, fun h => absurd h he⟩
  exact Classical.axiomOfChoice h'

theorem sizes_map {m : List Entry} {g : Entry → Nat} (hg : ∀ e ∈ m, Repr f size s em l e (g e)) :
    sizes size (m.map g) = (m.map Entry.n).sum := by
  induction m with
  | nil => rfl
  | cons e m ih =>
    have h := ih fun x hx => hg x (List.mem_cons_of_mem _ hx)
    unfold sizes at h ⊢
    simp only [List.map_cons, List.sum_cons, h, (hg e List.mem_cons_self).size, Option.getD_some]

/-- The shape of a positive answer. -/
theorem cover_true (h : cover f size s em l = some true) :
    ((∃ i ∈ l, f.Contains i em) ∨ ∃ i ∈ l, f.Contains em i ∧ size i = none) ∨
    ∃ n e m, size em = some n ∧ Sorted (e :: m) ∧ (∀ x ∈ e :: m, ∃ i, Repr f size s em l x i) ∧
      n ≤ total e.q m 0 e.n := by
  unfold cover at h
  split at h
  · simp at h
  · split at h
    · rename_i hc
      exact .inl (collect_covered _ _ hc)
    · cases h
    · rename_i m hm
      split at h
      · simp at h
      · rename_i n hn
        split at h
        · cases h
        · rename_i e m'
          obtain ⟨h1, h2⟩ := collect_map _ _ _ (fun _ h => h) List.Pairwise.nil (by simp) hm
          exact .inr ⟨n, e, m', hn, h1, h2, by simpa using h⟩

/-- C36 (partial). If `cover()` returns true for locations of a tree of alias nodes, then the location is covered,
provided that there are no nodes which are below other listed nodes except the first listed node in preorder. The
full statement has no this assumption and it is false, see `cover_fails`. -/
theorem cover_partial (hf : Graph.Forest ch) (hs : numberGraph ch entry gsize fuel = some s)
    (hr : ∀ i ∈ l, Reach ch entry (f.node i))
    (hroot : ∀ i ∈ l, ∀ j ∈ l, Path ch (f.node i) (f.node j) → ∀ k ∈ l, f.Contains em k →
      ∀ p p', s.pre (f.node i) = some p → s.pre (f.node k) = some p' → p ≤ p')
    (h : cover f size s em l = some true) : Covered f ch size em l := by
  rcases cover_true h with (h | h) | ⟨n, e, m, hn, hsort, hrep, hle⟩
  · exact .inl h
  · exact .inr (.inl h)
  refine .inr (.inr ⟨n, hn, ?_⟩)
  obtain ⟨g, hg⟩ := locate hrep
  obtain ⟨hfirst, hsort'⟩ := List.pairwise_cons.1 hsort
  have he := hg e List.mem_cons_self
  have hm : ∀ x ∈ m, Repr f size s em l x (g x) := fun x hx => hg x (List.mem_cons_of_mem _ hx)
  have hcl : m.Pairwise (fun b c => e.q < c.q → e.q < b.q) := by
    refine List.Pairwise.imp_of_mem ?_ hsort'
    intro b c hb hc hbc hq
    exact contiguous hf hs hr he (hm b hb) (hm c hc) (hfirst b hb) hbc hq
  obtain ⟨A, B, rfl, hA, hB⟩ := split_class e.q m hcl
  obtain ⟨c, hc, ht⟩ := total_class e.q B A e 0 hA
  have hBm : ∀ x ∈ B, Repr f size s em l x (g x) := fun x hx => hm x (List.mem_append.2 (.inr hx))
  have hcr : Repr f size s em l c (g c) := by
    rcases List.mem_cons.1 hc with rfl | hc
    · exact he
    · exact hm c (List.mem_append.2 (.inl hc))
  have hsub : ∀ x ∈ c :: B, Repr f size s em l x (g x) := by
    intro x hx
    rcases List.mem_cons.1 hx with rfl | hx
    · exact hcr
    · exact hBm x hx
  have hpB : ∀ x ∈ B, e.p < x.p := fun x hx => hfirst x (List.mem_append.2 (.inr hx))
  have hne : ∀ {x y i j}, Repr f size s em l x i → Repr f size s em l y j → x.p ≠ y.p → f.node i ≠ f.node j := by
    intro x y i j hx hy hxy heq
    have := hx.pre
    rw [heq, hy.pre] at this
    exact hxy (by simpa using this.symm)
  have hBno : ∀ x ∈ B, ∀ y ∈ B, ¬ Path ch (f.node (g x)) (f.node (g y)) := by
    intro x hx y hy hp
    have := hroot _ (hBm x hx).mem _ (hBm y hy).mem hp _ he.mem he.inside _ _ (hBm x hx).pre he.pre
    have := hpB x hx
    omega
  refine ⟨(c :: B).map g, ?_, ?_, ?_⟩
  · intro i hi
    obtain ⟨x, hx, rfl⟩ := List.mem_map.1 hi
    exact ⟨(hsub x hx).mem, (hsub x hx).inside⟩
  · rw [List.pairwise_map]
    refine List.pairwise_cons.2 ⟨fun x hx => ?_, ?_⟩
    · have hx' := hBm x hx
      have hnp : ¬ Path ch (f.node (g e)) (f.node (g x)) := fun hp =>
        hB x hx ((he.order hf hs hr hx').2 hp).2
      rcases List.mem_cons.1 hc with rfl | hcA
      · refine ⟨hne hcr hx' (Nat.ne_of_lt (hpB x hx)), hnp, fun hp => ?_⟩
        have := ((hx'.order hf hs hr hcr).2 hp).1
        have := hpB x hx
        omega
      · have hec : Path ch (f.node (g e)) (f.node (g c)) :=
          (he.order hf hs hr hcr).1 ⟨hfirst c (List.mem_append.2 (.inl hcA)), hA c hcA⟩
        refine ⟨fun heq => hnp (heq ▸ hec), fun hp => hnp (hec.trans hp), fun hp => ?_⟩
        rcases comparable hf hec hp with h | h | h
        · exact hne he hx' (Nat.ne_of_lt (hpB x hx)) h
        · exact hnp h
        · have := ((hx'.order hf hs hr he).2 h).1
          have := hpB x hx
          omega
    · have hsB : Sorted B := (List.pairwise_append.1 hsort').2.1
      refine List.Pairwise.imp_of_mem ?_ hsB
      intro x y hx hy hxy
      exact ⟨hne (hBm x hx) (hBm y hy) (Nat.ne_of_lt hxy), hBno x hx y hy, hBno y hy x hx⟩
  · rw [sizes_map hsub]
    have := total_le e.q B 0 c.n hB
    simp only [List.map_cons, List.sum_cons]
    omega

/-- C36. What is always guaranteed: the sum of sizes of listed parts which are associated with different alias nodes
is not less than the size of the location. -/
theorem cover_sum (h : cover f size s em l = some true) :
    (∃ i ∈ l, f.Contains i em) ∨ (∃ i ∈ l, f.Contains em i ∧ size i = none) ∨
    ∃ n, size em = some n ∧ ∃ sub : List Nat, (∀ i ∈ sub, i ∈ l ∧ f.Contains em i) ∧
      sub.Pairwise (fun i j => f.node i ≠ f.node j) ∧ n ≤ sizes size sub := by
  rcases cover_true h with (h | h) | ⟨n, e, m, hn, hsort, hrep, hle⟩
  · exact .inl h
  · exact .inr (.inl h)
  obtain ⟨g, hg⟩ := locate hrep
  refine .inr (.inr ⟨n, hn, (e :: m).map g, ?_, ?_, ?_⟩)
  · intro i hi
    obtain ⟨x, hx, rfl⟩ := List.mem_map.1 hi
    exact ⟨(hg x hx).mem, (hg x hx).inside⟩
  · rw [List.pairwise_map]
    refine List.Pairwise.imp_of_mem ?_ hsort
    intro x y hx hy hxy heq
    have := (hg x hx).pre
    rw [heq, (hg y hy).pre] at this
    have : y.p = x.p := by simpa using this
    omega
  · rw [sizes_map hg]
    have := total_all e.q m 0 e.n
    simp only [List.map_cons, List.sum_cons]
    omega

theorem collect_contains {i : Nat} (hnum : ∀ j ∈ l, s.pre (f.node j) ≠ none ∧ s.rpost (f.node j) ≠ none) (hi : i ∈ l)
    (h : f.Contains i em) : ∀ m, collect f size s em l m = .covered := by
  induction l with
  | nil => simp at hi
  | cons j l ih =>
    intro m
    unfold collect
    split
    · rfl
    · rename_i h1
      have hi' : i ∈ l := by
        rcases List.mem_cons.1 hi with rfl | hi
        · exact absurd (Forest.above_iff.2 h) h1
        · exact hi
      have ih' := ih (fun j hj => hnum j (List.mem_cons_of_mem _ hj)) hi'
      split
      · exact ih' m
      · split
        · rfl
        · split
          · exact ih' _
          · rename_i hno
            obtain ⟨h2, h3⟩ := hnum j List.mem_cons_self
            obtain ⟨p, hp⟩ := Option.ne_none_iff_exists'.1 h2
            obtain ⟨q, hq⟩ := Option.ne_none_iff_exists'.1 h3
            exact absurd hq (by simpa using hno p q hp)

/-- C36. A location which is a part of a listed location is always reported as covered. -/
theorem cover_contains (hf : Graph.Forest ch) (hs : numberGraph ch entry gsize fuel = some s)
    (hr : ∀ i ∈ l, Reach ch entry (f.node i)) (i : Nat) (hi : i ∈ l) (h : f.Contains i em) :
    cover f size s em l = some true := by
  have hnum : ∀ j ∈ l, s.pre (f.node j) ≠ none ∧ s.rpost (f.node j) ≠ none := by
    intro j hj
    obtain ⟨h1, h2, -⟩ := (Graph.numberGraph_tree hf hs).known _ (Graph.below_entry.2 (hr j hj))
    rw [h1, h2]
    simp
  have hc := collect_contains (size := size) hnum hi h []
  cases l with
  | nil => simp at hi
  | cons j l =>
    show (match collect f size s em (j :: l) [] with
      | .covered => some true
      | .unnumbered => none
      | .map m =>
        match size em with
        | none => some false
        | some n =>
          match m with
          | [] => none
          | e :: m => some (decide (n ≤ total e.q m 0 e.n))) = some true
    rw [hc]

/-! ### Exactness for locations which do not overlap -/

/-- Insertion of a new key. -/
theorem emplace_sum {e : Entry} : ∀ {m : List Entry}, (∀ x ∈ m, x.p ≠ e.p) →
    ((emplace e m).map Entry.n).sum = e.n + (m.map Entry.n).sum := by
  intro m
  induction m with
  | nil => intro _; rfl
  | cons x m ih =>
    intro h
    have h1 := h x List.mem_cons_self
    unfold emplace
    split
    · rfl
    · split
      · omega
      · have := ih fun y hy => h y (List.mem_cons_of_mem _ hy)
        simp only [List.map_cons, List.sum_cons, this]
        omega

/-- Sum of a list without descendants of the first entry. -/
theorem total_eq (root : Int) : ∀ (m : List Entry) (tot cur : Nat), (∀ e ∈ m, ¬ root < e.q) →
    tot + cur + (m.map Entry.n).sum < W → total root m tot cur = tot + cur + (m.map Entry.n).sum := by
  intro m
  induction m with
  | nil =>
    intro tot cur _ h
    simp only [List.map_nil, List.sum_nil, Nat.add_zero] at h
    simp [total, Nat.mod_eq_of_lt h]
  | cons e m ih =>
    intro tot cur h hw
    simp only [List.map_cons, List.sum_cons] at hw
    unfold total
    rw [if_neg (h e List.mem_cons_self), Nat.mod_eq_of_lt (by omega),
      ih _ _ (fun x hx => h x (List.mem_cons_of_mem _ hx)) (by omega)]
    simp only [List.map_cons, List.sum_cons]
    omega

theorem pairwise_two {α : Type} {R : α → α → Prop} {l : List α} (h : l.Pairwise R) {a b : α} (ha : a ∈ l) (hb : b ∈ l)
    (hne : a ≠ b) : R a b ∨ R b a := by
  induction l with
  | nil => simp at ha
  | cons x l ih =>
    obtain ⟨h1, h2⟩ := List.pairwise_cons.1 h
    rcases List.mem_cons.1 ha with rfl | ha'
    · rcases List.mem_cons.1 hb with rfl | hb'
      · exact absurd rfl hne
      · exact .inl (h1 _ hb')
    · rcases List.mem_cons.1 hb with rfl | hb'
      · exact .inr (h1 _ ha')
      · exact ih h2 ha' hb'

theorem emplace_ne_nil {e : Entry} {m : List Entry} : emplace e m ≠ [] := by
  cases m with
  | nil => simp [emplace]
  | cons x m => unfold emplace; split <;> [simp; (split <;> simp)]

theorem collect_grows : ∀ (m : List Entry), m ≠ [] → collect f size s em l m ≠ .map [] := by
  induction l with
  | nil => intro m hm h; simp only [collect, Collected.map.injEq] at h; exact hm h
  | cons i l ih =>
    intro m hm
    unfold collect
    split
    · simp
    · split
      · exact ih m hm
      · split
        · simp
        · split
          · exact ih _ emplace_ne_nil
          · simp

/-- The map is not empty if there is a part of the location. -/
theorem collect_ne_nil (hne : l ≠ []) (hin : ∀ i ∈ l, f.Contains em i ∧ ¬ f.Contains i em ∧ size i ≠ none) :
    collect f size s em l [] ≠ .map [] := by
  cases l with
  | nil => exact absurd rfl hne
  | cons i l =>
    obtain ⟨h1, h2, h3⟩ := hin i List.mem_cons_self
    obtain ⟨n, hn⟩ := Option.ne_none_iff_exists'.1 h3
    unfold collect
    rw [if_neg (fun h => h2 (Forest.above_iff.1 h)), if_neg (by simp [Forest.above_iff.2 h1]), hn]
    simp only
    split
    · exact collect_grows _ emplace_ne_nil
    · simp

theorem collect_sum {l0 : List Nat} (hnum : ∀ j ∈ l, ∃ p q, s.pre (f.node j) = some p ∧ s.rpost (f.node j) = some q)
    (hinj : ∀ i ∈ l0, ∀ j ∈ l0, s.pre (f.node i) = s.pre (f.node j) → f.node i = f.node j)
    (hin : ∀ i ∈ l, f.Contains em i ∧ ¬ f.Contains i em ∧ size i ≠ none)
    (hl : ∀ i ∈ l, i ∈ l0)
    (hd : l.Pairwise fun i j => f.node i ≠ f.node j) : ∀ m, (∀ x ∈ m, ∃ i, Repr f size s em l0 x i ∧
      ∀ j ∈ l, f.node i ≠ f.node j) → ∃ m', collect f size s em l m = .map m' ∧
      (m'.map Entry.n).sum = (m.map Entry.n).sum + sizes size l := by
  induction l with
  | nil => intro m _; exact ⟨m, rfl, by simp [sizes]⟩
  | cons i l ih =>
    intro m hm
    obtain ⟨h1, h2, h3⟩ := hin i List.mem_cons_self
    obtain ⟨n, hn⟩ := Option.ne_none_iff_exists'.1 h3
    obtain ⟨p, q, hp, hq⟩ := hnum i List.mem_cons_self
    obtain ⟨hd1, hd2⟩ := List.pairwise_cons.1 hd
    have hnew : ∀ x ∈ m, x.p ≠ p := by
      intro x hx heq
      obtain ⟨j, hj, hj'⟩ := hm x hx
      refine hj' i List.mem_cons_self (hinj _ hj.mem _ (hl i List.mem_cons_self) ?_)
      rw [hj.pre, hp, heq]
    obtain ⟨m', hm', hsum⟩ := ih (fun j hj => hnum j (List.mem_cons_of_mem _ hj))
      (fun j hj => hin j (List.mem_cons_of_mem _ hj)) (fun j hj => hl j (List.mem_cons_of_mem _ hj)) hd2
      (emplace ⟨p, q, n⟩ m) (by
        intro x hx
        rcases mem_emplace hx with rfl | hx
        · exact ⟨i, ⟨hl i List.mem_cons_self, h1, hn, hp, hq⟩, hd1⟩
        · obtain ⟨j, hj, hj'⟩ := hm x hx
          exact ⟨j, hj, fun k hk => hj' k (List.mem_cons_of_mem _ hk)⟩)
    refine ⟨m', ?_, ?_⟩
    · unfold collect
      rw [if_neg (fun h => h2 (Forest.above_iff.1 h)), if_neg (by simp [Forest.above_iff.2 h1]), hn, hp, hq]
      exact hm'
    · rw [hsum, emplace_sum hnew]
      simp only [sizes, List.map_cons, List.sum_cons, hn, Option.getD_some]
      omega

/-- C36. The answer is exact for parts which do not overlap: it is positive if and only if their sizes sum up to
at least the size of the location. -/
theorem cover_exact (hf : Graph.Forest ch) (hs : numberGraph ch entry gsize fuel = some s)
    (hr : ∀ i ∈ l, Reach ch entry (f.node i)) (n : Nat) (hn : size em = some n) (hne : l ≠ [])
    (hin : ∀ i ∈ l, f.Contains em i ∧ ¬ f.Contains i em ∧ size i ≠ none)
    (hd : l.Pairwise fun i j => Apart ch (f.node i) (f.node j)) (hw : sizes size l < 2 ^ 64) :
    cover f size s em l = some (decide (n ≤ sizes size l)) := by
  have hnum : ∀ j ∈ l, ∃ p q, s.pre (f.node j) = some p ∧ s.rpost (f.node j) = some q := by
    intro j hj
    obtain ⟨h1, h2, -⟩ := (Graph.numberGraph_tree hf hs).known _ (Graph.below_entry.2 (hr j hj))
    exact ⟨_, _, h1, h2⟩
  have hinj : ∀ i ∈ l, ∀ j ∈ l, s.pre (f.node i) = s.pre (f.node j) → f.node i = f.node j := by
    intro i hi j hj h
    refine (Graph.numberGraph_tree hf hs).inj _ _ (Graph.below_entry.2 (hr i hi)) (Graph.below_entry.2 (hr j hj)) ?_
    simp only [Numbering.pn, h]
  obtain ⟨m, hm, hsum⟩ := collect_sum (l0 := l) hnum hinj hin (fun _ h => h) (hd.imp fun h => h.1) [] (by simp)
  have hrep := collect_map l [] m (fun _ h => h) List.Pairwise.nil (by simp) hm
  have hsum : (m.map Entry.n).sum = sizes size l := by simpa using hsum
  have key : ∀ e m', m = e :: m' → total e.q m' 0 e.n = sizes size l := by
    rintro e m' rfl
    obtain ⟨h1, h2⟩ := hrep
    have hp := List.pairwise_cons.1 h1
    obtain ⟨i, hi⟩ := h2 e List.mem_cons_self
    simp only [List.map_cons, List.sum_cons] at hsum
    rw [total_eq, ← hsum]
    · omega
    · intro x hx hq
      obtain ⟨j, hj⟩ := h2 x (List.mem_cons_of_mem _ hx)
      have hpath := (hi.order hf hs hr hj).1 ⟨hp.1 x hx, hq⟩
      have hne' : i ≠ j := by
        rintro rfl
        exact hf.acyclic _ hpath
      rcases pairwise_two hd hi.mem hj.mem hne' with h | h
      · exact h.2.1 hpath
      · exact h.2.2 hpath
    · unfold W
      omega
  have hne' : m ≠ [] := by
    rintro rfl
    exact absurd hm (collect_ne_nil hne hin)
  unfold cover
  split
  · exact absurd rfl hne
  · rw [hm, hn]
    cases m with
    | nil => exact absurd rfl hne'
    | cons e m => simp only [key e m rfl]

end Tree

/-! ## Examples and counterexamples -/

/-- Memory `0` with parts `1` and `2`, memory `3` is a part of `2`, memory `4` is separate. Each location has its own
alias node. -/
def exForest : Forest where
  par m := if m = 1 ∨ m = 2 then some 0 else if m = 3 then some 2 else none
  rank m := if m = 3 then 2 else if m = 1 ∨ m = 2 then 1 else 0
  node m := m
  rank_lt {m p} h := by
    split at h
    · rename_i h1
      rw [← Option.some.inj h]
      rcases h1 with rfl | rfl <;> decide
    · split at h
      · rename_i h1
        rw [← Option.some.inj h, h1]
        decide
      · cases h

/-- Sizes of locations. -/
def exSize (n : Nat) (m : Nat) : Option Nat :=
  if m = 0 then some n else if m = 1 then some 4 else if m = 2 then some 8 else if m = 3 then some 4 else some 1

/-- Numbers of nodes of `Graph.tree4`. -/
theorem exNumbers : ∃ s, numberGraph Graph.tree4 0 4 4 = some s ∧
    s.pre 0 = some 1 ∧ s.pre 1 = some 2 ∧ s.pre 2 = some 3 ∧ s.pre 3 = some 4 ∧ s.pre 4 = none ∧
    s.rpost 0 = some 1 ∧ s.rpost 1 = some 4 ∧ s.rpost 2 = some 2 ∧ s.rpost 3 = some 3 := by
  simp [numberGraph, Graph.numberFrom, Graph.tree4, Numbering.init, Numbering.insert, Numbering.completed]

theorem exReach {i : Nat} (h : i < 4) : Reach Graph.tree4 0 i := by
  have e1 : Graph.Edge Graph.tree4 0 1 := by simp [Graph.Edge, Graph.tree4]
  have e2 : Graph.Edge Graph.tree4 0 2 := by simp [Graph.Edge, Graph.tree4]
  have e3 : Graph.Edge Graph.tree4 2 3 := by simp [Graph.Edge, Graph.tree4]
  match i, h with
  | 0, _ => exact .refl
  | 1, _ => exact .single e1
  | 2, _ => exact .single e2
  | 3, _ => exact .tail (.single e2) e3

theorem exPath {a b : Nat} (h : Path Graph.tree4 a b) : a = 0 ∨ (a = 2 ∧ b = 3) := by
  induction h with
  | single e =>
    unfold Graph.Edge Graph.tree4 at e
    split at e
    · exact .inl ‹_›
    · split at e
      · simp at e; exact .inr ⟨‹_›, e⟩
      · simp at e
  | tail h e ih =>
    rcases ih with h0 | ⟨h1, h2⟩
    · exact .inl h0
    · subst h2
      simp [Graph.Edge, Graph.tree4] at e

theorem exContains {i : Nat} (h : i < 4) : exForest.Contains 0 i := by
  refine Forest.above_iff.1 ?_
  match i, h with
  | 0, _ => rfl
  | 1, _ => rfl
  | 2, _ => rfl
  | 3, _ => rfl

theorem exNot {i : Nat} (h : 1 ≤ i ∧ i < 4) : ¬ exForest.Contains i 0 := by
  rw [← Forest.above_iff]
  match i, h with
  | 1, _ => decide
  | 2, _ => decide
  | 3, _ => decide

theorem exCover (n : Nat) (s : Numbering Nat) (h1 : s.pre 1 = some 2) (h2 : s.pre 2 = some 3) (h3 : s.pre 3 = some 4)
    (q1 : s.rpost 1 = some 4) (q2 : s.rpost 2 = some 2) (q3 : s.rpost 3 = some 3) :
    cover exForest (exSize n) s 0 [1, 2, 3] = some (decide (n ≤ 16)) := by
  have a1 : exForest.above 1 0 = false := by decide
  have a2 : exForest.above 2 0 = false := by decide
  have a3 : exForest.above 3 0 = false := by decide
  have b1 : exForest.above 0 1 = true := by decide
  have b2 : exForest.above 0 2 = true := by decide
  have b3 : exForest.above 0 3 = true := by decide
  have hnode : ∀ m, exForest.node m = m := fun _ => rfl
  simp [cover, collect, a1, a2, a3, b1, b2, b3, exSize, hnode, h1, h2, h3, q1, q2, q3, emplace, total, W]

theorem sizes_sublist {size : Nat → Option Nat} {a b : List Nat} (h : a.Sublist b) : sizes size a ≤ sizes size b := by
  induction h with
  | slnil => exact Nat.le_refl _
  | cons x _ ih => unfold sizes at ih ⊢; simp only [List.map_cons, List.sum_cons]; omega
  | cons_cons x _ ih => unfold sizes at ih ⊢; simp only [List.map_cons, List.sum_cons]; omega

/-- C36. Memory is counted twice: parts of 4, 8 and 4 bytes, where the last one belongs to the second one, are
accepted as a cover of 16 bytes. The boundary of a class (`SubTreeRoot`) is never updated. -/
theorem cover_fails :
    ¬ ∀ (f : Forest) (ch : Nat → List Nat) (size : Nat → Option Nat) (s : Numbering Nat) (em entry gsize fuel : Nat)
      (l : List Nat), Graph.Forest ch → numberGraph ch entry gsize fuel = some s →
      (∀ i ∈ l, Reach ch entry (f.node i)) → cover f size s em l = some true → Covered f ch size em l := by
  intro h
  obtain ⟨s, hs, -, p1, p2, p3, -, -, q1, q2, q3⟩ := exNumbers
  have hmem : ∀ i ∈ [1, 2, 3], 1 ≤ i ∧ i < 4 := by decide
  have hc := h exForest Graph.tree4 (exSize 16) s 0 0 4 4 [1, 2, 3] Graph.tree4_forest hs
    (fun i hi => exReach (hmem i hi).2) (by rw [exCover 16 s p1 p2 p3 q1 q2 q3]; rfl)
  rcases hc with ⟨i, hi, hc⟩ | ⟨i, hi, hc, hn⟩ | ⟨n, hn, sub, hsub, hp, hle⟩
  · exact exNot (hmem i hi) hc
  · obtain ⟨h1, h2⟩ := hmem i hi
    match i, h1, h2 with
    | 1, _, _ => cases hn
    | 2, _, _ => cases hn
    | 3, _, _ => cases hn
  · have hn : n = 16 := by simpa [exSize] using hn.symm
    subst hn
    have hnd : sub.Nodup := hp.imp fun h => fun heq => h.1 (by rw [heq])
    have hsub' : ∀ i ∈ sub, i ∈ [1, 2, 3] := fun i hi => (hsub i hi).1
    have h23 : ¬ (2 ∈ sub ∧ 3 ∈ sub) := by
      rintro ⟨m2, m3⟩
      have hpath : Path Graph.tree4 2 3 := .single (by simp [Graph.Edge, Graph.tree4])
      rcases pairwise_two hp m2 m3 (by decide) with h | h
      · exact h.2.1 hpath
      · exact h.2.2 hpath
    have key : sizes (exSize 16) sub ≤ 12 := by
      have hb : ∀ l' : List Nat, l'.Nodup → sub ⊆ l' → sizes (exSize 16) sub ≤ sizes (exSize 16) l' := by
        intro l' _ hss
        obtain ⟨t, ht, hsl⟩ := hnd.subperm hss
        rw [show sizes (exSize 16) sub = sizes (exSize 16) t from
          ((ht.map fun i => (exSize 16 i).getD 0).sum_nat).symm]
        exact sizes_sublist hsl
      by_cases m2 : 2 ∈ sub
      · refine hb [1, 2] (by decide) ?_
        intro i hi
        have := hsub' i hi
        have h3 : i ≠ 3 := fun h => h23 ⟨m2, h ▸ hi⟩
        simp at this ⊢
        omega
      · refine Nat.le_trans (hb [1, 3] (by decide) ?_) (by decide)
        intro i hi
        have := hsub' i hi
        have h3 : i ≠ 2 := fun h => m2 (h ▸ hi)
        simp at this ⊢
        omega
    omega

/-- C36. If all listed locations belong to other trees, `begin()` of an empty map is dereferenced although these
locations should be ignored. -/
theorem cover_empty_fails :
    ¬ ∀ (f : Forest) (size : Nat → Option Nat) (s : Numbering Nat) (em : Nat) (l : List Nat),
      (∀ i ∈ l, s.pre (f.node i) ≠ none ∧ s.rpost (f.node i) ≠ none) → cover f size s em l ≠ none := by
  intro h
  refine h exForest (exSize 16) ⟨[], fun _ => some 1, fun _ => some 1, 1, 1⟩ 0 [4] ?_ ?_
  · simp
  · have a1 : exForest.above 4 0 = false := by decide
    have b1 : exForest.above 0 4 = false := by decide
    simp [cover, collect, a1, b1, exSize]

/-- Hypotheses of `cover_partial` and `cover_exact` hold for parts `1` and `2` of 12 bytes, hypotheses of
`cover_contains` hold for a location in the list. -/
example : ∃ s, numberGraph Graph.tree4 0 4 4 = some s ∧ cover exForest (exSize 12) s 0 [1, 2] = some true ∧
    cover exForest (exSize 13) s 0 [1, 2] = some false ∧ cover exForest (exSize 13) s 3 [1, 2] = some true ∧
    Covered exForest Graph.tree4 (exSize 12) 0 [1, 2] := by
  obtain ⟨s, hs, -, p1, p2, p3, -, -, q1, q2, q3⟩ := exNumbers
  have hmem : ∀ i ∈ [1, 2], 1 ≤ i ∧ i < 3 := by decide
  have hr : ∀ i ∈ [1, 2], Reach Graph.tree4 0 (exForest.node i) := fun i hi =>
    exReach (by have := hmem i hi; simp only [exForest]; omega)
  have hin : ∀ n, ∀ i ∈ [1, 2], exForest.Contains 0 i ∧ ¬ exForest.Contains i 0 ∧ exSize n i ≠ none := by
    intro n i hi
    have := hmem i hi
    refine ⟨exContains (by omega), exNot (by omega), ?_⟩
    rcases List.mem_cons.1 hi with rfl | hi
    · simp [exSize]
    · rw [List.mem_singleton.1 hi]; simp [exSize]
  have hap : [1, 2].Pairwise fun i j => Apart Graph.tree4 (exForest.node i) (exForest.node j) := by
    refine List.pairwise_cons.2 ⟨fun x hx => ?_, List.pairwise_singleton _ _⟩
    rw [List.mem_singleton.1 hx]
    refine ⟨by decide, fun h => ?_, fun h => ?_⟩
    · rcases exPath h with h | ⟨h, -⟩ <;> exact absurd h (by decide)
    · rcases exPath h with h | ⟨-, h⟩ <;> exact absurd h (by decide)
  have e12 : cover exForest (exSize 12) s 0 [1, 2] = some true := by
    rw [cover_exact (size := exSize 12) (em := 0) Graph.tree4_forest hs hr 12 rfl (by decide) (hin 12) hap (by decide)]
    rfl
  refine ⟨s, hs, e12, ?_, ?_, ?_⟩
  · rw [cover_exact (size := exSize 13) (em := 0) Graph.tree4_forest hs hr 13 rfl (by decide) (hin 13) hap (by decide)]
    rfl
  · exact cover_contains Graph.tree4_forest hs hr 2 (by decide) (Forest.above_iff.1 rfl)
  · refine cover_partial Graph.tree4_forest hs hr ?_ e12
    intro i hi j hj hp
    exfalso
    rcases exPath hp with h | ⟨h, h'⟩
    · have := hmem i hi
      change i = 0 at h
      omega
    · have := hmem j hj
      change j = 3 at h'
      omega

end Cover
end Tsar
