import Verif.Bimap.Model

/-!
# Bidirectional maps: specification and theorems

Properties C23, C24, C25, C58.
-/

set_option linter.unusedSectionVars false

namespace Tsar
namespace Bimap

variable {F S : Type} [DecidableEq F] [DecidableEq S]

/-! ## Specification

A bidirectional map is a list of pairs in the order of insertions. -/

namespace Spec

/-- A pair is added if both its keys are new. -/
def insert (l : List (F × S)) (v : F × S) : List (F × S) :=
  if ∃ p ∈ l, p.1 = v.1 ∨ p.2 = v.2 then l else l ++ [v]

end Spec

/-- An operation of a user. An iterator is obtained by a search: `eraseFound1 k` is
`I = M.find_first(k); if (I != M.end()) M.erase(I);`, `eraseFound2 k` is the same for the second
key. -/
inductive Op (F S : Type) where
  | insert (v : F × S)
  | emplace (v : F × S)
  | eraseFound1 (k : F)
  | eraseFound2 (k : S)
  | clear

/-- Effect of an operation on the list of pairs. -/
def Spec.step (l : List (F × S)) : Op F S → List (F × S)
  | .insert v => Spec.insert l v
  | .emplace v => Spec.insert l v
  | .eraseFound1 k => l.filter (·.1 ≠ k)
  | .eraseFound2 k => l.filter (·.2 ≠ k)
  | .clear => []

/-- The list of pairs after a history. -/
def Spec.run (ops : List (Op F S)) : List (F × S) := ops.foldl Spec.step []

/-- `if (I != M.end()) M.erase(I);`. -/
def Bimap.eraseIf (m : Bimap F S) : Option Nat → Option (Bimap F S)
  | none => some m
  | some i => m.erase i

/-- An operation on the map. -/
def Bimap.step (m : Bimap F S) : Op F S → Option (Bimap F S)
  | .insert v => (m.insert v).map (·.1)
  | .emplace v => (m.emplace v).map (·.1)
  | .eraseFound1 k => (m.findFirst k).bind m.eraseIf
  | .eraseFound2 k => (m.findSecond k).bind m.eraseIf
  | .clear => some m.clear

/-- A history of operations from a specified state, `none` is an access to a deleted node. -/
def Bimap.runFrom (m : Bimap F S) : List (Op F S) → Option (Bimap F S)
  | [] => some m
  | o :: os => (m.step o).bind (·.runFrom os)

/-- A history of operations. -/
def Bimap.run (ops : List (Op F S)) : Option (Bimap F S) := Bimap.init.runFrom ops

/-- What a traversal from `begin()` to `end()` reads. -/
def Bimap.pairs (m : Bimap F S) : List (F × S) := m.coll.map (·.2)

/-! ## Invariant -/

/-- Both sets refer to all alive nodes, keys are unique. -/
structure Inv (m : Bimap F S) : Prop where
  nodup : (m.coll.map (·.1)).Nodup
  bound : ∀ e ∈ m.coll, e.1 < m.next
  first : m.first = m.coll.map (·.1)
  second : m.second = m.coll.map (·.1)
  keys1 : (m.pairs.map (·.1)).Nodup
  keys2 : (m.pairs.map (·.2)).Nodup

theorem find_node {α : Type} {l : List (Nat × α)} (hn : (l.map (·.1)).Nodup) {e : Nat × α}
    (he : e ∈ l) : l.find? (·.1 = e.1) = some e := by
  induction l with
  | nil => simp at he
  | cons x xs ih =>
    simp only [List.map_cons, List.nodup_cons] at hn
    rcases List.mem_cons.1 he with rfl | h
    · simp
    · have hx : x.1 ≠ e.1 := fun hc => hn.1 (hc ▸ List.mem_map_of_mem h)
      rw [List.find?_cons_of_neg (by simpa using hx)]
      exact ih hn.2 h

theorem search_sub (d : Nat → Option (F × S)) (p : F × S → Bool) (l : List (Nat × F × S))
    (hd : ∀ e ∈ l, d e.1 = some e.2) :
    search d p (l.map (·.1)) = some ((l.find? (fun e => p e.2)).map (·.1)) := by
  induction l with
  | nil => rfl
  | cons x xs ih =>
    simp only [List.map_cons, search, hd x (List.mem_cons_self ..)]
    by_cases h : p x.2 = true
    · simp [h]
    · rw [if_neg h, ih (fun e he => hd e (List.mem_cons_of_mem _ he)), List.find?_cons_of_neg (by simpa using h)]

theorem Inv.deref {m : Bimap F S} (h : Inv m) {e : Nat × F × S} (he : e ∈ m.coll) :
    m.deref e.1 = some e.2 := by
  unfold Bimap.deref
  rw [find_node h.nodup he]
  rfl

theorem Inv.search1 {m : Bimap F S} (h : Inv m) (p : F × S → Bool) :
    search m.deref p m.first = some ((m.coll.find? (fun e => p e.2)).map (·.1)) := by
  rw [h.first]
  exact search_sub _ _ _ (fun e he => h.deref he)

theorem Inv.search2 {m : Bimap F S} (h : Inv m) (p : F × S → Bool) :
    search m.deref p m.second = some ((m.coll.find? (fun e => p e.2)).map (·.1)) := by
  rw [h.second]
  exact search_sub _ _ _ (fun e he => h.deref he)

theorem find_pairs (m : Bimap F S) (p : F × S → Bool) :
    m.pairs.find? p = (m.coll.find? (fun e => p e.2)).map (·.2) := by
  unfold Bimap.pairs
  rw [List.find?_map]
  rfl

theorem Inv.found {m : Bimap F S} (h : Inv m) (p : F × S → Bool) :
    ((m.coll.find? (fun e => p e.2)).map (·.1)).bind m.deref = m.pairs.find? p := by
  rw [find_pairs]
  cases hf : m.coll.find? (fun e => p e.2) with
  | none => rfl
  | some e => exact h.deref (List.mem_of_find?_eq_some hf)

theorem Inv.init : Inv (Bimap.init : Bimap F S) := by
  constructor <;> simp [Bimap.init, Bimap.pairs]

theorem Inv.erase {m : Bimap F S} (h : Inv m) (i : Nat) :
    Inv { m with
      first := m.first.filter (· ≠ i)
      second := m.second.filter (· ≠ i)
      coll := m.coll.filter (·.1 ≠ i) } := by
  have hs : (m.coll.filter (·.1 ≠ i)).Sublist m.coll := List.filter_sublist
  have hm : (m.coll.map (·.1)).filter (· ≠ i) = (m.coll.filter (·.1 ≠ i)).map (·.1) := by
    rw [List.filter_map]; rfl
  constructor
  · exact (hs.map _).nodup h.nodup
  · exact fun e he => h.bound e (hs.subset he)
  · change m.first.filter (· ≠ i) = _
    rw [h.first, hm]
  · change m.second.filter (· ≠ i) = _
    rw [h.second, hm]
  · exact ((hs.map _).map _).nodup h.keys1
  · exact ((hs.map _).map _).nodup h.keys2

theorem Inv.clear {m : Bimap F S} : Inv m.clear := by
  constructor <;> simp [Bimap.clear, Bimap.pairs]

theorem Inv.next {m : Bimap F S} (h : Inv m) : Inv { m with next := m.next + 1 } :=
  ⟨h.nodup, fun e he => Nat.lt_succ_of_lt (h.bound e he), h.first, h.second, h.keys1, h.keys2⟩

theorem Inv.insertNode {m : Bimap F S} (h : Inv m) (v : F × S)
    (h1 : ∀ p ∈ m.pairs, p.1 ≠ v.1) (h2 : ∀ p ∈ m.pairs, p.2 ≠ v.2) :
    Inv ({ m with next := m.next + 1 }.insertNode m.next v) := by
  constructor
  · change ((m.coll ++ [(m.next, v)]).map (·.1)).Nodup
    rw [List.map_append, List.nodup_append]
    refine ⟨h.nodup, by simp, ?_⟩
    intro a ha b hb
    simp only [List.map_cons, List.map_nil, List.mem_singleton] at hb
    obtain ⟨e, he, rfl⟩ := List.mem_map.1 ha
    have := h.bound e he
    omega
  · intro e he
    rcases List.mem_append.1 he with he | he
    · exact Nat.lt_succ_of_lt (h.bound e he)
    · rw [List.mem_singleton.1 he]
      exact Nat.lt_succ_self _
  · change m.first ++ [m.next] = (m.coll ++ [(m.next, v)]).map (·.1)
    rw [h.first, List.map_append]; rfl
  · change m.second ++ [m.next] = (m.coll ++ [(m.next, v)]).map (·.1)
    rw [h.second, List.map_append]; rfl
  · change (((m.coll ++ [(m.next, v)]).map (·.2)).map (·.1)).Nodup
    rw [List.map_append, List.map_append, List.nodup_append]
    refine ⟨h.keys1, by simp, ?_⟩
    intro a ha b hb
    obtain ⟨p, hp, rfl⟩ := List.mem_map.1 ha
    simp only [List.map_cons, List.map_nil, List.mem_singleton] at hb
    exact hb ▸ h1 p hp
  · change (((m.coll ++ [(m.next, v)]).map (·.2)).map (·.2)).Nodup
    rw [List.map_append, List.map_append, List.nodup_append]
    refine ⟨h.keys2, by simp, ?_⟩
    intro a ha b hb
    obtain ⟨p, hp, rfl⟩ := List.mem_map.1 ha
    simp only [List.map_cons, List.map_nil, List.mem_singleton] at hb
    exact hb ▸ h2 p hp

/-- A search of both keys. -/
theorem Inv.lookup {m : Bimap F S} (h : Inv m) (v : F × S) :
    ∃ r, m.lookup v = some r ∧
      (r = none → (∀ p ∈ m.pairs, p.1 ≠ v.1) ∧ (∀ p ∈ m.pairs, p.2 ≠ v.2)) ∧
      (∀ i, r = some i → ∃ p ∈ m.pairs, m.deref i = some p ∧ (p.1 = v.1 ∨ p.2 = v.2)) := by
  unfold Bimap.lookup Bimap.findFirst Bimap.findSecond
  rw [h.search1, h.search2]
  cases hf : m.coll.find? (fun e => decide (e.2.1 = v.1)) with
  | some e =>
    refine ⟨some e.1, rfl, by simp, ?_⟩
    rintro i hi
    cases hi
    have he := List.mem_of_find?_eq_some hf
    have hk := List.find?_some hf
    exact ⟨e.2, List.mem_map_of_mem he, h.deref he, .inl (by simpa using hk)⟩
  | none =>
    have h1 : ∀ p ∈ m.pairs, p.1 ≠ v.1 := by
      intro p hp
      obtain ⟨e, he, rfl⟩ := List.mem_map.1 hp
      simpa using List.find?_eq_none.1 hf e he
    cases hg : m.coll.find? (fun e => decide (e.2.2 = v.2)) with
    | some e =>
      refine ⟨some e.1, rfl, by simp, ?_⟩
      rintro i hi
      cases hi
      have he := List.mem_of_find?_eq_some hg
      have hk := List.find?_some hg
      exact ⟨e.2, List.mem_map_of_mem he, h.deref he, .inr (by simpa using hk)⟩
    | none =>
      refine ⟨none, rfl, fun _ => ⟨h1, ?_⟩, by simp⟩
      intro p hp
      obtain ⟨e, he, rfl⟩ := List.mem_map.1 hp
      simpa using List.find?_eq_none.1 hg e he

theorem pairs_filter_key {α κ : Type} [DecidableEq κ] {l : List (Nat × α)} (f : α → κ) {e : Nat × α}
    (he : e ∈ l) (hn : (l.map (·.1)).Nodup) (hk : ((l.map (·.2)).map f).Nodup) :
    (l.filter (·.1 ≠ e.1)).map (·.2) = (l.map (·.2)).filter (fun p => f p ≠ f e.2) := by
  have hp : ∀ x ∈ l, (decide (x.1 ≠ e.1)) = decide (f x.2 ≠ f e.2) := by
    intro x hx
    rw [decide_eq_decide]
    have inj1 : x.1 = e.1 → x = e := by
      intro h
      have a := find_node hn hx
      have b := find_node hn he
      rw [h] at a
      exact Option.some.inj (a.symm.trans b)
    have inj2 : f x.2 = f e.2 → x = e := by
      clear hn inj1
      induction l with
      | nil => simp at hx
      | cons y ys ih =>
        intro h
        simp only [List.map_cons, List.nodup_cons] at hk
        rcases List.mem_cons.1 hx with rfl | hx' <;> rcases List.mem_cons.1 he with rfl | he'
        · rfl
        · exact absurd (List.mem_map.2 ⟨e.2, List.mem_map_of_mem he', h.symm⟩) hk.1
        · exact absurd (List.mem_map.2 ⟨x.2, List.mem_map_of_mem hx', h⟩) hk.1
        · exact ih he' hk.2 hx' h
    constructor
    · exact fun h hc => h (inj2 hc ▸ rfl)
    · exact fun h hc => h (inj1 hc ▸ rfl)
  rw [List.filter_congr hp, List.filter_map]
  rfl

/-- A step keeps the invariant and refines the specification. -/
theorem Inv.step {m : Bimap F S} (h : Inv m) (o : Op F S) :
    ∃ m', m.step o = some m' ∧ Inv m' ∧ m'.pairs = Spec.step m.pairs o := by
  have erase : ∀ (κ : Type) [DecidableEq κ] (f : F × S → κ) (k : κ), (m.pairs.map f).Nodup →
      ∃ m', m.eraseIf ((m.coll.find? (fun e => decide (f e.2 = k))).map (·.1)) = some m' ∧ Inv m' ∧
        m'.pairs = m.pairs.filter (fun p => f p ≠ k) := by
    intro κ _ f k hk
    cases hf : m.coll.find? (fun e => decide (f e.2 = k)) with
    | none =>
      refine ⟨m, rfl, h, (List.filter_eq_self.2 ?_).symm⟩
      intro p hp
      obtain ⟨e, he, rfl⟩ := List.mem_map.1 hp
      have := List.find?_eq_none.1 hf e he
      simpa using this
    | some e =>
      have he := List.mem_of_find?_eq_some hf
      have hek : f e.2 = k := by simpa using List.find?_some hf
      refine ⟨_, ?_, h.erase e.1, ?_⟩
      · change m.erase e.1 = _
        unfold Bimap.erase
        rw [h.deref he]
      · change (m.coll.filter (·.1 ≠ e.1)).map (·.2) = _
        rw [pairs_filter_key f he h.nodup hk, hek]
        rfl
  have hins : ∀ v, (∀ p ∈ m.pairs, p.1 ≠ v.1) → (∀ p ∈ m.pairs, p.2 ≠ v.2) →
      m.pairs ++ [v] = Spec.insert m.pairs v := by
    intro v h1 h2
    unfold Spec.insert
    rw [if_neg]
    rintro ⟨p, hp, h | h⟩
    · exact h1 p hp h
    · exact h2 p hp h
  have hpairs : ∀ v, ({ m with next := m.next + 1 }.insertNode m.next v).pairs = m.pairs ++ [v] := by
    intro v
    change (m.coll ++ [(m.next, v)]).map (·.2) = _
    rw [List.map_append]
    rfl
  cases o with
  | insert v =>
    obtain ⟨r, hr, hn, hs⟩ := h.lookup v
    simp only [Bimap.step, Bimap.insert, hr, Spec.step]
    cases r with
    | some i =>
      obtain ⟨p, hp, _, hk⟩ := hs i rfl
      refine ⟨m, rfl, h, ?_⟩
      unfold Spec.insert
      rw [if_pos ⟨p, hp, hk⟩]
    | none =>
      obtain ⟨h1, h2⟩ := hn rfl
      exact ⟨_, rfl, h.insertNode v h1 h2, (hpairs v).trans (hins v h1 h2)⟩
  | emplace v =>
    obtain ⟨r, hr, hn, hs⟩ := h.next.lookup v
    simp only [Bimap.step, Bimap.emplace, hr, Spec.step]
    cases r with
    | some i =>
      obtain ⟨p, hp, _, hk⟩ := hs i rfl
      refine ⟨_, rfl, h.next, ?_⟩
      unfold Spec.insert
      rw [if_pos ⟨p, hp, hk⟩]
      rfl
    | none =>
      obtain ⟨h1, h2⟩ := hn rfl
      exact ⟨_, rfl, h.insertNode v h1 h2, (hpairs v).trans (hins v h1 h2)⟩
  | eraseFound1 k =>
    have hf : m.findFirst k = _ := h.search1 _
    simp only [Bimap.step, hf, Spec.step, Option.bind_some]
    exact erase F (·.1) k h.keys1
  | eraseFound2 k =>
    have hf : m.findSecond k = _ := h.search2 _
    simp only [Bimap.step, hf, Spec.step, Option.bind_some]
    exact erase S (·.2) k h.keys2
  | clear => exact ⟨_, rfl, Inv.clear, rfl⟩

theorem Inv.runFrom {m : Bimap F S} (h : Inv m) (ops : List (Op F S)) :
    ∃ m', m.runFrom ops = some m' ∧ Inv m' ∧ m'.pairs = ops.foldl Spec.step m.pairs := by
  induction ops generalizing m with
  | nil => exact ⟨m, rfl, h, rfl⟩
  | cons o os ih =>
    obtain ⟨m1, h1, hi, hp⟩ := h.step o
    obtain ⟨m2, h2, hi2, hp2⟩ := ih hi
    refine ⟨m2, ?_, hi2, ?_⟩
    · simp only [Bimap.runFrom, h1, Option.bind_some, h2]
    · rw [hp2, hp]; rfl

/-! ## C23 -/

/-- **C23.** After every history of insertions and removals through iterators the map contains exactly
pairs of the specification in the order of insertions, each search returns the pair with the specified
key if there is one, and both keys are unique. No deleted node is accessed. -/
theorem bimap_history (ops : List (Op F S)) :
    ∃ m, Bimap.run ops = some m ∧ m.pairs = Spec.run ops ∧
      (∀ a, ∃ r, m.findFirst a = some r ∧ r.bind m.deref = (Spec.run ops).find? (fun p => p.1 = a)) ∧
      (∀ b, ∃ r, m.findSecond b = some r ∧ r.bind m.deref = (Spec.run ops).find? (fun p => p.2 = b)) ∧
      ((Spec.run ops).map (·.1)).Nodup ∧ ((Spec.run ops).map (·.2)).Nodup := by
  obtain ⟨m, hm, hi, hp⟩ := Inv.init.runFrom ops
  have hp : m.pairs = Spec.run ops := hp
  refine ⟨m, hm, hp, ?_, ?_, hp ▸ hi.keys1, hp ▸ hi.keys2⟩
  · intro a
    exact ⟨_, hi.search1 _, hp ▸ hi.found (fun p => decide (p.1 = a))⟩
  · intro b
    exact ⟨_, hi.search2 _, hp ▸ hi.found (fun p => decide (p.2 = b))⟩

/-- **C23.** The map is a partial bijection: searches by two keys of a pair lead to one node, and a node
which is found by one key is found by the other one. -/
theorem bimap_bijection (ops : List (Op F S)) :
    ∃ m, Bimap.run ops = some m ∧
      ∀ i a b, m.deref i = some (a, b) → m.findFirst a = some (some i) ∧ m.findSecond b = some (some i) := by
  obtain ⟨m, hm, hi, -⟩ := Inv.init.runFrom ops
  refine ⟨m, hm, ?_⟩
  intro i a b hd
  unfold Bimap.deref at hd
  rw [Option.map_eq_some_iff] at hd
  obtain ⟨e, he, hev⟩ := hd
  have hid : e.1 = i := by simpa using List.find?_some he
  have hmem := List.mem_of_find?_eq_some he
  have hfind : ∀ (κ : Type) [DecidableEq κ] (f : F × S → κ), (m.pairs.map f).Nodup →
      (m.coll.find? (fun x => decide (f x.2 = f e.2))).map (·.1) = some i := by
    intro κ _ f hk
    have : ∀ l : List (Nat × F × S), e ∈ l → ((l.map (·.2)).map f).Nodup →
        l.find? (fun x => decide (f x.2 = f e.2)) = some e := by
      intro l
      induction l with
      | nil => simp
      | cons y ys ih =>
        intro he' hk'
        simp only [List.map_cons, List.nodup_cons] at hk'
        rcases List.mem_cons.1 he' with rfl | h
        · simp
        · have : f y.2 ≠ f e.2 := fun hc => hk'.1 (List.mem_map.2 ⟨e.2, List.mem_map_of_mem h, hc.symm⟩)
          rw [List.find?_cons_of_neg (by simpa using this)]
          exact ih h hk'.2
    rw [this m.coll hmem hk, ← hid]
    rfl
  constructor
  · have := hfind F (·.1) hi.keys1
    unfold Bimap.findFirst
    rw [hi.search1, ← this, hev]
  · have := hfind S (·.2) hi.keys2
    unfold Bimap.findSecond
    rw [hi.search2, ← this, hev]

/-- **C23.** An insertion reports success if and only if both keys are new. It returns an iterator to
the new pair or to the pair which prevents insertion. -/
theorem insert_result (ops : List (Op F S)) (v : F × S) :
    ∃ m m' i ok, Bimap.run ops = some m ∧ m.insert v = some (m', i, ok) ∧
      (ok = true ↔ ∀ p ∈ m.pairs, p.1 ≠ v.1 ∧ p.2 ≠ v.2) ∧
      (ok = true → m'.deref i = some v) ∧
      (ok = false → ∃ p ∈ m.pairs, m'.deref i = some p ∧ (p.1 = v.1 ∨ p.2 = v.2)) := by
  obtain ⟨m, hm, hi, -⟩ := Inv.init.runFrom ops
  obtain ⟨r, hr, hn, hs⟩ := hi.lookup v
  refine ⟨m, ?_⟩
  cases r with
  | some i =>
    refine ⟨m, i, false, hm, by simp [Bimap.insert, hr], ?_, by simp, fun _ => hs i rfl⟩
    obtain ⟨p, hp, _, hk⟩ := hs i rfl
    constructor
    · simp
    · intro h
      rcases hk with hk | hk
      · exact absurd hk (h p hp).1
      · exact absurd hk (h p hp).2
  | none =>
    obtain ⟨h1, h2⟩ := hn rfl
    refine ⟨{ m with next := m.next + 1 }.insertNode m.next v, m.next, true, hm,
      by simp only [Bimap.insert, hr], ?_, ?_, by simp⟩
    · exact ⟨fun _ p hp => ⟨h1 p hp, h2 p hp⟩, fun _ => rfl⟩
    · intro _
      have := (hi.insertNode v h1 h2).deref (e := (m.next, v))
        (List.mem_append_right _ (List.mem_singleton.2 rfl))
      exact this

/-- **C23.** The same for a construction in place. -/
theorem emplace_result (ops : List (Op F S)) (v : F × S) :
    ∃ m m' i ok, Bimap.run ops = some m ∧ m.emplace v = some (m', i, ok) ∧
      (ok = true ↔ ∀ p ∈ m.pairs, p.1 ≠ v.1 ∧ p.2 ≠ v.2) ∧
      (ok = true → m'.deref i = some v) ∧
      (ok = false → ∃ p ∈ m.pairs, m'.deref i = some p ∧ (p.1 = v.1 ∨ p.2 = v.2)) := by
  obtain ⟨m, hm, hi, -⟩ := Inv.init.runFrom ops
  obtain ⟨r, hr, hn, hs⟩ := hi.next.lookup v
  refine ⟨m, ?_⟩
  cases r with
  | some i =>
    refine ⟨{ m with next := m.next + 1 }, i, false, hm, by simp only [Bimap.emplace, hr], ?_, by simp,
      fun _ => hs i rfl⟩
    obtain ⟨p, hp, _, hk⟩ := hs i rfl
    constructor
    · simp
    · intro h
      rcases hk with hk | hk
      · exact absurd hk (h p hp).1
      · exact absurd hk (h p hp).2
  | none =>
    obtain ⟨h1, h2⟩ := hn rfl
    refine ⟨{ m with next := m.next + 1 }.insertNode m.next v, m.next, true, hm,
      by simp only [Bimap.emplace, hr], ?_, ?_, by simp⟩
    · exact ⟨fun _ p hp => ⟨h1 p hp, h2 p hp⟩, fun _ => rfl⟩
    · intro _
      exact (hi.insertNode v h1 h2).deref (e := (m.next, v))
        (List.mem_append_right _ (List.mem_singleton.2 rfl))

/-- A history with a rejected insertion, a removal and a repeated insertion. -/
def sample : List (Op Nat Nat) :=
  [.insert (1, 10), .emplace (2, 20), .insert (1, 30), .insert (3, 20), .eraseFound2 10, .insert (1, 30)]

example : Spec.run sample = [(2, 20), (1, 30)] := by decide +kernel

example : (Bimap.run sample).map (·.pairs) = some [(2, 20), (1, 30)] := by decide +kernel

/-! ## C24 -/

/-- **C24 is false.** A removal by the first key leaves a pointer to the deleted node in the index of
second keys: a search by the second key of the removed pair accesses the deleted node. -/
theorem erase_first_fails :
    ∃ (m m' : Bimap Nat Nat), Bimap.run [.insert (1, 10)] = some m ∧ m.eraseFirst 1 = some (m', true) ∧
      m'.pairs = [] ∧ m'.findSecond 10 = none ∧ m'.insert (2, 20) = none :=
  ⟨_, _, rfl, rfl, rfl, rfl, rfl⟩

/-- **C24 is false.** The same for a removal by the second key. -/
theorem erase_second_fails :
    ∃ (m m' : Bimap Nat Nat), Bimap.run [.insert (1, 10)] = some m ∧ m.eraseSecond 10 = some (m', true) ∧
      m'.pairs = [] ∧ m'.findFirst 1 = none ∧ m'.insert (2, 20) = none :=
  ⟨_, _, rfl, rfl, rfl, rfl, rfl⟩

theorem search_filter {m : Bimap F S} (h : Inv m) (f : F × S → Bool) (i : Nat) :
    search { m with first := m.first.filter (· ≠ i), coll := m.coll.filter (·.1 ≠ i) }.deref f
        (m.first.filter (· ≠ i)) =
      some (((m.coll.filter (·.1 ≠ i)).find? (fun e => f e.2)).map (·.1)) := by
  have hm : m.first.filter (· ≠ i) = (m.coll.filter (·.1 ≠ i)).map (·.1) := by
    rw [h.first, List.filter_map]; rfl
  rw [hm]
  refine search_sub _ _ _ ?_
  intro e he
  unfold Bimap.deref
  change ((m.coll.filter (·.1 ≠ i)).find? _).map _ = _
  rw [find_node ((List.filter_sublist.map _).nodup h.nodup) he]
  rfl

/-- **C24 (partial).** A removal by the first key removes the pair from the list of pairs and from
the index of first keys: searches by first keys answer as for the list without the removed pair. What is
missing: the second direction, see `erase_first_fails`. -/
theorem erase_first_partial (ops : List (Op F S)) (k : F) :
    ∃ m m' ok, Bimap.run ops = some m ∧ m.eraseFirst k = some (m', ok) ∧
      (ok = true ↔ ∃ p ∈ m.pairs, p.1 = k) ∧
      m'.pairs = m.pairs.filter (·.1 ≠ k) ∧
      ∀ a, ∃ r, m'.findFirst a = some r ∧ r.bind m'.deref = m'.pairs.find? (fun p => p.1 = a) := by
  obtain ⟨m, hm, hi, -⟩ := Inv.init.runFrom ops
  have hf : m.findFirst k = _ := hi.search1 _
  unfold Bimap.eraseFirst
  refine ⟨m, ?_⟩
  cases hg : m.coll.find? (fun e => decide (e.2.1 = k)) with
  | none =>
    rw [hg] at hf
    have hne : ∀ p ∈ m.pairs, p.1 ≠ k := by
      intro p hp
      obtain ⟨e, he, rfl⟩ := List.mem_map.1 hp
      simpa using List.find?_eq_none.1 hg e he
    refine ⟨m, false, hm, by rw [hf]; rfl, ?_, ?_, fun a => ⟨_, hi.search1 _, hi.found (fun p => decide (p.1 = a))⟩⟩
    · constructor
      · simp
      · rintro ⟨p, hp, h⟩; exact absurd h (hne p hp)
    · exact (List.filter_eq_self.2 (by simpa using hne)).symm
  | some e =>
    rw [hg] at hf
    have he := List.mem_of_find?_eq_some hg
    have hek : e.2.1 = k := by simpa using List.find?_some hg
    refine ⟨_, true, hm, by rw [hf]; rfl, ?_, ?_, ?_⟩
    · exact ⟨fun _ => ⟨e.2, List.mem_map_of_mem he, hek⟩, fun _ => rfl⟩
    · change (m.coll.filter (·.1 ≠ e.1)).map (·.2) = _
      rw [pairs_filter_key (·.1) he hi.nodup hi.keys1, hek]
      rfl
    · intro a
      refine ⟨_, search_filter hi _ _, ?_⟩
      rw [find_pairs]
      change _ = ((m.coll.filter (·.1 ≠ e.1)).find? _).map _
      cases hx : (m.coll.filter (·.1 ≠ e.1)).find? (fun x => decide (x.2.1 = a)) with
      | none => rfl
      | some x =>
        change (((m.coll.filter (·.1 ≠ e.1)).find? (fun y => decide (y.1 = x.1))).map (·.2)) = some x.2
        rw [find_node ((List.filter_sublist.map _).nodup hi.nodup) (List.mem_of_find?_eq_some hx)]
        rfl

example : ((Bimap.run sample).bind (·.eraseFirst 2)).map (·.1.pairs) = some [(1, 30)] := by decide +kernel

/-! ## C58 -/

/-- **C58 is false.** A removal of a range increments an iterator after its node is deleted: for every
history and for every non-empty range the operation accesses a deleted node. -/
theorem erase_range_fails (ops : List (Op F S)) (i : Nat) (ei : Option Nat) (fuel : Nat)
    (hne : some i ≠ ei) :
    ∃ m, Bimap.run ops = some m ∧ m.eraseRange ei fuel (some i) = none := by
  obtain ⟨m, hm, hi, -⟩ := Inv.init.runFrom ops
  refine ⟨m, hm, ?_⟩
  have key : ∀ m', m.erase i = some m' → m'.succ i = none := by
    intro m' hm'
    unfold Bimap.erase at hm'
    cases hd : m.deref i with
    | none => simp [hd] at hm'
    | some v =>
      rw [hd, Option.some.injEq] at hm'
      subst hm'
      have hx : (m.coll.filter (·.1 ≠ i)).find? (fun e => decide (e.1 = i)) = none := by
        rw [List.find?_eq_none]
        intro x hx
        simpa using (List.mem_filter.1 hx).2
      simp only [Bimap.succ, Bimap.deref, hx, Option.map_none]
  cases fuel with
  | zero => simp [Bimap.eraseRange, hne]
  | succ fuel =>
    unfold Bimap.eraseRange
    rw [if_neg hne]
    cases he : m.erase i with
    | none => simp [he]
    | some m' => simp [he, key m' he]

/-- The range of all elements of a map with two pairs. -/
example : ((Bimap.run [Op.insert (1, 10), .insert (2, 20)]).map (fun m => m.coll.map (·.1))) = some [0, 1] := by
  decide +kernel

end Bimap
end Tsar
