import Verif.Bimap.Props

/-!
# Bidirectional maps of lists: specification and theorems

Property C25.
-/

set_option linter.unusedSectionVars false

namespace Tsar
namespace Bimap

variable {F S : Type} [DecidableEq F] [DecidableEq S]

/-! ## Specification -/

/-- An operation of a user, see `Op`. `emplace` has the same effect as `insert`. -/
inductive LOp (F S : Type) where
  | insert (v : List F × List S)
  | eraseFound1 (k : F)
  | eraseFound2 (k : S)
  | clear

/-- Effect of an operation on the list of elements: an element is added if all its keys are new. -/
def LSpec.step (l : List (List F × List S)) : LOp F S → List (List F × List S)
  | .insert v => if ∃ p ∈ l, (∃ k ∈ v.1, k ∈ p.1) ∨ (∃ k ∈ v.2, k ∈ p.2) then l else l ++ [v]
  | .eraseFound1 k => l.filter (k ∉ ·.1)
  | .eraseFound2 k => l.filter (k ∉ ·.2)
  | .clear => []

/-- The list of elements after a history. -/
def LSpec.run (ops : List (LOp F S)) : List (List F × List S) := ops.foldl LSpec.step []

/-- `if (I != M.end()) M.erase(I);`. -/
def ListBimap.eraseIf (m : ListBimap F S) : Option Nat → Option (ListBimap F S)
  | none => some m
  | some i => m.erase i

/-- An operation on the map. -/
def ListBimap.step (m : ListBimap F S) : LOp F S → Option (ListBimap F S)
  | .insert v => some (m.insert v).1
  | .eraseFound1 k => m.eraseIf (m.findFirst k)
  | .eraseFound2 k => m.eraseIf (m.findSecond k)
  | .clear => some { m with coll := [], first := [], second := [] }

/-- A history of operations from a specified state, `none` is an access to a deleted node. -/
def ListBimap.runFrom (m : ListBimap F S) : List (LOp F S) → Option (ListBimap F S)
  | [] => some m
  | o :: os => (m.step o).bind (·.runFrom os)

/-- A history of operations. -/
def ListBimap.run (ops : List (LOp F S)) : Option (ListBimap F S) := ListBimap.init.runFrom ops

/-- What a traversal from `begin()` to `end()` reads. -/
def ListBimap.elements (m : ListBimap F S) : List (List F × List S) := m.coll.map (·.2)

/-! ## Hash maps -/

section
variable {K : Type} [DecidableEq K]

theorem mapFind_put (t : List (K × Nat)) (k k' : K) (i : Nat) :
    mapFind (mapPut t k i) k' = if k' = k ∧ mapFind t k = none then some i else mapFind t k' := by
  unfold mapPut
  cases hk : mapFind t k with
  | some j => simp
  | none =>
    simp only [Option.isSome_none, Bool.false_eq_true, if_false, and_true]
    unfold mapFind at hk ⊢
    rw [List.find?_append]
    by_cases h : k' = k
    · subst h
      rw [if_pos rfl]
      rw [Option.map_eq_none_iff] at hk
      simp [hk]
    · rw [if_neg h]
      have : ([(k, i)] : List (K × Nat)).find? (fun x => decide (x.1 = k')) = none := by
        simp [show ¬ k = k' from fun hc => h hc.symm]
      rw [this, Option.or_none]

theorem mapFind_puts (ks : List K) (t : List (K × Nat)) (k' : K) (i : Nat)
    (h : ∀ k ∈ ks, mapFind t k = none ∨ mapFind t k = some i) :
    mapFind (ks.foldl (fun t k => mapPut t k i) t) k' = if k' ∈ ks then some i else mapFind t k' := by
  induction ks generalizing t with
  | nil => simp
  | cons k ks ih =>
    have h1 : ∀ x ∈ ks, mapFind (mapPut t k i) x = none ∨ mapFind (mapPut t k i) x = some i := by
      intro x hx
      rw [mapFind_put]
      split
      · exact .inr rfl
      · exact h x (List.mem_cons_of_mem _ hx)
    rw [List.foldl_cons, ih _ h1, mapFind_put]
    by_cases hk : k' ∈ ks
    · simp [hk]
    · rw [if_neg hk]
      by_cases he : k' = k
      · subst he
        rcases h k' (List.mem_cons_self ..) with h' | h' <;> simp [h']
      · simp [he, hk]

theorem mapFind_erase (t : List (K × Nat)) (k k' : K) :
    mapFind (mapErase t k) k' = if k' = k then none else mapFind t k' := by
  unfold mapFind mapErase
  induction t with
  | nil => simp
  | cons x xs ih =>
    by_cases hx : x.1 = k
    · rw [List.filter_cons_of_neg (by simp [hx]), ih]
      by_cases hk : k' = k
      · simp [hk]
      · rw [if_neg hk, if_neg hk, List.find?_cons_of_neg]
        simp [hx, show ¬ k = k' from fun hc => hk hc.symm]
    · rw [List.filter_cons_of_pos (by simp [hx])]
      by_cases hk' : x.1 = k'
      · have : ¬ k' = k := fun hc => hx (hk'.trans hc)
        simp [hk', this]
      · rw [List.find?_cons_of_neg (by simpa using hk'), List.find?_cons_of_neg (by simpa using hk'), ih]

theorem mapFind_erases (ks : List K) (t : List (K × Nat)) (k' : K) :
    mapFind (ks.foldl mapErase t) k' = if k' ∈ ks then none else mapFind t k' := by
  induction ks generalizing t with
  | nil => simp
  | cons k ks ih =>
    rw [List.foldl_cons, ih, mapFind_erase]
    by_cases hk : k' ∈ ks
    · simp [hk]
    · by_cases he : k' = k <;> simp [hk, he]

end

/-! ## Invariant -/

/-- An index finds a node if and only if the node is alive and the key is in its list. -/
structure LInv (m : ListBimap F S) : Prop where
  nodup : (m.coll.map (·.1)).Nodup
  bound : ∀ e ∈ m.coll, e.1 < m.next
  first : ∀ k i, m.findFirst k = some i ↔ ∃ e ∈ m.coll, e.1 = i ∧ k ∈ e.2.1
  second : ∀ k i, m.findSecond k = some i ↔ ∃ e ∈ m.coll, e.1 = i ∧ k ∈ e.2.2

theorem LInv.init : LInv (ListBimap.init : ListBimap F S) := by
  constructor <;> simp [ListBimap.init, ListBimap.findFirst, ListBimap.findSecond, mapFind]

theorem LInv.clear {m : ListBimap F S} :
    LInv ({ m with coll := [], first := [], second := [] } : ListBimap F S) := by
  constructor <;> simp [ListBimap.findFirst, ListBimap.findSecond, mapFind]

theorem LInv.deref {m : ListBimap F S} (h : LInv m) {e : Nat × List F × List S} (he : e ∈ m.coll) :
    m.deref e.1 = some e.2 := by
  unfold ListBimap.deref
  rw [find_node h.nodup he]
  rfl

theorem LInv.inj {m : ListBimap F S} (h : LInv m) {x y : Nat × List F × List S} (hx : x ∈ m.coll)
    (hy : y ∈ m.coll) (hxy : x.1 = y.1) : x = y := by
  have a := find_node h.nodup hx
  have b := find_node h.nodup hy
  rw [hxy] at a
  exact Option.some.inj (a.symm.trans b)

theorem LInv.inj1 {m : ListBimap F S} (h : LInv m) {x y : Nat × List F × List S} (hx : x ∈ m.coll)
    (hy : y ∈ m.coll) {k : F} (hkx : k ∈ x.2.1) (hky : k ∈ y.2.1) : x = y :=
  h.inj hx hy (Option.some.inj (((h.first k x.1).2 ⟨x, hx, rfl, hkx⟩).symm.trans
    ((h.first k y.1).2 ⟨y, hy, rfl, hky⟩)))

theorem LInv.inj2 {m : ListBimap F S} (h : LInv m) {x y : Nat × List F × List S} (hx : x ∈ m.coll)
    (hy : y ∈ m.coll) {k : S} (hkx : k ∈ x.2.2) (hky : k ∈ y.2.2) : x = y :=
  h.inj hx hy (Option.some.inj (((h.second k x.1).2 ⟨x, hx, rfl, hkx⟩).symm.trans
    ((h.second k y.1).2 ⟨y, hy, rfl, hky⟩)))

theorem ListBimap.lookup_none (m : ListBimap F S) (v : List F × List S) :
    m.lookup v = none ↔ (∀ k ∈ v.1, m.findFirst k = none) ∧ (∀ k ∈ v.2, m.findSecond k = none) := by
  unfold ListBimap.lookup
  rw [Option.or_eq_none_iff, List.findSome?_eq_none_iff, List.findSome?_eq_none_iff]

theorem LInv.none1 {m : ListBimap F S} (h : LInv m) (k : F) :
    m.findFirst k = none ↔ ∀ p ∈ m.elements, k ∉ p.1 := by
  constructor
  · intro hk p hp hc
    obtain ⟨e, he, rfl⟩ := List.mem_map.1 hp
    have := (h.first k e.1).2 ⟨e, he, rfl, hc⟩
    rw [hk] at this
    simp at this
  · intro hk
    cases hf : m.findFirst k with
    | none => rfl
    | some i =>
      obtain ⟨e, he, -, hc⟩ := (h.first k i).1 hf
      exact absurd hc (hk _ (List.mem_map_of_mem he))

theorem LInv.none2 {m : ListBimap F S} (h : LInv m) (k : S) :
    m.findSecond k = none ↔ ∀ p ∈ m.elements, k ∉ p.2 := by
  constructor
  · intro hk p hp hc
    obtain ⟨e, he, rfl⟩ := List.mem_map.1 hp
    have := (h.second k e.1).2 ⟨e, he, rfl, hc⟩
    rw [hk] at this
    simp at this
  · intro hk
    cases hf : m.findSecond k with
    | none => rfl
    | some i =>
      obtain ⟨e, he, -, hc⟩ := (h.second k i).1 hf
      exact absurd hc (hk _ (List.mem_map_of_mem he))

theorem LInv.lookup_iff {m : ListBimap F S} (h : LInv m) (v : List F × List S) :
    m.lookup v = none ↔ ¬ ∃ p ∈ m.elements, (∃ k ∈ v.1, k ∈ p.1) ∨ (∃ k ∈ v.2, k ∈ p.2) := by
  rw [m.lookup_none]
  constructor
  · rintro ⟨h1, h2⟩ ⟨p, hp, ⟨k, hk, hc⟩ | ⟨k, hk, hc⟩⟩
    · exact (h.none1 k).1 (h1 k hk) p hp hc
    · exact (h.none2 k).1 (h2 k hk) p hp hc
  · intro hne
    exact ⟨fun k hk => (h.none1 k).2 fun p hp hc => hne ⟨p, hp, .inl ⟨k, hk, hc⟩⟩,
      fun k hk => (h.none2 k).2 fun p hp hc => hne ⟨p, hp, .inr ⟨k, hk, hc⟩⟩⟩

theorem LInv.insertNode {m : ListBimap F S} (h : LInv m) (v : List F × List S) (hl : m.lookup v = none) :
    LInv ({ m with next := m.next + 1 }.insertNode m.next v) := by
  obtain ⟨h1, h2⟩ := (m.lookup_none v).1 hl
  constructor
  · change ((m.coll ++ [(m.next, v)]).map (·.1)).Nodup
    rw [List.map_append, List.nodup_append]
    refine ⟨h.nodup, by simp, ?_⟩
    intro a ha b hb
    simp only [List.map_cons, List.map_nil, List.mem_singleton] at hb
    obtain ⟨e, he, rfl⟩ := List.mem_map.1 ha
    have := h.bound e he
    omega
  · intro e he
    rcases List.mem_append.1 he with he | he
    · exact Nat.lt_succ_of_lt (h.bound e he)
    · rw [List.mem_singleton.1 he]
      exact Nat.lt_succ_self _
  · intro k i
    change mapFind (v.1.foldl (fun t k => mapPut t k m.next) m.first) k = some i ↔
      ∃ e ∈ m.coll ++ [(m.next, v)], e.1 = i ∧ k ∈ e.2.1
    rw [mapFind_puts _ _ _ _ (fun k hk => .inl (h1 k hk))]
    by_cases hk : k ∈ v.1
    · rw [if_pos hk, Option.some.injEq]
      constructor
      · rintro rfl
        exact ⟨_, List.mem_append_right _ (List.mem_singleton.2 rfl), rfl, hk⟩
      · rintro ⟨e, he, hei, hek⟩
        rcases List.mem_append.1 he with he | he
        · have := (h.first k e.1).2 ⟨e, he, rfl, hek⟩
          rw [h1 k hk] at this
          simp at this
        · rw [List.mem_singleton.1 he] at hei
          exact hei
    · rw [if_neg hk]
      refine (h.first k i).trans ?_
      constructor
      · rintro ⟨e, he, hek⟩
        exact ⟨e, List.mem_append_left _ he, hek⟩
      · rintro ⟨e, he, hei, hek⟩
        rcases List.mem_append.1 he with he | he
        · exact ⟨e, he, hei, hek⟩
        · rw [List.mem_singleton.1 he] at hek
          exact absurd hek hk
  · intro k i
    change mapFind (v.2.foldl (fun t k => mapPut t k m.next) m.second) k = some i ↔
      ∃ e ∈ m.coll ++ [(m.next, v)], e.1 = i ∧ k ∈ e.2.2
    rw [mapFind_puts _ _ _ _ (fun k hk => .inl (h2 k hk))]
    by_cases hk : k ∈ v.2
    · rw [if_pos hk, Option.some.injEq]
      constructor
      · rintro rfl
        exact ⟨_, List.mem_append_right _ (List.mem_singleton.2 rfl), rfl, hk⟩
      · rintro ⟨e, he, hei, hek⟩
        rcases List.mem_append.1 he with he | he
        · have := (h.second k e.1).2 ⟨e, he, rfl, hek⟩
          rw [h2 k hk] at this
          simp at this
        · rw [List.mem_singleton.1 he] at hei
          exact hei
    · rw [if_neg hk]
      refine (h.second k i).trans ?_
      constructor
      · rintro ⟨e, he, hek⟩
        exact ⟨e, List.mem_append_left _ he, hek⟩
      · rintro ⟨e, he, hei, hek⟩
        rcases List.mem_append.1 he with he | he
        · exact ⟨e, he, hei, hek⟩
        · rw [List.mem_singleton.1 he] at hek
          exact absurd hek hk

theorem LInv.erase {m : ListBimap F S} (h : LInv m) {e : Nat × List F × List S} (he : e ∈ m.coll) :
    LInv { m with
      first := e.2.1.foldl mapErase m.first
      second := e.2.2.foldl mapErase m.second
      coll := m.coll.filter (·.1 ≠ e.1) } := by
  have hs : (m.coll.filter (·.1 ≠ e.1)).Sublist m.coll := List.filter_sublist
  constructor
  · exact (hs.map _).nodup h.nodup
  · exact fun e he => h.bound e (hs.subset he)
  · intro k i
    change mapFind (e.2.1.foldl mapErase m.first) k = some i ↔
      ∃ x ∈ m.coll.filter (·.1 ≠ e.1), x.1 = i ∧ k ∈ x.2.1
    rw [mapFind_erases]
    by_cases hk : k ∈ e.2.1
    · rw [if_pos hk]
      constructor
      · intro hc; simp at hc
      · rintro ⟨x, hx, -, hkx⟩
        rw [List.mem_filter] at hx
        rw [h.inj1 hx.1 he hkx hk] at hx
        simp at hx
    · rw [if_neg hk]
      refine (h.first k i).trans ?_
      constructor
      · rintro ⟨x, hx, hxi, hkx⟩
        refine ⟨x, List.mem_filter.2 ⟨hx, ?_⟩, hxi, hkx⟩
        simp only [ne_eq, decide_not, Bool.not_eq_eq_eq_not, Bool.not_true, decide_eq_false_iff_not]
        exact fun hc => hk (h.inj hx he hc ▸ hkx)
      · rintro ⟨x, hx, hxi, hkx⟩
        exact ⟨x, hs.subset hx, hxi, hkx⟩
  · intro k i
    change mapFind (e.2.2.foldl mapErase m.second) k = some i ↔
      ∃ x ∈ m.coll.filter (·.1 ≠ e.1), x.1 = i ∧ k ∈ x.2.2
    rw [mapFind_erases]
    by_cases hk : k ∈ e.2.2
    · rw [if_pos hk]
      constructor
      · intro hc; simp at hc
      · rintro ⟨x, hx, -, hkx⟩
        rw [List.mem_filter] at hx
        rw [h.inj2 hx.1 he hkx hk] at hx
        simp at hx
    · rw [if_neg hk]
      refine (h.second k i).trans ?_
      constructor
      · rintro ⟨x, hx, hxi, hkx⟩
        refine ⟨x, List.mem_filter.2 ⟨hx, ?_⟩, hxi, hkx⟩
        simp only [ne_eq, decide_not, Bool.not_eq_eq_eq_not, Bool.not_true, decide_eq_false_iff_not]
        exact fun hc => hk (h.inj hx he hc ▸ hkx)
      · rintro ⟨x, hx, hxi, hkx⟩
        exact ⟨x, hs.subset hx, hxi, hkx⟩

theorem LInv.eraseIf {m : ListBimap F S} (h : LInv m) (r : Option Nat) (P : List F × List S → Bool)
    (hr : ∀ i, r = some i → ∃ e ∈ m.coll, e.1 = i ∧ P e.2 = true ∧ ∀ x ∈ m.coll, P x.2 = true → x = e)
    (hn : r = none → ∀ p ∈ m.elements, P p = false) :
    ∃ m', m.eraseIf r = some m' ∧ LInv m' ∧ m'.elements = m.elements.filter (!P ·) := by
  cases r with
  | none =>
    refine ⟨m, rfl, h, (List.filter_eq_self.2 ?_).symm⟩
    intro p hp
    simp [hn rfl p hp]
  | some i =>
    obtain ⟨e, he, rfl, hp, hu⟩ := hr i rfl
    refine ⟨_, ?_, h.erase he, ?_⟩
    · change m.erase e.1 = _
      unfold ListBimap.erase
      rw [h.deref he]
    · change (m.coll.filter (·.1 ≠ e.1)).map (·.2) = (m.coll.map (·.2)).filter (!P ·)
      rw [List.filter_map]
      congr 1
      refine List.filter_congr ?_
      intro x hx
      by_cases hx1 : x.1 = e.1
      · have := h.inj hx he hx1
        subst this
        simp [hp]
      · have : P x.2 = false := by
          cases hpx : P x.2 with
          | false => rfl
          | true => exact absurd (congrArg Prod.fst (hu x hx hpx)) hx1
        simp [hx1, this]

theorem LInv.step {m : ListBimap F S} (h : LInv m) (o : LOp F S) :
    ∃ m', m.step o = some m' ∧ LInv m' ∧ m'.elements = LSpec.step m.elements o := by
  cases o with
  | insert v =>
    simp only [ListBimap.step, ListBimap.insert, LSpec.step]
    cases hl : m.lookup v with
    | some i =>
      refine ⟨m, rfl, h, ?_⟩
      rw [if_pos]
      by_cases hc : ∃ p ∈ m.elements, (∃ k ∈ v.1, k ∈ p.1) ∨ (∃ k ∈ v.2, k ∈ p.2)
      · exact hc
      · rw [(h.lookup_iff v).2 hc] at hl
        simp at hl
    | none =>
      refine ⟨_, rfl, h.insertNode v hl, ?_⟩
      rw [if_neg ((h.lookup_iff v).1 hl)]
      change (m.coll ++ [(m.next, v)]).map (·.2) = _
      rw [List.map_append]
      rfl
  | eraseFound1 k =>
    obtain ⟨m', a, b, c⟩ := h.eraseIf (m.findFirst k) (fun p => decide (k ∈ p.1)) (by
        intro i hi
        obtain ⟨e, he, hei, hk⟩ := (h.first k i).1 hi
        exact ⟨e, he, hei, by simpa using hk, fun x hx hkx => h.inj1 hx he (by simpa using hkx) hk⟩)
      (by
        intro hn p hp
        simpa using (h.none1 k).1 hn p hp)
    refine ⟨m', a, b, ?_⟩
    rw [c]
    simp [LSpec.step]
  | eraseFound2 k =>
    obtain ⟨m', a, b, c⟩ := h.eraseIf (m.findSecond k) (fun p => decide (k ∈ p.2)) (by
        intro i hi
        obtain ⟨e, he, hei, hk⟩ := (h.second k i).1 hi
        exact ⟨e, he, hei, by simpa using hk, fun x hx hkx => h.inj2 hx he (by simpa using hkx) hk⟩)
      (by
        intro hn p hp
        simpa using (h.none2 k).1 hn p hp)
    refine ⟨m', a, b, ?_⟩
    rw [c]
    simp [LSpec.step]
  | clear => exact ⟨_, rfl, LInv.clear, rfl⟩

theorem LInv.runFrom {m : ListBimap F S} (h : LInv m) (ops : List (LOp F S)) :
    ∃ m', m.runFrom ops = some m' ∧ LInv m' ∧ m'.elements = ops.foldl LSpec.step m.elements := by
  induction ops generalizing m with
  | nil => exact ⟨m, rfl, h, rfl⟩
  | cons o os ih =>
    obtain ⟨m1, h1, hi, hp⟩ := h.step o
    obtain ⟨m2, h2, hi2, hp2⟩ := ih hi
    refine ⟨m2, ?_, hi2, ?_⟩
    · simp only [ListBimap.runFrom, h1, Option.bind_some, h2]
    · rw [hp2, hp]; rfl

/-! ## C25 -/

/-- **C25.** After every history of insertions and removals through iterators the map contains exactly
elements of the specification in the order of insertions. A search by a key returns an element with
this key if there is one and `end()` otherwise. No deleted node is accessed. -/
theorem list_bimap_history (ops : List (LOp F S)) :
    ∃ m, ListBimap.run ops = some m ∧ m.elements = LSpec.run ops ∧
      (∀ k, (m.findFirst k = none ↔ ∀ p ∈ LSpec.run ops, k ∉ p.1) ∧
        ∀ i, m.findFirst k = some i → ∃ p ∈ LSpec.run ops, m.deref i = some p ∧ k ∈ p.1) ∧
      (∀ k, (m.findSecond k = none ↔ ∀ p ∈ LSpec.run ops, k ∉ p.2) ∧
        ∀ i, m.findSecond k = some i → ∃ p ∈ LSpec.run ops, m.deref i = some p ∧ k ∈ p.2) := by
  obtain ⟨m, hm, hi, hp⟩ := LInv.init.runFrom ops
  have hp : m.elements = LSpec.run ops := hp
  refine ⟨m, hm, hp, ?_, ?_⟩
  · intro k
    refine ⟨hp ▸ hi.none1 k, ?_⟩
    intro i hf
    obtain ⟨e, he, rfl, hk⟩ := (hi.first k i).1 hf
    exact ⟨e.2, hp ▸ List.mem_map_of_mem he, hi.deref he, hk⟩
  · intro k
    refine ⟨hp ▸ hi.none2 k, ?_⟩
    intro i hf
    obtain ⟨e, he, rfl, hk⟩ := (hi.second k i).1 hf
    exact ⟨e.2, hp ▸ List.mem_map_of_mem he, hi.deref he, hk⟩

/-- **C25.** A key belongs to one element only: elements at different positions have no common keys. -/
theorem list_bimap_unique (ops : List (LOp F S)) :
    (LSpec.run ops).Pairwise (fun p q => (∀ k ∈ p.1, k ∉ q.1) ∧ (∀ k ∈ p.2, k ∉ q.2)) := by
  obtain ⟨m, hm, hi, hp⟩ := LInv.init.runFrom ops
  have hp : m.elements = LSpec.run ops := hp
  rw [← hp]
  unfold ListBimap.elements
  rw [List.pairwise_map]
  have hn := hi.nodup
  unfold List.Nodup at hn
  rw [List.pairwise_map] at hn
  refine hn.imp_of_mem ?_
  intro a b ha hb hab
  exact ⟨fun k hk hc => hab (congrArg Prod.fst (hi.inj1 ha hb hk hc)),
    fun k hk hc => hab (congrArg Prod.fst (hi.inj2 ha hb hk hc))⟩

theorem LInv.lookup_some {m : ListBimap F S} (h : LInv m) {v : List F × List S} {i : Nat}
    (hl : m.lookup v = some i) :
    ∃ p ∈ m.elements, m.deref i = some p ∧ ((∃ k ∈ v.1, k ∈ p.1) ∨ (∃ k ∈ v.2, k ∈ p.2)) := by
  unfold ListBimap.lookup at hl
  rw [Option.or_eq_some_iff] at hl
  rcases hl with hl | ⟨-, hl⟩
  · obtain ⟨k, hk, hf⟩ := List.exists_of_findSome?_eq_some hl
    obtain ⟨e, he, rfl, hke⟩ := (h.first k i).1 hf
    exact ⟨e.2, List.mem_map_of_mem he, h.deref he, .inl ⟨k, hk, hke⟩⟩
  · obtain ⟨k, hk, hf⟩ := List.exists_of_findSome?_eq_some hl
    obtain ⟨e, he, rfl, hke⟩ := (h.second k i).1 hf
    exact ⟨e.2, List.mem_map_of_mem he, h.deref he, .inr ⟨k, hk, hke⟩⟩

/-- **C25.** An insertion reports success if and only if all keys are new. It returns an iterator to
the new element or to an element which prevents insertion. -/
theorem list_insert_result (ops : List (LOp F S)) (v : List F × List S) :
    ∃ m m' i ok, ListBimap.run ops = some m ∧ m.insert v = (m', i, ok) ∧
      (ok = true ↔ ∀ p ∈ m.elements, (∀ k ∈ v.1, k ∉ p.1) ∧ (∀ k ∈ v.2, k ∉ p.2)) ∧
      (ok = true → m'.deref i = some v) ∧
      (ok = false → ∃ p ∈ m.elements, m'.deref i = some p ∧
        ((∃ k ∈ v.1, k ∈ p.1) ∨ (∃ k ∈ v.2, k ∈ p.2))) := by
  obtain ⟨m, hm, hi, -⟩ := LInv.init.runFrom ops
  refine ⟨m, ?_⟩
  cases hl : m.lookup v with
  | some i =>
    refine ⟨m, i, false, hm, by simp [ListBimap.insert, hl], ?_, by simp, fun _ => hi.lookup_some hl⟩
    obtain ⟨p, hp, _, hk⟩ := hi.lookup_some hl
    constructor
    · simp
    · intro h
      rcases hk with ⟨k, hk, hc⟩ | ⟨k, hk, hc⟩
      · exact absurd hc ((h p hp).1 k hk)
      · exact absurd hc ((h p hp).2 k hk)
  | none =>
    obtain ⟨h1, h2⟩ := (m.lookup_none v).1 hl
    refine ⟨{ m with next := m.next + 1 }.insertNode m.next v, m.next, true, hm,
      by simp only [ListBimap.insert, hl], ?_, ?_, by simp⟩
    · exact ⟨fun _ p hp => ⟨fun k hk => (hi.none1 k).1 (h1 k hk) p hp,
        fun k hk => (hi.none2 k).1 (h2 k hk) p hp⟩, fun _ => rfl⟩
    · intro _
      exact (hi.insertNode v hl).deref (e := (m.next, v))
        (List.mem_append_right _ (List.mem_singleton.2 rfl))

/-- A history with an element with many keys, a rejected insertion and a removal. -/
def lsample : List (LOp Nat Nat) :=
  [.insert ([1, 2], [10]), .insert ([3], [30, 31, 30]), .insert ([4, 2], [40]), .eraseFound2 31,
    .insert ([3], [31]), .insert ([], [30])]

example : LSpec.run lsample = [([1, 2], [10]), ([3], [31]), ([], [30])] := by decide +kernel

example : (ListBimap.run lsample).map (·.elements) = some [([1, 2], [10]), ([3], [31]), ([], [30])] := by
  decide +kernel

example : (ListBimap.run lsample).map (fun m => (m.findFirst 2, m.findSecond 30, m.findFirst 4)) =
    some (some 0, some 3, none) := by decide +kernel

end Bimap
end Tsar
