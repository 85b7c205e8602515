import Verif.DvmhMerge.Model
import Mathlib.Tactic.Common

/-!
# Properties C148, C149: variables of data directives and merging of directives
-/

namespace Tsar.DvmhMerge

/-! ### The order of variables -/

/-- A part of subscripts which is used to distinguish elements: everything up to the first constant except parameters of
axes. -/
def significant : List Rel → List (Option Int × Bool)
  | [] => []
  | .none :: rs => (none, false) :: significant rs
  | .axis .. :: rs => (none, true) :: significant rs
  | .const c :: _ => [(some c, true)]

/-- Elements which are the same for the order. -/
def Same (a b : Align) : Prop := alignLess a b = false ∧ alignLess b a = false

theorem relLess_irrefl : ∀ l : List Rel, relLess l l = false
  | [] => rfl
  | .none :: ls => by simpa [relLess] using relLess_irrefl ls
  | .axis .. :: ls => by simpa [relLess] using relLess_irrefl ls
  | .const _ :: _ => by simp [relLess]

theorem relLess_same : ∀ a b : List Rel, a.length = b.length →
    ((relLess a b = false ∧ relLess b a = false) ↔ significant a = significant b)
  | [], [], _ => by simp [relLess, significant]
  | a :: as, b :: bs, h => by
    have h : as.length = bs.length := by simpa using h
    have ih := relLess_same as bs h
    cases a <;> cases b <;> simp [relLess, significant, ih]
    omega

theorem relLess_trans : ∀ a b c : List Rel, a.length = b.length → b.length = c.length →
    relLess a b = true → relLess b c = true → relLess a c = true
  | [], [], [], _, _, h, _ => by simp [relLess] at h
  | a :: as, b :: bs, c :: cs, h1, h2, h3, h4 => by
    have h1 : as.length = bs.length := by simpa using h1
    have h2 : bs.length = cs.length := by simpa using h2
    have ih := relLess_trans as bs cs h1 h2
    cases a <;> cases b <;> cases c <;> simp_all [relLess]
    omega

/-- **C148.** The order is a strict weak order as `std::set` requires: it is irreflexive, ... -/
theorem less_irrefl (a : Align) : alignLess a a = false := by simp [alignLess, relLess_irrefl]

/-- **C148.** ... transitive ... -/
theorem less_trans {a b c : Align} (h1 : alignLess a b = true) (h2 : alignLess b c = true) : alignLess a c = true := by
  unfold alignLess at *
  by_cases n1 : a.name = b.name <;> by_cases n2 : b.name = c.name
  · have n3 := n1.trans n2
    rw [if_neg (not_not_intro n1)] at h1
    rw [if_neg (not_not_intro n2)] at h2
    rw [if_neg (not_not_intro n3)]
    by_cases l1 : a.rel.length = b.rel.length <;> by_cases l2 : b.rel.length = c.rel.length
    · have l3 := l1.trans l2
      rw [if_neg (not_not_intro l1)] at h1
      rw [if_neg (not_not_intro l2)] at h2
      rw [if_neg (not_not_intro l3)]
      exact relLess_trans _ _ _ l1 l2 h1 h2
    · have l3 : a.rel.length ≠ c.rel.length := l1 ▸ l2
      rw [if_pos l2] at h2
      rw [if_pos l3, l1]; exact h2
    · have l3 : a.rel.length ≠ c.rel.length := l2 ▸ l1
      rw [if_pos l1] at h1
      rw [if_pos l3, ← l2]; exact h1
    · rw [if_pos l1] at h1
      rw [if_pos l2] at h2
      simp only [decide_eq_true_eq] at h1 h2
      have l3 : a.rel.length ≠ c.rel.length := by omega
      rw [if_pos l3]; simp only [decide_eq_true_eq]; omega
  · have n3 : a.name ≠ c.name := n1 ▸ n2
    rw [if_pos n2] at h2
    rw [if_pos n3, n1]; exact h2
  · have n3 : a.name ≠ c.name := n2 ▸ n1
    rw [if_pos n1] at h1
    rw [if_pos n3, ← n2]; exact h1
  · rw [if_pos n1] at h1
    rw [if_pos n2] at h2
    simp only [decide_eq_true_eq] at h1 h2
    have n3 : a.name ≠ c.name := by omega
    rw [if_pos n3]; simp only [decide_eq_true_eq]; omega

/-- **C148.** ... and elements are the same if and only if they have the same name, the same number of subscripts and
the same significant part of subscripts, ... -/
theorem same_iff (a b : Align) : Same a b ↔
    a.name = b.name ∧ a.rel.length = b.rel.length ∧ significant a.rel = significant b.rel := by
  unfold Same alignLess
  by_cases n : a.name = b.name
  · by_cases l : a.rel.length = b.rel.length
    · simp only [n, l, ne_eq, not_true_eq_false, if_false, true_and]
      exact relLess_same _ _ l
    · simp only [n, l, ne_eq, not_true_eq_false, if_false, not_false_eq_true, if_true, false_and, and_false, iff_false,
        Ne.symm l, decide_eq_false_iff_not]
      rintro ⟨h1, h2⟩; omega
  · simp only [n, ne_eq, not_false_eq_true, if_true, false_and, iff_false, Ne.symm n, decide_eq_false_iff_not]
    rintro ⟨h1, h2⟩; omega

/-- **C148.** ... so this relation is transitive. -/
theorem same_trans {a b c : Align} (h1 : Same a b) (h2 : Same b c) : Same a c := by
  rw [same_iff] at *
  exact ⟨h1.1.trans h2.1, h1.2.1.trans h2.2.1, h1.2.2.trans h2.2.2⟩

/-- Whole variables. -/
def Whole (a : Align) : Prop := a.rel = []

/-- **C148 (partial).** Different whole variables with different names are different in a list of variables, and so are
elements with one constant subscript. The full statement is that different elements are always different: it is false,
see `distinct_fails`. -/
theorem distinct_partial {a b : Align} (hs : Same a b) (hn : a.name = b.name → a.target = b.target)
    (hr : (Whole a ∧ Whole b) ∨ ∃ x y, a.rel = [.const x] ∧ b.rel = [.const y]) : a = b := by
  obtain ⟨h1, h2, h3⟩ := (same_iff a b).mp hs
  have ht := hn h1
  cases a with | mk ta na ra => cases b with | mk tb nb rb =>
  simp only at h1 ht h3
  rcases hr with ⟨w1, w2⟩ | ⟨x, y, w1, w2⟩
  · simp only [Whole] at w1 w2; subst w1 w2 h1 ht; rfl
  · simp only at w1 w2; subst w1 w2 h1 ht
    simp only [significant, List.cons.injEq, Prod.mk.injEq, Option.some.injEq, and_true] at h3
    rw [h3]

/-- **C148 fails.** Elements `A[1][2]` and `A[1][3]`, `A[I0]` and `A[I1]`, two variables with the same name. -/
theorem distinct_fails :
    Same ⟨0, 0, [.const 1, .const 2]⟩ ⟨0, 0, [.const 1, .const 3]⟩ ∧
    Same ⟨0, 0, [.axis 0 1 0]⟩ ⟨0, 0, [.axis 1 1 0]⟩ ∧ Same ⟨0, 0, []⟩ ⟨1, 0, []⟩ := by
  simp only [Same]; decide

/-! ### Lists of variables -/

theorem mem_insert {a x : Align} : ∀ {vs : List Align}, x ∈ insert a vs → x = a ∨ x ∈ vs
  | [], h => by simpa [insert] using h
  | b :: bs, h => by
    rw [insert] at h
    split_ifs at h with h1 h2
    · simpa using h
    · rcases List.mem_cons.mp h with rfl | h
      · simp
      · rcases mem_insert h with rfl | h <;> simp_all
    · exact .inr h

theorem insert_keeps {a x : Align} : ∀ {vs : List Align}, x ∈ vs → x ∈ insert a vs
  | b :: bs, h => by
    rw [insert]
    split_ifs with h1 h2
    · exact List.mem_cons_of_mem _ h
    · rcases List.mem_cons.mp h with rfl | h
      · simp
      · exact List.mem_cons_of_mem _ (insert_keeps h)
    · exact h

theorem insert_has (a : Align) : ∀ vs : List Align, ∃ x ∈ insert a vs, Same x a
  | [] => ⟨a, by simp [insert], less_irrefl a, less_irrefl a⟩
  | b :: bs => by
    rw [insert]
    split_ifs with h1 h2
    · exact ⟨a, by simp, less_irrefl a, less_irrefl a⟩
    · obtain ⟨x, hx, hs⟩ := insert_has a bs
      exact ⟨x, List.mem_cons_of_mem _ hx, hs⟩
    · exact ⟨b, by simp, by simpa using h2, by simpa using h1⟩

theorem mem_insertAll {x : Align} : ∀ (as vs : List Align), x ∈ insertAll vs as → x ∈ as ∨ x ∈ vs
  | [], vs, h => .inr h
  | a :: as, vs, h => by
    rcases mem_insertAll as (insert a vs) h with h | h
    · exact .inl (List.mem_cons_of_mem _ h)
    · rcases mem_insert h with rfl | h
      · exact .inl (by simp)
      · exact .inr h

theorem insertAll_keeps {x : Align} : ∀ (as vs : List Align), x ∈ vs → x ∈ insertAll vs as
  | [], _, h => h
  | a :: as, vs, h => insertAll_keeps as (insert a vs) (insert_keeps h)

theorem insertAll_has {a : Align} : ∀ (as vs : List Align), a ∈ as → ∃ x ∈ insertAll vs as, Same x a
  | b :: as, vs, h => by
    rcases List.mem_cons.mp h with rfl | h
    · obtain ⟨x, hx, hs⟩ := insert_has a vs
      exact ⟨x, insertAll_keeps as _ hx, hs⟩
    · exact insertAll_has as _ h

/-- The list is sorted and has no repetitions. -/
theorem insert_sorted (a : Align) : ∀ vs : List Align, vs.Pairwise (fun x y => alignLess x y = true) →
    (insert a vs).Pairwise (fun x y => alignLess x y = true)
  | [], _ => by simp [insert]
  | b :: bs, h => by
    obtain ⟨hb, hbs⟩ := List.pairwise_cons.mp h
    rw [insert]
    split_ifs with h1 h2
    · refine List.pairwise_cons.mpr ⟨fun x hx => ?_, h⟩
      rcases List.mem_cons.mp hx with rfl | hx
      · exact h1
      · exact less_trans h1 (hb x hx)
    · refine List.pairwise_cons.mpr ⟨fun x hx => ?_, insert_sorted a bs hbs⟩
      rcases mem_insert hx with rfl | hx
      · exact h2
      · exact hb x hx
    · exact h

theorem insertAll_sorted : ∀ (as vs : List Align), vs.Pairwise (fun x y => alignLess x y = true) →
    (insertAll vs as).Pairwise (fun x y => alignLess x y = true)
  | [], _, h => h
  | a :: as, vs, h => insertAll_sorted as _ (insert_sorted a vs h)

/-! ### Merging -/

/-- Specification of a written directive: it has variables of a group of directives which are visible, each of them
is written once. -/
structure Describes (vis : Align → Bool) (group : List Item) (vars : List Align) : Prop where
  only : ∀ x ∈ vars, vis x = true ∧ ∃ i ∈ group, x ∈ i.mem
  all : ∃ whole : List Align, vars = whole.filter vis ∧ (∀ x ∈ whole, ∃ i ∈ group, x ∈ i.mem) ∧
    ∀ i ∈ group, ∀ a ∈ i.mem, ∃ x ∈ whole, Same x a
  once : vars.Pairwise (fun x y => alignLess x y = true)

/-- Specification: directives are split into groups of directives which follow one another and have the same kind and
mergeable end markers, the next directive cannot be added to a group; a single directive is written for each group if it has visible variables. -/
inductive Groups (vis : Align → Bool) (mergeable : Nat → Nat → Bool) : List Item → List Written → Prop
  | nil : Groups vis mergeable [] []
  | hidden {h : Item} {group rest : List Item} {ws : List Written} :
      (∀ i ∈ group, i.kind = h.kind ∧ mergeable h.mark i.mark = true) →
      (∀ j, rest.head? = some j → ¬ (j.kind = h.kind ∧ mergeable h.mark j.mark = true)) →
      Describes vis (h :: group) [] → Groups vis mergeable rest ws →
      Groups vis mergeable ((h :: group) ++ rest) ws
  | written {h : Item} {group rest : List Item} {vars : List Align} {ws : List Written} :
      (∀ i ∈ group, i.kind = h.kind ∧ mergeable h.mark i.mark = true) →
      (∀ j, rest.head? = some j → ¬ (j.kind = h.kind ∧ mergeable h.mark j.mark = true)) → vars ≠ [] →
      Describes vis (h :: group) vars → Groups vis mergeable rest ws →
      Groups vis mergeable ((h :: group) ++ rest) (⟨h, h.kind, vars⟩ :: ws)

/-- Variables which are collected for a group. -/
structure Coll (group : List Item) (vars : List Align) : Prop where
  only : ∀ x ∈ vars, ∃ i ∈ group, x ∈ i.mem
  all : ∀ i ∈ group, ∀ a ∈ i.mem, ∃ x ∈ vars, Same x a
  sorted : vars.Pairwise (fun x y => alignLess x y = true)

theorem Coll.single (i : Item) : Coll [i] (insertAll [] i.mem) where
  only x hx := by
    rcases mem_insertAll _ _ hx with h | h
    · exact ⟨i, by simp, h⟩
    · simp at h
  all j hj a ha := by
    rw [List.mem_singleton] at hj; subst hj
    exact insertAll_has _ _ ha
  sorted := insertAll_sorted _ _ .nil

theorem Coll.add {group : List Item} {vars : List Align} (h : Coll group vars) (i : Item) :
    Coll (group ++ [i]) (insertAll vars i.mem) where
  only x hx := by
    rcases mem_insertAll _ _ hx with h' | h'
    · exact ⟨i, by simp, h'⟩
    · obtain ⟨j, hj, hx⟩ := h.only x h'
      exact ⟨j, by simp [hj], hx⟩
  all j hj a ha := by
    rcases List.mem_append.mp hj with hj | hj
    · obtain ⟨x, hx, hs⟩ := h.all j hj a ha
      exact ⟨x, insertAll_keeps _ _ hx, hs⟩
    · rw [List.mem_singleton] at hj; subst hj
      exact insertAll_has _ _ ha
  sorted := insertAll_sorted _ _ h.sorted

theorem Coll.describes {vis : Align → Bool} {group : List Item} {vars : List Align} (h : Coll group vars) :
    Describes vis group (vars.filter vis) where
  only x hx := by
    obtain ⟨h1, h2⟩ := List.mem_filter.mp hx
    exact ⟨h2, h.only x h1⟩
  all := ⟨vars, rfl, h.only, h.all⟩
  once := h.sorted.filter _

theorem flush_groups {vis : Align → Bool} {mergeable : Nat → Nat → Bool} {h : Item} {group rest : List Item}
    {vars : List Align} {ws : List Written} (hk : ∀ i ∈ group, i.kind = h.kind ∧ mergeable h.mark i.mark = true)
    (hn : ∀ j, rest.head? = some j → ¬ (j.kind = h.kind ∧ mergeable h.mark j.mark = true))
    (hc : Coll (h :: group) vars) (hr : Groups vis mergeable rest ws) :
    Groups vis mergeable ((h :: group) ++ rest) (flush vis h vars ++ ws) := by
  have hd := hc.describes (vis := vis)
  unfold flush
  split_ifs with he
  · rw [List.isEmpty_iff] at he
    rw [he] at hd
    exact .hidden hk hn hd hr
  · exact .written hk hn (fun h => he (List.isEmpty_iff.mpr h)) hd hr

theorem loop_some {vis : Align → Bool} {mergeable : Nat → Nat → Bool} : ∀ (is : List Item) (h : Item)
    (group : List Item) (vars : List Align), (∀ i ∈ group, i.kind = h.kind ∧ mergeable h.mark i.mark = true) →
    Coll (h :: group) vars →
    Groups vis mergeable ((h :: group) ++ is.filter live) (loop vis mergeable (some h) vars is)
  | [], h, group, vars, hk, hc => by
    have := flush_groups (vis := vis) (mergeable := mergeable) (rest := []) hk (by simp) hc .nil
    simpa [loop] using this
  | i :: is, h, group, vars, hk, hc => by
    rw [loop]
    by_cases hl : live i = true
    · simp only [hl, Bool.not_true, Bool.false_eq_true, if_false, List.filter_cons_of_pos]
      split_ifs with hm
      · refine flush_groups hk (fun j hj => ?_) hc (loop_some is i [] _ (by simp) (Coll.single i))
        simp only [List.nil_append, List.cons_append, List.head?_cons, Option.some.injEq] at hj
        subst hj
        rintro ⟨e1, e2⟩
        simp [e1, e2] at hm
      · simp only [ne_eq, Bool.or_eq_true, decide_eq_true_eq, Bool.not_eq_true', not_or, not_not,
          Bool.not_eq_false] at hm
        have := loop_some (vis := vis) is h (group ++ [i]) _ (fun j hj => by
          rcases List.mem_append.mp hj with hj | hj
          · exact hk j hj
          · rw [List.mem_singleton] at hj; subst hj; exact ⟨hm.1.symm, hm.2⟩) (hc.add i)
        simpa using this
    · simp only [hl, Bool.not_false, if_true, List.filter_cons_of_neg, not_false_eq_true, Bool.not_eq_true]
      exact loop_some is h group vars hk hc

/-- **C149.** Directives which are neither invalid nor skipped are merged into groups in the order of directives, each
group is described by a single directive which is attached to the first directive in the group. -/
theorem write_groups (vis : Align → Bool) (mergeable : Nat → Nat → Bool) :
    ∀ items : List Item, Groups vis mergeable (items.filter live) (write vis mergeable items)
  | [] => .nil
  | i :: is => by
    unfold write
    rw [loop]
    by_cases hl : live i = true
    · simp only [hl, Bool.not_true, Bool.false_eq_true, if_false, List.filter_cons_of_pos]
      exact loop_some is i [] _ (by simp) (Coll.single i)
    · simp only [hl, Bool.not_false, if_true, List.filter_cons_of_neg, not_false_eq_true, Bool.not_eq_true]
      exact write_groups vis mergeable is

/-- **C149.** Only requested transfers are written. -/
theorem written_requested {vis : Align → Bool} {mergeable : Nat → Nat → Bool} {items : List Item} {w : Written}
    (hw : w ∈ write vis mergeable items) {x : Align} (hx : x ∈ w.vars) :
    vis x = true ∧ ∃ i ∈ items, i.kind = w.kind ∧ i.invalid = false ∧ i.skipped = false ∧ x ∈ i.mem := by
  have key : ∀ {is ws}, Groups vis mergeable is ws → w ∈ ws →
      vis x = true ∧ ∃ i ∈ is, i.kind = w.kind ∧ x ∈ i.mem := by
    intro is ws hg
    induction hg with
    | nil => intro h; simp at h
    | hidden _ _ _ _ ih =>
      intro h
      obtain ⟨h1, i, hi, h2⟩ := ih h
      exact ⟨h1, i, List.mem_append_right _ hi, h2⟩
    | @written h group rest vars ws hk _ _ hd _ ih =>
      intro hm
      rcases List.mem_cons.mp hm with rfl | hm
      · obtain ⟨h1, i, hi, h2⟩ := hd.only x hx
        refine ⟨h1, i, List.mem_append_left _ hi, ?_, h2⟩
        rcases List.mem_cons.mp hi with rfl | hi
        · rfl
        · exact (hk i hi).1
      · obtain ⟨h1, i, hi, h2⟩ := ih hm
        exact ⟨h1, i, List.mem_append_right _ hi, h2⟩
  obtain ⟨h1, i, hi, h2, h3⟩ := key (write_groups vis mergeable items) hw
  obtain ⟨hi, hl⟩ := List.mem_filter.mp hi
  simp only [live, Bool.and_eq_true, Bool.not_eq_true'] at hl
  exact ⟨h1, i, hi, h2, hl.1.1.2, hl.1.2, h3⟩

/-- **C149 (partial).** Every variable of a directive, which is neither invalid nor skipped, is written by a directive of
the same kind if the variable is visible and different elements are different for the order.

The full statement is without `hd`: it is false, see `lost_fails` and `hidden_fails`. -/
theorem requested_written_partial {vis : Align → Bool} {mergeable : Nat → Nat → Bool} {items : List Item} {i : Item}
    (hi : i ∈ items) (hk : i.kind ≠ .other) (h1 : i.invalid = false) (h2 : i.skipped = false) {a : Align}
    (ha : a ∈ i.mem) (hv : vis a = true) (hd : ∀ j ∈ items, ∀ b ∈ j.mem, Same b a → b = a) :
    ∃ w ∈ write vis mergeable items, w.kind = i.kind ∧ a ∈ w.vars := by
  have key : ∀ {is ws}, Groups vis mergeable is ws → (∀ j ∈ is, ∀ b ∈ j.mem, Same b a → b = a) → i ∈ is →
      ∃ w ∈ ws, w.kind = i.kind ∧ a ∈ w.vars := by
    intro is ws hg
    induction hg with
    | nil => intro _ h; simp at h
    | @hidden h group rest ws hk _ hdesc _ ih =>
      intro hd' hm
      rcases List.mem_append.mp hm with hm | hm
      · obtain ⟨whole, hw, honly, hall⟩ := hdesc.all
        obtain ⟨x, hx, hs⟩ := hall i hm a ha
        obtain ⟨j, hj, hxj⟩ := honly x hx
        have := hd' j (List.mem_append_left _ hj) x hxj hs
        subst this
        have : x ∈ whole.filter vis := List.mem_filter.mpr ⟨hx, hv⟩
        rw [← hw] at this; simp at this
      · exact ih (fun j hj => hd' j (List.mem_append_right _ hj)) hm
    | @written h group rest vars ws hk _ _ hdesc _ ih =>
      intro hd' hm
      rcases List.mem_append.mp hm with hm | hm
      · obtain ⟨whole, hw, honly, hall⟩ := hdesc.all
        obtain ⟨x, hx, hs⟩ := hall i hm a ha
        obtain ⟨j, hj, hxj⟩ := honly x hx
        have := hd' j (List.mem_append_left _ hj) x hxj hs
        subst this
        refine ⟨_, List.mem_cons_self, ?_, ?_⟩
        · rcases List.mem_cons.mp hm with rfl | hm
          · rfl
          · exact (hk i hm).1.symm
        · rw [hw]; exact List.mem_filter.mpr ⟨hx, hv⟩
      · obtain ⟨w, hw, h⟩ := ih (fun j hj => hd' j (List.mem_append_right _ hj)) hm
        exact ⟨w, List.mem_cons_of_mem _ hw, h⟩
  refine key (write_groups vis mergeable items) (fun j hj => hd j (List.mem_filter.mp hj).1)
    (List.mem_filter.mpr ⟨hi, ?_⟩)
  simp only [live, Bool.and_eq_true, Bool.not_eq_true', bne_iff_ne, ne_eq, h1, h2, hk, not_false_eq_true, true_and]
  cases hm : i.mem with
  | nil => rw [hm] at ha; simp at ha
  | cons => rfl

/-- **C149 fails.** The element `A[1][3]` is not available on a device: a single remote access to `A[1][2]` is written
for two directives. -/
theorem lost_fails : ∃ items i a, i ∈ items ∧ i.kind = .remote ∧ i.invalid = false ∧ i.skipped = false ∧ a ∈ i.mem ∧
    ∀ w ∈ write (fun _ => true) (fun _ _ => true) items, a ∉ w.vars :=
  ⟨[{ kind := .remote, mem := [⟨0, 0, [.const 1, .const 2]⟩] }, { kind := .remote, mem := [⟨0, 0, [.const 1, .const 3]⟩] }],
    { kind := .remote, mem := [⟨0, 0, [.const 1, .const 3]⟩] }, ⟨0, 0, [.const 1, .const 3]⟩, by decide⟩

/-- **C149 fails.** There are two variables with the same name, the first one is not visible: nothing is written. -/
theorem hidden_fails : ∃ vis items i a, i ∈ items ∧ i.kind = .actual ∧ i.invalid = false ∧ i.skipped = false ∧
    a ∈ i.mem ∧ vis a = true ∧ Whole a ∧ write vis (fun _ _ => true) items = [] :=
  ⟨fun a => a.target == 1, [{ kind := .actual, mem := [⟨0, 0, []⟩] }, { kind := .actual, mem := [⟨1, 0, []⟩] }],
    { kind := .actual, mem := [⟨1, 0, []⟩] }, ⟨1, 0, []⟩, by decide, rfl, rfl, rfl, by decide, rfl, rfl, by decide⟩

/-! ### The order of directives -/

/-- Directives which are attached to a statement are between other directives and the statement, a remote access is after
other directives of the same sort. -/
def Outer (l r : Item) : Prop :=
  (r.bound = false → l.bound = false) ∧ (l.bound = r.bound → r.kind ≠ .remote → l.kind ≠ .remote)

/-- The same for directives after a statement. -/
def Inner (l r : Item) : Prop :=
  (r.bound = true → l.bound = true) ∧ (l.bound = r.bound → r.kind ≠ .remote → l.kind ≠ .remote)

theorem sorted_stable {less : Item → Item → Bool}
    (trans : ∀ a b c : Item, (!less b a) = true → (!less c b) = true → (!less c a) = true)
    (total : ∀ a b : Item, ((!less b a) || (!less a b)) = true) (same : ∀ a b : Item, a.kind = b.kind →
      a.bound = b.bound → less a b = false) (items : List Item) (k : Kind) (b : Bool) :
    (sorted less items).filter (fun i => i.kind == k && i.bound == b) =
      items.filter (fun i => i.kind == k && i.bound == b) := by
  have hp : (sorted less items).Perm items := List.mergeSort_perm _ _
  have hs : (items.filter (fun i => i.kind == k && i.bound == b)).Pairwise (fun x y => (!less y x) = true) := by
    rw [List.pairwise_iff_getElem]
    intro x y hx hy _
    have h1 := (List.mem_filter.mp (List.getElem_mem hx)).2
    have h2 := (List.mem_filter.mp (List.getElem_mem hy)).2
    simp only [Bool.and_eq_true, beq_iff_eq] at h1 h2
    rw [same _ _ (h2.1.trans h1.1.symm) (h2.2.trans h1.2.symm)]
    rfl
  have hsub := List.sublist_mergeSort trans total hs List.filter_sublist
  have := hsub.filter (fun i => i.kind == k && i.bound == b)
  rw [List.filter_filter] at this
  simp only [Bool.and_self] at this
  exact (this.eq_of_length (hp.filter _).length_eq.symm).symm

/-- **C149.** The order of directives before a statement; directives are neither lost nor duplicated and the relative
order of data directives of the same kind is not changed. -/
theorem sorted_before (items : List Item) :
    (sorted lessBefore items).Pairwise Outer ∧ (sorted lessBefore items).Perm items ∧
    ∀ k b, (sorted lessBefore items).filter (fun i => i.kind == k && i.bound == b) =
      items.filter (fun i => i.kind == k && i.bound == b) := by
  have trans : ∀ a b c : Item, (!lessBefore b a) = true → (!lessBefore c b) = true → (!lessBefore c a) = true := by
    intro a b c
    unfold lessBefore
    cases a.bound <;> cases b.bound <;> cases c.bound <;> cases a.kind <;> cases b.kind <;> cases c.kind <;> decide
  have total : ∀ a b : Item, ((!lessBefore b a) || (!lessBefore a b)) = true := by
    intro a b
    unfold lessBefore
    cases a.bound <;> cases b.bound <;> cases a.kind <;> cases b.kind <;> decide
  refine ⟨(List.pairwise_mergeSort trans total items).imp fun {a b} => ?_, List.mergeSort_perm _ _,
    sorted_stable trans total (fun a b h1 h2 => ?_) items⟩
  · unfold lessBefore Outer
    cases a.bound <;> cases b.bound <;> cases a.kind <;> cases b.kind <;> decide
  · unfold lessBefore
    rw [h1, h2]
    cases b.kind <;> simp

/-- **C149.** The same for directives after a statement. -/
theorem sorted_after (items : List Item) :
    (sorted lessAfter items).Pairwise Inner ∧ (sorted lessAfter items).Perm items ∧
    ∀ k b, (sorted lessAfter items).filter (fun i => i.kind == k && i.bound == b) =
      items.filter (fun i => i.kind == k && i.bound == b) := by
  have trans : ∀ a b c : Item, (!lessAfter b a) = true → (!lessAfter c b) = true → (!lessAfter c a) = true := by
    intro a b c
    unfold lessAfter
    cases a.bound <;> cases b.bound <;> cases c.bound <;> cases a.kind <;> cases b.kind <;> cases c.kind <;> decide
  have total : ∀ a b : Item, ((!lessAfter b a) || (!lessAfter a b)) = true := by
    intro a b
    unfold lessAfter
    cases a.bound <;> cases b.bound <;> cases a.kind <;> cases b.kind <;> decide
  refine ⟨(List.pairwise_mergeSort trans total items).imp fun {a b} => ?_, List.mergeSort_perm _ _,
    sorted_stable trans total (fun a b h1 h2 => ?_) items⟩
  · unfold lessAfter Inner
    cases a.bound <;> cases b.bound <;> cases a.kind <;> cases b.kind <;> decide
  · unfold lessAfter
    rw [h1, h2]
    cases b.kind <;> simp

/-! ### Examples -/

/-- Two directives `actual` are merged, variables are sorted, a skipped directive is ignored and a hidden variable is
removed. -/
def exItems : List Item :=
  [{ kind := .actual, mem := [⟨3, 3, []⟩, ⟨1, 1, []⟩] }, { kind := .other },
   { kind := .actual, mem := [⟨2, 2, []⟩, ⟨1, 1, []⟩, ⟨4, 4, []⟩] }, { kind := .getActual, skipped := true, mem := [⟨5, 5, []⟩] },
   { kind := .getActual, mem := [⟨4, 4, []⟩] }, { kind := .remote, mem := [⟨1, 1, [.const 1]⟩, ⟨1, 1, [.const 2]⟩] }]

example : (write (fun a => a.target != 4) (fun a b => a == b) exItems).map (fun w => (w.kind, w.vars.map (·.target))) =
    [(.actual, [1, 2, 3]), (.remote, [1, 1])] := by decide

example : ∃ w ∈ write (fun a => a.target != 4) (fun a b => a == b) exItems, w.kind = .actual ∧ ⟨2, 2, []⟩ ∈ w.vars :=
  requested_written_partial (i := { kind := .actual, mem := [⟨2, 2, []⟩, ⟨1, 1, []⟩, ⟨4, 4, []⟩] }) (by decide) (by decide)
    rfl rfl (by decide) rfl (by simp only [Same]; decide)

example : ¬ Same ⟨1, 1, [.const 1]⟩ ⟨1, 1, [.const 2]⟩ := fun h => by
  have := distinct_partial h (fun _ => rfl) (.inr ⟨1, 2, rfl, rfl⟩)
  simp at this

example : (sorted lessBefore [{ kind := .other, bound := true }, { kind := .remote }, { kind := .actual }]).map (·.kind) =
    [.actual, .remote, .other] := by
  simp [sorted, List.mergeSort, List.MergeSort.Internal.splitInTwo, List.merge, lessBefore]

end Tsar.DvmhMerge
