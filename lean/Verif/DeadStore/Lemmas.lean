import Verif.DeadStore.Model

/-!
# Lemmas on elimination of dead stores
-/
namespace Tsar.DeadStore

/-! ### The search for stores -/

/-- The alias sets an instruction touches, whether it is a plain store to a local variable without
metadata. -/
def Touch.sets : Touch → List Nat
  | .known _ a _ _ => [a]
  | .unknown _ as => as

/-- The instruction. -/
def Touch.instr : Touch → Instr
  | .known i _ _ _ => i
  | .unknown i _ => i

/-- A store to an `alloca` without metadata. -/
def Touch.plain : Touch → Prop
  | .known i _ alloca md => alloca = true ∧ md = false ∧ i.store = true
  | .unknown _ _ => False

theorem visit_none {c : Cand} {t : Touch} {a : Nat} (h : c a = none) : visit c t a = none := by
  cases t with
  | known i b alloca md =>
    cases hl : c b with
    | none => simp only [visit, hl]; exact h
    | some l =>
      have hab : a ≠ b := by rintro rfl; rw [h] at hl; cases hl
      simp only [visit, hl]
      split <;> simp [hab, h]
  | unknown i as =>
    simp only [visit]
    split <;> simp [h]

theorem fold_none {ts : List Touch} {c : Cand} {a : Nat} (h : c a = none) :
    ts.foldl visit c a = none := by
  induction ts generalizing c with
  | nil => exact h
  | cons t ts ih => exact ih (visit_none h)

theorem visit_some {c : Cand} {t : Touch} {a : Nat} {l : List Instr} (h : visit c t a = some l) :
    ∃ l0, c a = some l0 ∧ ((a ∉ t.sets ∧ l = l0) ∨
      (a ∈ t.sets ∧ t.plain ∧ l = l0 ++ [t.instr])) := by
  cases hc : c a with
  | none =>
    rw [visit_none hc] at h
    cases h
  | some l0 =>
    refine ⟨l0, rfl, ?_⟩
    cases t with
    | known i b alloca md =>
      cases hl' : c b with
      | none =>
        simp only [visit, hl'] at h
        left
        have : a ≠ b := by rintro rfl; rw [hc] at hl'; cases hl'
        refine ⟨by simpa [Touch.sets] using this, ?_⟩
        rw [hc] at h
        exact (Option.some.inj h).symm
      | some l' =>
        simp only [visit, hl'] at h
        split at h
        · replace h : (if a = b then none else c a) = some l := h
          split at h
          · cases h
          · next hab =>
            rw [hc] at h
            exact Or.inl ⟨by simpa [Touch.sets] using hab, (Option.some.inj h).symm⟩
        · next hcond =>
          replace h : (if a = b then some (l' ++ [i]) else c a) = some l := h
          split at h
          · next hab =>
            subst hab
            rw [hc] at hl'
            injection hl' with hl'
            subst hl'
            right
            refine ⟨by simp [Touch.sets], ?_, by simpa [Touch.instr] using h.symm⟩
            simpa [Touch.plain, and_assoc] using hcond
          · next hab =>
            rw [hc] at h
            exact Or.inl ⟨by simpa [Touch.sets] using hab, (Option.some.inj h).symm⟩
    | unknown i as =>
      simp only [visit] at h
      split at h
      · cases h
      · next hab =>
        rw [hc] at h
        exact Or.inl ⟨by simpa [Touch.sets] using hab, (Option.some.inj h).symm⟩

theorem fold_some {ts : List Touch} {c : Cand} {a : Nat} {l : List Instr}
    (h : ts.foldl visit c a = some l) :
    ∃ l0, c a = some l0 ∧ (∀ t ∈ ts, a ∈ t.sets → t.plain ∧ t.instr ∈ l) ∧ (∀ i ∈ l0, i ∈ l) ∧
      (∀ i ∈ l, i ∈ l0 ∨ ∃ t ∈ ts, t.instr = i ∧ t.plain ∧ a ∈ t.sets) := by
  induction ts generalizing c with
  | nil => exact ⟨l, h, by simp, fun _ h => h, fun _ h => Or.inl h⟩
  | cons t ts ih =>
    obtain ⟨l1, h1, h2, h3, h4⟩ := ih h
    obtain ⟨l0, h5, h6⟩ := visit_some h1
    refine ⟨l0, h5, ?_, ?_, ?_⟩
    · intro t' ht' ha
      rcases List.mem_cons.1 ht' with rfl | ht'
      · rcases h6 with ⟨h6, _⟩ | ⟨_, h7, h8⟩
        · exact absurd ha h6
        · exact ⟨h7, h3 _ (by rw [h8]; simp)⟩
      · exact h2 t' ht' ha
    · intro i hi
      apply h3
      rcases h6 with ⟨_, h6⟩ | ⟨_, _, h6⟩ <;> rw [h6] <;> simp [hi]
    · intro i hi
      rcases h4 i hi with hi | ⟨t', h7, h8, h9, h10⟩
      · rcases h6 with ⟨_, h6⟩ | ⟨h7, h8, h6⟩
        · rw [h6] at hi
          exact Or.inl hi
        · rw [h6] at hi
          rcases List.mem_append.1 hi with hi | hi
          · exact Or.inl hi
          · simp only [List.mem_singleton] at hi
            exact Or.inr ⟨t, by simp, hi.symm, h8, h7⟩
      · exact Or.inr ⟨t', by simp [h7], h8, h9, h10⟩

theorem candidates_some {mods : List Nat} {ts : List Touch} {a : Nat} {l : List Instr}
    (h : candidates mods ts a = some l) :
    a ∈ mods ∧ (∀ t ∈ ts, a ∈ t.sets → t.plain ∧ t.instr ∈ l) ∧
      (∀ i ∈ l, ∃ t ∈ ts, t.instr = i ∧ t.plain ∧ a ∈ t.sets) := by
  obtain ⟨l0, h1, h2, _, h4⟩ := fold_some h
  split at h1
  · next hm =>
    injection h1 with h1
    subst h1
    exact ⟨hm, h2, fun i hi => by simpa using h4 i hi⟩
  · cases h1

/-! ### Elimination -/

/-- Instructions of a list with an identifier. -/
theorem lookup_some {is : List Instr} {x : Nat} {i : Instr} (h : lookup is x = some i) :
    i ∈ is ∧ i.id = x := by
  unfold lookup at h
  exact ⟨List.mem_of_find?_eq_some h, by simpa using List.find?_some h⟩

theorem lookup_of {is : List Instr} {i : Instr} (h : i ∈ is) : ∃ j, lookup is i.id = some j := by
  unfold lookup
  cases hc : is.find? (fun j => j.id = i.id) with
  | none =>
    have := List.find?_eq_none.1 hc i h
    simp at this
  | some j => exact ⟨j, rfl⟩

theorem id_inj {is : List Instr} (h : (is.map (·.id)).Nodup) {i j : Instr} (hi : i ∈ is) (hj : j ∈ is)
    (he : i.id = j.id) : i = j := List.inj_on_of_nodup_map h hi hj he

theorem used_iff {is : List Instr} {x : Nat} : used is x = true ↔ ∃ i ∈ is, x ∈ i.ops := by
  simp [used]

theorem mem_erase {is : List Instr} {x : Nat} {i : Instr} : i ∈ erase is x ↔ i ∈ is ∧ i.id ≠ x := by
  simp [erase]

/-- An operand which does not access memory. -/
def Free (orig : List Instr) (i : Instr) : Prop := i.mem = false ∧ ∃ k ∈ orig, i.id ∈ k.ops

/-- What is true all the time. `D` are the stores which are eliminated, `T` are the
instructions before it. -/
structure Ok (orig : List Instr) (T D : Instr → Prop) (st : ESt) : Prop where
  sub : st.alive.Sublist orig
  within : ∀ i ∈ st.alive, T i
  closed : ∀ i ∈ st.alive, ∀ o ∈ i.ops, ∃ j ∈ st.alive, j.id = o
  nodup : st.work.Nodup
  vis : ∀ x, x ∈ st.visited ↔ x ∈ st.work
  wk : ∀ x ∈ st.work, ∃ i ∈ st.alive, i.id = x ∧ Free orig i
  hasnd : st.has.Nodup
  hs : ∀ x ∈ st.has, ∃ i ∈ st.alive, i.id = x ∧ Free orig i
  erased : ∀ i ∈ orig, i ∉ st.alive → D i ∨ Free orig i
  fix : ∀ j ∈ st.alive, j.mem = false → (∃ i ∈ orig, i ∉ st.alive ∧ j.id ∈ i.ops) →
    j.id ∈ st.work ∨ j.id ∈ st.has ∨ used st.alive j.id = true
  quiet : st.changed = false → ∀ x ∈ st.has, x ∈ st.work ∨ used st.alive x = true

theorem pushOps_spec (os : List Nat) (st : ESt) (hn : st.work.Nodup)
    (hv : ∀ x, x ∈ st.visited ↔ x ∈ st.work)
    (hc : ∀ o ∈ os, ∃ j ∈ st.alive, j.id = o) (hid : (st.alive.map (·.id)).Nodup) :
    ∃ st', pushOps st os = some st' ∧ st'.alive = st.alive ∧ st'.has = st.has ∧
      st'.changed = st.changed ∧ st'.work.Nodup ∧ (∀ x, x ∈ st'.visited ↔ x ∈ st'.work) ∧
      (∀ x, x ∈ st'.work ↔ x ∈ st.work ∨ (x ∈ os ∧ ∃ j ∈ st.alive, j.id = x ∧ j.mem = false)) := by
  induction os generalizing st with
  | nil => exact ⟨st, rfl, rfl, rfl, rfl, hn, hv, by simp⟩
  | cons o os ih =>
    obtain ⟨j, hj, hjo⟩ := hc o (by simp)
    obtain ⟨i, hi⟩ := lookup_of hj
    rw [hjo] at hi
    obtain ⟨hi1, hi2⟩ := lookup_some hi
    simp only [pushOps, hi]
    by_cases hcond : (!i.mem && decide (o ∉ st.visited)) = true
    · rw [if_pos hcond]
      simp only [Bool.and_eq_true, Bool.not_eq_eq_eq_not, Bool.not_true, decide_eq_true_eq] at hcond
      obtain ⟨st', h1, h2, h3, h4, h5, h6, h7⟩ := ih
        { st with work := st.work ++ [o], visited := o :: st.visited }
        (by
          simp only
          rw [List.nodup_append]
          refine ⟨hn, by simp, ?_⟩
          intro a ha b hb
          simp only [List.mem_singleton] at hb
          subst hb
          rintro rfl
          exact hcond.2 ((hv a).2 ha))
        (by intro x; simp [hv x, or_comm])
        (fun o ho => hc o (by simp [ho])) hid
      refine ⟨st', h1, h2, h3, h4, h5, h6, ?_⟩
      intro x
      rw [h7 x]
      simp only [List.mem_append, List.mem_cons, List.not_mem_nil, or_false]
      constructor
      · rintro ((h | rfl) | ⟨h, h'⟩)
        · exact Or.inl h
        · exact Or.inr ⟨Or.inl rfl, i, hi1, hi2, hcond.1⟩
        · exact Or.inr ⟨Or.inr h, h'⟩
      · rintro (h | ⟨rfl | h, h'⟩)
        · exact Or.inl (Or.inl h)
        · exact Or.inl (Or.inr rfl)
        · exact Or.inr ⟨h, h'⟩
    · rw [if_neg hcond]
      obtain ⟨st', h1, h2, h3, h4, h5, h6, h7⟩ := ih st hn hv (fun o ho => hc o (by simp [ho])) hid
      refine ⟨st', h1, h2, h3, h4, h5, h6, ?_⟩
      intro x
      rw [h7 x]
      constructor
      · rintro (h | ⟨h, h'⟩)
        · exact Or.inl h
        · exact Or.inr ⟨by simp [h], h'⟩
      · rintro (h | ⟨h, h'⟩)
        · exact Or.inl h
        · rcases List.mem_cons.1 h with rfl | h
          · obtain ⟨j', hj1, hj2, hj3⟩ := h'
            have := id_inj hid hj1 hi1 (hj2.trans hi2.symm)
            subst this
            simp only [hj3, Bool.not_false, Bool.true_and, decide_eq_true_eq, not_not] at hcond
            exact Or.inl ((hv x).1 hcond)
          · exact Or.inr ⟨h, h'⟩

theorem Ok.ids {orig : List Instr} {T D : Instr → Prop} {st : ESt} (h : Ok orig T D st)
    (hn : (orig.map (·.id)).Nodup) : (st.alive.map (·.id)).Nodup :=
  hn.sublist (h.sub.map _)

theorem getLast?_split {α : Type} {l : List α} {x : α} (h : l.getLast? = some x) :
    l = l.dropLast ++ [x] := by
  obtain ⟨ys, rfl⟩ := List.getLast?_eq_some_iff.1 h
  simp

/-- The measure which decreases. -/
def size (N : Nat) (st : ESt) : Nat := st.alive.length * (N + 1) + st.work.length

theorem work_le {orig : List Instr} {T D : Instr → Prop} {st : ESt} (h : Ok orig T D st) :
    st.work.length ≤ orig.length := by
  have h1 : st.work ⊆ st.alive.map (·.id) := by
    intro x hx
    obtain ⟨i, h1, h2, _⟩ := h.wk x hx
    exact List.mem_map.2 ⟨i, h1, h2⟩
  have h2 := (List.subperm_of_subset h.nodup h1).length_le
  have h3 := h.sub.length_le
  simp only [List.length_map] at h2
  omega

theorem erase_lt {is : List Instr} {i : Instr} (h : i ∈ is) : (erase is i.id).length < is.length := by
  unfold erase
  apply List.length_filter_lt_length_iff_exists.2
  exact ⟨i, h, by simp⟩

theorem Ok.pop {orig : List Instr} {T D : Instr → Prop} {st : ESt} (h : Ok orig T D st)
    (hn : (orig.map (·.id)).Nodup) {x : Nat} (hx : st.work.getLast? = some x) :
    ∃ st', popOne st x = some st' ∧ Ok orig T D st' ∧ size orig.length st' < size orig.length st ∧
      ((st'.changed = st.changed ∧ st'.alive = st.alive) ∨
        (st'.changed = true ∧ st'.alive.length < st.alive.length)) := by
  have hsplit := getLast?_split hx
  have hnd := h.nodup
  rw [hsplit, List.nodup_append] at hnd
  have hxw : ∀ y, y ∈ st.work ↔ y ∈ st.work.dropLast ∨ y = x := by
    intro y
    conv_lhs => rw [hsplit]
    simp
  have hxd : x ∉ st.work.dropLast := fun hm => hnd.2.2 x hm x (by simp) rfl
  obtain ⟨i0, hi0, hi0x, hi0m⟩ := h.wk x ((hxw x).2 (Or.inr rfl))
  obtain ⟨i, hi⟩ := lookup_of hi0
  rw [hi0x] at hi
  obtain ⟨hi1, hi2⟩ := lookup_some hi
  have hii : i = i0 := id_inj (h.ids hn) hi1 hi0 (hi2.trans hi0x.symm)
  subst hii
  have hvis : ∀ y, y ∈ st.visited.filter (· ≠ x) ↔ y ∈ st.work.dropLast := by
    intro y
    simp only [List.mem_filter, decide_eq_true_eq, h.vis y, hxw y]
    constructor
    · rintro ⟨h1 | h1, h2⟩
      · exact h1
      · exact absurd h1 h2
    · intro h1
      exact ⟨Or.inl h1, by rintro rfl; exact hxd h1⟩
  have hlen : st.work.length = st.work.dropLast.length + 1 := by
    conv_lhs => rw [hsplit]
    simp
  simp only [popOne, hi]
  by_cases hu : used st.alive x = true
  · rw [if_pos hu]
    refine ⟨_, rfl, ?_, ?_, Or.inl ⟨rfl, rfl⟩⟩
    · have hhas : ∀ y, y ∈ (if x ∈ st.has then st.has else x :: st.has) ↔ y ∈ st.has ∨ y = x := by
        intro y
        split
        · next hm =>
          constructor
          · exact Or.inl
          · rintro (h1 | rfl)
            · exact h1
            · exact hm
        · simp [or_comm]
      refine ⟨h.sub, h.within, h.closed, hnd.1, hvis, ?_, ?_, ?_, h.erased, ?_, ?_⟩
      · intro y hy
        exact h.wk y ((hxw y).2 (Or.inl hy))
      · simp only
        split
        · exact h.hasnd
        · next hm => exact List.nodup_cons.2 ⟨hm, h.hasnd⟩
      · intro y hy
        rcases (hhas y).1 hy with hy | rfl
        · exact h.hs y hy
        · exact ⟨i, hi1, hi2, hi0m⟩
      · intro j hj hjm hje
        rcases h.fix j hj hjm hje with h1 | h1 | h1
        · rcases (hxw _).1 h1 with h1 | h1
          · exact Or.inl h1
          · exact Or.inr (Or.inl ((hhas _).2 (Or.inr h1)))
        · exact Or.inr (Or.inl ((hhas _).2 (Or.inl h1)))
        · exact Or.inr (Or.inr h1)
      · intro hq y hy
        rcases (hhas y).1 hy with hy | rfl
        · rcases h.quiet hq y hy with h1 | h1
          · rcases (hxw _).1 h1 with h1 | h1
            · exact Or.inl h1
            · subst h1
              exact Or.inr hu
          · exact Or.inr h1
        · exact Or.inr hu
    · simp only [size]
      omega
  · rw [if_neg hu]
    have hunused : ∀ k ∈ st.alive, x ∉ k.ops := by
      intro k hk hxk
      exact hu (used_iff.2 ⟨k, hk, hxk⟩)
    obtain ⟨st', h1, h2, h3, h4, h5, h6, h7⟩ := pushOps_spec i.ops
      { st with work := st.work.dropLast, visited := st.visited.filter (· ≠ x) } hnd.1 hvis
      (h.closed i hi1) (h.ids hn)
    simp only at h1 h2 h3 h4 h7
    rw [h1]
    have hx7 : x ∉ st'.work := by
      intro hm
      rcases (h7 x).1 hm with hm | ⟨hm, _⟩
      · exact hxd hm
      · exact hunused i hi1 hm
    have hwk : ∀ y ∈ st'.work, ∃ j ∈ erase st.alive x, j.id = y ∧ Free orig j := by
      intro y hy
      have hyx : y ≠ x := by rintro rfl; exact hx7 hy
      rcases (h7 y).1 hy with hy | ⟨hy', j, hj1, hj2, hj3⟩
      · obtain ⟨j, hj1, hj2, hj3⟩ := h.wk y ((hxw y).2 (Or.inl hy))
        exact ⟨j, mem_erase.2 ⟨hj1, by rw [hj2]; exact hyx⟩, hj2, hj3⟩
      · exact ⟨j, mem_erase.2 ⟨hj1, by rw [hj2]; exact hyx⟩, hj2, hj3, i, h.sub.subset hi1,
          by rw [hj2]; exact hy'⟩
    have hok : Ok orig T D { st' with
        has := st'.has.filter (· ≠ x),
        alive := erase st'.alive x,
        changed := true } := by
      rw [h2, h3]
      refine ⟨(List.filter_sublist).trans h.sub, fun i hi => h.within i (mem_erase.1 hi).1, ?_, h5, h6, hwk, h.hasnd.filter _, ?_, ?_, ?_, ?_⟩
      · intro k hk o ho
        obtain ⟨hk1, hk2⟩ := mem_erase.1 hk
        obtain ⟨j, hj1, hj2⟩ := h.closed k hk1 o ho
        refine ⟨j, mem_erase.2 ⟨hj1, ?_⟩, hj2⟩
        rw [hj2]
        rintro rfl
        exact hunused k hk1 ho
      · intro y hy
        simp only [List.mem_filter, decide_eq_true_eq] at hy
        obtain ⟨j, hj1, hj2, hj3⟩ := h.hs y hy.1
        exact ⟨j, mem_erase.2 ⟨hj1, by rw [hj2]; exact hy.2⟩, hj2, hj3⟩
      · intro k hk hka
        by_cases hk2 : k ∈ st.alive
        · have : k.id = x := by
            by_contra hne
            exact hka (mem_erase.2 ⟨hk2, hne⟩)
          have : k = i := id_inj (h.ids hn) hk2 hi1 (this.trans hi2.symm)
          subst this
          exact Or.inr hi0m
        · exact h.erased k hk hk2
      · rintro j hj hjm ⟨k, hk1, hk2, hk3⟩
        obtain ⟨hj1, hj2⟩ := mem_erase.1 hj
        by_cases hku : j.id ∈ i.ops
        · exact Or.inl ((h7 _).2 (Or.inr ⟨hku, j, hj1, rfl, hjm⟩))
        · have hk4 : k ∉ st.alive := by
            intro hk4
            have : k.id = x := by
              by_contra hne
              exact hk2 (mem_erase.2 ⟨hk4, hne⟩)
            have : k = i := id_inj (h.ids hn) hk4 hi1 (this.trans hi2.symm)
            subst this
            exact hku hk3
          rcases h.fix j hj1 hjm ⟨k, hk1, hk4, hk3⟩ with h8 | h8 | h8
          · rcases (hxw _).1 h8 with h8 | h8
            · exact Or.inl ((h7 _).2 (Or.inl h8))
            · exact absurd h8 hj2
          · exact Or.inr (Or.inl (by simp [h8, hj2]))
          · refine Or.inr (Or.inr ?_)
            obtain ⟨u, hu1, hu2⟩ := used_iff.1 h8
            refine used_iff.2 ⟨u, mem_erase.2 ⟨hu1, ?_⟩, hu2⟩
            intro hux
            have : u = i := id_inj (h.ids hn) hu1 hi1 (hux.trans hi2.symm)
            subst this
            exact hku hu2
      · intro hq
        simp at hq
    refine ⟨_, rfl, hok, ?_, Or.inr ⟨rfl, ?_⟩⟩
    · have h8 := work_le hok
      have h9 : (erase st'.alive x).length < st.alive.length := by
        rw [h2, ← hi2]
        exact erase_lt hi1
      simp only [size] at h8 ⊢
      have : ((erase st'.alive x).length + 1) * (orig.length + 1) ≤
          st.alive.length * (orig.length + 1) := Nat.mul_le_mul_right _ h9
      rw [Nat.add_mul] at this
      omega
    · simp only
      rw [h2, ← hi2]
      exact erase_lt hi1

theorem Ok.drain {orig : List Instr} {T D : Instr → Prop} (hn : (orig.map (·.id)).Nodup) (fuel : Nat)
    {st : ESt} (h : Ok orig T D st) (hf : size orig.length st < fuel) :
    ∃ st', drain fuel st = some (some st') ∧ Ok orig T D st' ∧ st'.work = [] ∧
      ((st'.changed = st.changed ∧ st'.alive = st.alive) ∨
        (st'.changed = true ∧ st'.alive.length < st.alive.length)) := by
  induction fuel generalizing st with
  | zero => omega
  | succ fuel ih =>
    simp only [DeadStore.drain]
    cases hl : st.work.getLast? with
    | none => exact ⟨st, rfl, h, List.getLast?_eq_none_iff.1 hl, Or.inl ⟨rfl, rfl⟩⟩
    | some x =>
      obtain ⟨st1, h1, h2, h3, h4⟩ := h.pop hn hl
      simp only [h1]
      obtain ⟨st2, h5, h6, h7, h8⟩ := ih h2 (by omega)
      refine ⟨st2, h5, h6, h7, ?_⟩
      rcases h4 with ⟨h4, h4'⟩ | ⟨h4, h4'⟩ <;> rcases h8 with ⟨h8, h8'⟩ | ⟨h8, h8'⟩
      · exact Or.inl ⟨h8.trans h4, h8'.trans h4'⟩
      · exact Or.inr ⟨h8, by rw [← h4']; exact h8'⟩
      · exact Or.inr ⟨h8.trans h4, by rw [h8']; exact h4'⟩
      · exact Or.inr ⟨h8, by omega⟩

theorem Ok.quieten {orig : List Instr} {T D : Instr → Prop} {st : ESt} (h : Ok orig T D st)
    (hq : ∀ x ∈ st.has, x ∈ st.work ∨ used st.alive x = true) :
    Ok orig T D { st with changed := false } :=
  ⟨h.sub, h.within, h.closed, h.nodup, h.vis, h.wk, h.hasnd, h.hs, h.erased, h.fix, fun _ => hq⟩

theorem Ok.rounds {orig : List Instr} {T D : Instr → Prop} (hn : (orig.map (·.id)).Nodup)
    {order : List Nat → List Nat} (ho : ∀ l, (order l).Perm l) (fuel : Nat) {st : ESt}
    (h : Ok orig T D st) (hq : ∀ x ∈ st.has, x ∈ st.work ∨ used st.alive x = true)
    (hf : (orig.length + 1) * (orig.length + 1) + st.alive.length < fuel) :
    ∃ st', rounds order fuel st = some (some st') ∧ Ok orig T D st' ∧ st'.work = [] ∧
      (∀ x ∈ st'.has, used st'.alive x = true) := by
  induction fuel generalizing st with
  | zero => omega
  | succ fuel ih =>
    simp only [DeadStore.rounds]
    have h0 := h.quieten hq
    have hsz : size orig.length { st with changed := false } < fuel + 1 := by
      have h1 := work_le h0
      have h2 := h0.sub.length_le
      simp only [size] at h1 h2 ⊢
      have : st.alive.length * (orig.length + 1) ≤ orig.length * (orig.length + 1) :=
        Nat.mul_le_mul_right _ h2
      have h3 : (orig.length + 1) * (orig.length + 1) =
        orig.length * (orig.length + 1) + (orig.length + 1) := by rw [Nat.add_mul]; omega
      omega
    obtain ⟨st1, h1, h2, h3, h4⟩ := h0.drain hn (fuel + 1) hsz
    rw [h1]
    simp only
    rcases h4 with ⟨h4, h5⟩ | ⟨h4, h5⟩
    · simp only at h4
      rw [h4]
      simp only [Bool.false_eq_true, if_false]
      refine ⟨st1, rfl, h2, h3, ?_⟩
      intro x hx
      rcases h2.quiet h4 x hx with h6 | h6
      · rw [h3] at h6
        cases h6
      · exact h6
    · rw [h4]
      simp only [if_true]
      have hmem : ∀ x, x ∈ st1.work ++ order st1.has ↔ x ∈ st1.has := by
        intro x
        rw [h3, List.nil_append]
        exact (ho st1.has).mem_iff
      refine ih ⟨h2.sub, h2.within, h2.closed, ?_, ?_, ?_, h2.hasnd, h2.hs, h2.erased, ?_, ?_⟩ ?_ ?_
      · simp only
        rw [h3, List.nil_append]
        exact (ho st1.has).nodup_iff.2 h2.hasnd
      · intro x
        exact (hmem x).symm
      · intro x hx
        exact h2.hs x ((hmem x).1 hx)
      · intro j hj hjm hje
        rcases h2.fix j hj hjm hje with h6 | h6 | h6
        · rw [h3] at h6
          cases h6
        · exact Or.inr (Or.inl h6)
        · exact Or.inr (Or.inr h6)
      · intro hc
        first | cases hc | (simp only [h4] at hc; cases hc)
      · intro x hx
        exact Or.inl ((hmem x).2 hx)
      · simp only at h5 ⊢
        omega

/-- What is true between eliminations of stores. -/
structure Rest (orig : List Instr) (D : Instr → Prop) (alive : List Instr) : Prop where
  sub : alive.Sublist orig
  closed : ∀ i ∈ alive, ∀ o ∈ i.ops, ∃ j ∈ alive, j.id = o
  erased : ∀ i ∈ orig, i ∉ alive → D i ∨ Free orig i
  fix : ∀ j ∈ alive, j.mem = false → (∃ i ∈ orig, i ∉ alive ∧ j.id ∈ i.ops) →
    used alive j.id = true

/-- A sufficient number of iterations. -/
def enough (N : Nat) : Nat := (N + 1) * (N + 1) + N + 1

theorem Rest.eliminate {orig : List Instr} {D : Instr → Prop} (hw : WellFormed orig)
    {order : List Nat → List Nat} (ho : ∀ l, (order l).Perm l) {alive : List Instr}
    (h : Rest orig D alive) {si : Instr} (hsi : si ∈ alive) (hst : si.store = true) (hD : D si)
    {fuel : Nat} (hf : enough orig.length ≤ fuel) :
    ∃ alive', eliminate order fuel alive si = some (some alive') ∧ Rest orig D alive' ∧
      si ∉ alive' ∧ (∀ i ∈ alive', i ∈ alive) ∧ (∀ i ∈ alive, i.mem = true → i ≠ si → i ∈ alive') := by
  have hids : (alive.map (·.id)).Nodup := hw.nodup.sublist (h.sub.map _)
  have hsio : si ∈ orig := h.sub.subset hsi
  have hsim := (hw.store si hsio hst).1
  have hunused : ∀ k ∈ alive, si.id ∉ k.ops := by
    intro k hk ho
    obtain ⟨j, hj1, hj2, hj3⟩ := hw.closed k (h.sub.subset hk) _ ho
    have := id_inj hw.nodup hj1 hsio hj2
    subst this
    rw [hst] at hj3
    cases hj3
  have hne : ∀ k ∈ alive, k.id = si.id → k = si := fun k hk he => id_inj hids hk hsi he
  obtain ⟨i0, hl⟩ := lookup_of hsi
  obtain ⟨st, h1, h2, h3, h4, h5, h6, h7⟩ := pushOps_spec si.ops ⟨alive, [], [], [], false⟩
    (by simp) (by simp) (h.closed si hsi) hids
  simp only at h2 h3 h4 h7
  have hok : Ok orig (fun i => i ∈ alive ∧ i ≠ si) (fun i => i ∉ alive ∨ i = si)
      { st with alive := erase st.alive si.id } := by
    rw [h2, h3]
    refine ⟨List.filter_sublist.trans h.sub, ?_, ?_, h5, h6, ?_, by simp, by simp, ?_, ?_, by simp⟩
    · intro k hk
      obtain ⟨hk1, hk2⟩ := mem_erase.1 hk
      exact ⟨hk1, fun he => hk2 (by rw [he])⟩
    · intro k hk o hok
      obtain ⟨hk1, hk2⟩ := mem_erase.1 hk
      obtain ⟨j, hj1, hj2⟩ := h.closed k hk1 o hok
      refine ⟨j, mem_erase.2 ⟨hj1, ?_⟩, hj2⟩
      rw [hj2]
      rintro rfl
      exact hunused k hk1 hok
    · intro x hx
      rcases (h7 x).1 hx with hx | ⟨hx', j, hj1, hj2, hj3⟩
      · simp at hx
      · refine ⟨j, mem_erase.2 ⟨hj1, ?_⟩, hj2, hj3, si, hsio, by rw [hj2]; exact hx'⟩
        intro he
        rw [hne j hj1 he, hsim] at hj3
        cases hj3
    · intro i _ hia
      by_cases hi : i ∈ alive
      · refine Or.inl (Or.inr (hne i hi ?_))
        by_contra hc
        exact hia (mem_erase.2 ⟨hi, hc⟩)
      · exact Or.inl (Or.inl hi)
    · rintro j hj hjm ⟨k, hk1, hk2, hk3⟩
      obtain ⟨hj1, hj2⟩ := mem_erase.1 hj
      by_cases hjs : j.id ∈ si.ops
      · exact Or.inl ((h7 _).2 (Or.inr ⟨hjs, j, hj1, rfl, hjm⟩))
      · have hk4 : k ∉ alive := by
          intro hk4
          have : k.id = si.id := by
            by_contra hc
            exact hk2 (mem_erase.2 ⟨hk4, hc⟩)
          rw [hne k hk4 this] at hk3
          exact hjs hk3
        obtain ⟨u, hu1, hu2⟩ := used_iff.1 (h.fix j hj1 hjm ⟨k, hk1, hk4, hk3⟩)
        refine Or.inr (Or.inr (used_iff.2 ⟨u, mem_erase.2 ⟨hu1, ?_⟩, hu2⟩))
        intro he
        rw [hne u hu1 he] at hu2
        exact hjs hu2
  obtain ⟨st', h8, h9, h10, h11⟩ := hok.rounds hw.nodup ho fuel (by simp [h3]) (by
    have h12 := hok.sub.length_le
    simp only [enough] at hf h12 ⊢
    omega)
  have hsi' : si ∉ st'.alive := fun hm => (h9.within si hm).2 rfl
  refine ⟨st'.alive, ?_, ⟨h9.sub, h9.closed, ?_, ?_⟩, hsi', ?_, ?_⟩
  · simp only [DeadStore.eliminate, hl, h1, h8]
  · intro i hi hia
    rcases h9.erased i hi hia with (h12 | rfl) | h12
    · exact h.erased i hi h12
    · exact Or.inl hD
    · exact Or.inr h12
  · intro j hj hjm hje
    rcases h9.fix j hj hjm hje with h12 | h12 | h12
    · rw [h10] at h12
      cases h12
    · exact h11 _ h12
    · exact h12
  · exact fun i hi => (h9.within i hi).1
  · intro i hi him hisi
    by_contra hc
    rcases h9.erased i (h.sub.subset hi) hc with (h12 | h12) | h12
    · exact h12 hi
    · exact hisi h12
    · have := h12.1
      rw [him] at this
      cases this

theorem Rest.eliminateAll {orig : List Instr} {D : Instr → Prop} (hw : WellFormed orig)
    {order : List Nat → List Nat} (ho : ∀ l, (order l).Perm l) {fuel : Nat}
    (hf : enough orig.length ≤ fuel) (ds : List Instr) {alive : List Instr}
    (h : Rest orig D alive) (hds : ds.Nodup) (hin : ∀ i ∈ ds, i ∈ alive ∧ i.store = true ∧ D i) :
    ∃ alive', eliminateAll order fuel alive ds = some (some alive') ∧ Rest orig D alive' ∧
      (∀ i ∈ ds, i ∉ alive') ∧ (∀ i ∈ alive', i ∈ alive) ∧
      (∀ i ∈ alive, i.mem = true → i ∉ ds → i ∈ alive') := by
  induction ds generalizing alive with
  | nil => exact ⟨alive, rfl, h, by simp, fun _ h => h, fun _ h _ _ => h⟩
  | cons d ds ih =>
    obtain ⟨h1, h2, h3⟩ := hin d (by simp)
    obtain ⟨a1, h4, h5, h6, h7, h8⟩ := h.eliminate hw ho h1 h2 h3 hf
    rw [List.nodup_cons] at hds
    obtain ⟨a2, h9, h10, h11, h12, h13⟩ := ih h5 hds.2 (by
      intro i hi
      obtain ⟨h1', h2', h3'⟩ := hin i (by simp [hi])
      refine ⟨h8 i h1' (hw.store i (h.sub.subset h1') h2').1 ?_, h2', h3'⟩
      rintro rfl
      exact hds.1 hi)
    refine ⟨a2, ?_, h10, ?_, fun i hi => h7 i (h12 i hi), ?_⟩
    · simp only [DeadStore.eliminateAll, h4, h9]
    · intro i hi
      rcases List.mem_cons.1 hi with rfl | hi
      · exact fun hm => h6 (h12 _ hm)
      · exact h11 i hi
    · intro i hi him hids
      simp only [List.mem_cons, not_or] at hids
      exact h13 i (h8 i hi him hids.1) him hids.2

end Tsar.DeadStore
