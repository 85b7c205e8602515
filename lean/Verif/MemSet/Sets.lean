import Verif.MemSet.Join
import Mathlib.Data.List.InsertIdx

/-!
# Insertion of locations to a set
-/

namespace Tsar.MemSet

open Tsar.Range

theorem locs_of_mem {ob : Option Nat → Obj} {s : MSet} (h : SetWf ob s) {e : Option Nat × List Loc}
    (he : e ∈ s) : locs s e.1 = e.2 := by
  unfold locs
  induction s with
  | nil => simp at he
  | cons f s ih =>
    obtain ⟨hn, hw⟩ := h
    simp only [List.map_cons, List.nodup_cons] at hn
    simp only [List.find?_cons]
    rcases List.mem_cons.1 he with rfl | he'
    · simp
    · have : f.1 ≠ e.1 := fun h => hn.1 (h ▸ List.mem_map_of_mem he')
      simp only [this, decide_false]
      exact ih ⟨hn.2, fun e he => hw e (by simp [he])⟩ he'

theorem locs_of_not_any {s : MSet} {p : Option Nat}
    (h : ¬ (s.any fun e => decide (e.1 = p)) = true) : locs s p = [] := by
  unfold locs
  have : s.find? (fun e => decide (e.1 = p)) = none := by
    rw [List.find?_eq_none]
    intro x hx hd
    exact h (List.any_eq_true.2 ⟨x, hx, hd⟩)
  rw [this]

theorem locs_wf {ob : Option Nat → Obj} {s : MSet} (h : SetWf ob s) {p : Option Nat} {l : Loc}
    (hl : l ∈ locs s p) : l.ptr = p ∧ WfLoc (ob p) l := by
  by_cases ha : (s.any fun e => decide (e.1 = p)) = true
  · obtain ⟨e, he, hp⟩ := List.any_eq_true.1 ha
    simp only [decide_eq_true_eq] at hp
    subst hp
    rw [locs_of_mem h he] at hl
    have := (h.2 e he).2 l hl
    exact ⟨this.1, this.1 ▸ this.2⟩
  · rw [locs_of_not_any ha] at hl; simp at hl

theorem setByte_iff {ob : Option Nat → Obj} {s : MSet} (h : SetWf ob s) {p : Option Nat}
    {b : Nat} : SetByte s p b ↔ ∃ l ∈ locs s p, Reach l b := by
  constructor
  · rintro ⟨e, he, l, hl, hp, hr⟩
    have h1 := ((h.2 e he).2 l hl).1
    refine ⟨l, ?_, hr⟩
    have := locs_of_mem h he
    rw [← hp, h1, this]; exact hl
  · rintro ⟨l, hl, hr⟩
    have hw := locs_wf h hl
    by_cases ha : (s.any fun e => decide (e.1 = p)) = true
    · obtain ⟨e, he, hp⟩ := List.any_eq_true.1 ha
      simp only [decide_eq_true_eq] at hp
      subst hp
      rw [locs_of_mem h he] at hl
      exact ⟨e, he, l, hl, hw.1, hr⟩
    · rw [locs_of_not_any ha] at hl; simp at hl

theorem mem_set_iff {α : Type*} {l : List α} {i : Nat} (h : i < l.length) {a x : α} :
    x ∈ l.set i a ↔ x = a ∨ ∃ j, j ≠ i ∧ l[j]? = some x := by
  rw [List.mem_iff_getElem?]
  constructor
  · rintro ⟨j, hj⟩
    by_cases hij : i = j
    · subst hij
      rw [List.getElem?_set_self h] at hj
      exact Or.inl (Option.some.inj hj).symm
    · rw [List.getElem?_set_ne hij] at hj
      exact Or.inr ⟨j, fun h => hij h.symm, hj⟩
  · rintro (rfl | ⟨j, hj, hx⟩)
    · exact ⟨i, List.getElem?_set_self h⟩
    · exact ⟨j, by rw [List.getElem?_set_ne (fun h => hj h.symm)]; exact hx⟩

theorem insertPos_le {loc : Loc} : ∀ {n : Nat} {ls : List Loc}, insertPos loc n ls ≤ ls.length
  | 0, _ => by simp [insertPos]
  | _ + 1, [] => by simp [insertPos]
  | n + 1, c :: cs => by
    unfold insertPos
    split
    · have := insertPos_le (loc := loc) (n := n) (ls := cs)
      simp; omega
    · simp

theorem insertList_spec {o : Obj} {p : Option Nat} {ls : List Loc} {loc : Loc}
    (hls : ∀ l ∈ ls, l.ptr = p ∧ WfLoc o l) (hp : loc.ptr = p) (hl : WfLoc o loc) :
    (insertList ls loc).1 ≠ [] ∧
    (∀ l ∈ (insertList ls loc).1, l.ptr = p ∧ WfLoc o l) ∧
    (∀ b, (∃ l ∈ (insertList ls loc).1, Reach l b) ↔ (∃ l ∈ ls, Reach l b) ∨ Reach loc b) ∧
    ((insertList ls loc).2 = false ↔ (insertList ls loc).1 = ls) := by
  unfold insertList
  cases hf : ls.findIdx? fun c => areJoinable c loc with
  | some i =>
    obtain ⟨hi, hj, hbefore⟩ := List.findIdx?_eq_some_iff_getElem.1 hf
    simp only [List.getElem?_eq_getElem hi]
    have hc := hls ls[i] (List.getElem_mem hi)
    obtain ⟨j1, j2, j3⟩ := join_spec hc.2 hl hj
    refine ⟨fun h => ?_, ?_, ?_, ?_⟩
    · have := congrArg List.length h
      simp at this
      rw [this] at hi
      simp at hi
    · intro l hm
      rcases (mem_set_iff hi).1 hm with rfl | ⟨j, _, hx⟩
      · exact ⟨j1.trans hc.1, j2⟩
      · exact hls l (List.mem_of_getElem? hx)
    · intro b
      constructor
      · rintro ⟨l, hm, hr⟩
        rcases (mem_set_iff hi).1 hm with rfl | ⟨j, _, hx⟩
        · rcases (j3 b).1 hr with h | h
          · exact Or.inl ⟨_, List.getElem_mem hi, h⟩
          · exact Or.inr h
        · exact Or.inl ⟨l, List.mem_of_getElem? hx, hr⟩
      · rintro (⟨l, hm, hr⟩ | hr)
        · obtain ⟨j, hj'⟩ := List.mem_iff_getElem?.1 hm
          by_cases hij : j = i
          · subst hij
            rw [List.getElem?_eq_getElem hi] at hj'
            obtain rfl := Option.some.inj hj'
            exact ⟨_, (mem_set_iff hi).2 (Or.inl rfl), (j3 b).2 (Or.inl hr)⟩
          · exact ⟨l, (mem_set_iff hi).2 (Or.inr ⟨j, hij, hj'⟩), hr⟩
        · exact ⟨_, (mem_set_iff hi).2 (Or.inl rfl), (j3 b).2 (Or.inr hr)⟩
    · rw [join_changed_iff hc.2 hl hj]
      constructor
      · intro h; rw [h]; exact List.set_getElem_self hi
      · intro h
        have : (ls.set i (join loc ls[i]))[i]? = ls[i]? := by rw [h]
        rw [List.getElem?_set_self hi, List.getElem?_eq_getElem hi] at this
        exact Option.some.inj this
  | none =>
    have hle : (if loc.dims.length > 0 then ls.length else insertPos loc ls.length ls) ≤
        ls.length := by
      split
      · exact le_rfl
      · exact insertPos_le
    simp only
    generalize (if loc.dims.length > 0 then ls.length else insertPos loc ls.length ls) = pos at hle
    refine ⟨fun h => ?_, ?_, ?_, ?_⟩
    · have := congrArg List.length h
      rw [List.length_insertIdx_of_le_length hle] at this
      simp at this
    · intro l hm
      rcases (List.mem_insertIdx hle).1 hm with rfl | hm
      · exact ⟨hp, hl⟩
      · exact hls l hm
    · intro b
      simp only [List.mem_insertIdx hle, or_and_right, exists_or, exists_eq_left]
      exact or_comm
    · simp only [reduceCtorEq, false_iff]
      intro h
      have := congrArg List.length h
      rw [List.length_insertIdx_of_le_length hle] at this
      omega

theorem setLocs_keys (s : MSet) (p : Option Nat) (ls : List Loc) :
    (setLocs s p ls).map Prod.fst = s.map Prod.fst := by
  unfold setLocs
  rw [List.map_map]
  apply List.map_congr_left
  intro e _
  simp only [Function.comp]
  split
  · rename_i h; exact h.symm
  · rfl

theorem setLocs_same {ob : Option Nat → Obj} {s : MSet} (h : SetWf ob s) (p : Option Nat) :
    setLocs s p (locs s p) = s := by
  unfold setLocs
  conv_rhs => rw [← List.map_id s]
  apply List.map_congr_left
  intro e he
  split
  · rename_i hp
    subst hp
    rw [locs_of_mem h he]; rfl
  · rfl

/-- Insertion keeps a set well-formed, adds exactly the bytes of the new location, and
the result tells whether the set was changed. -/
theorem insert_spec {ob : Option Nat → Obj} {s : MSet} {loc : Loc} (h : SetWf ob s)
    (hl : WfLoc (ob loc.ptr) loc) :
    SetWf ob (insert s loc).1 ∧
    (∀ p b, SetByte (insert s loc).1 p b ↔ SetByte s p b ∨ (p = loc.ptr ∧ Reach loc b)) ∧
    ((insert s loc).2 = false ↔ (insert s loc).1 = s) := by
  unfold insert
  by_cases ha : (s.any fun e => decide (e.1 = loc.ptr)) = true
  · rw [if_pos ha]
    simp only
    obtain ⟨i0, i1, i2, i3⟩ := insertList_spec (p := loc.ptr) (fun l hl => locs_wf h hl) rfl hl
    generalize insertList (locs s loc.ptr) loc = r at *
    have hwf : SetWf ob (setLocs s loc.ptr r.1) := by
      refine ⟨by rw [setLocs_keys]; exact h.1, ?_⟩
      intro e he
      obtain ⟨f, hf, rfl⟩ := List.mem_map.1 he
      by_cases hfp : f.1 = loc.ptr
      · simp only [if_pos hfp]
        exact ⟨i0, fun l hl => ⟨(i1 l hl).1, (i1 l hl).1 ▸ (i1 l hl).2⟩⟩
      · simp only [if_neg hfp]; exact h.2 f hf
    refine ⟨hwf, ?_, ?_⟩
    · intro p b
      obtain ⟨e, he, hep⟩ := List.any_eq_true.1 ha
      simp only [decide_eq_true_eq] at hep
      by_cases hp : p = loc.ptr
      · subst hp
        have hmem : (loc.ptr, r.1) ∈ setLocs s loc.ptr r.1 := by
          refine List.mem_map.2 ⟨e, he, ?_⟩
          rw [if_pos hep]
        have hlocs := locs_of_mem hwf hmem
        rw [setByte_iff hwf, setByte_iff h, hlocs]
        simp [i2]
      · have hlocs : locs (setLocs s loc.ptr r.1) p = locs s p := by
          unfold locs setLocs
          rw [List.find?_map]
          have : ((fun e : Option Nat × List Loc => decide (e.1 = p)) ∘
              fun e => if e.1 = loc.ptr then (loc.ptr, r.1) else e) =
              fun e => decide (e.1 = p) := by
            funext f
            simp only [Function.comp]
            split
            · rename_i hfp; rw [hfp]
            · rfl
          rw [this]
          cases hfind : s.find? fun e => decide (e.1 = p) with
          | none => rfl
          | some f =>
            have := List.find?_some hfind
            simp only [decide_eq_true_eq] at this
            simp only [Option.map_some]
            rw [if_neg (by rw [this]; exact hp)]
        rw [setByte_iff hwf, setByte_iff h, hlocs]
        simp [hp]
    · rw [i3]
      constructor
      · intro hr; rw [hr]; exact setLocs_same h _
      · intro hr
        obtain ⟨e, he, hep⟩ := List.any_eq_true.1 ha
        simp only [decide_eq_true_eq] at hep
        have hmem : (loc.ptr, r.1) ∈ setLocs s loc.ptr r.1 := by
          refine List.mem_map.2 ⟨e, he, ?_⟩
          rw [if_pos hep]
        have h2 := locs_of_mem hwf hmem
        rw [hr] at h2
        exact h2.symm
  · rw [if_neg ha]
    simp only
    have hnot : ∀ e ∈ s, e.1 ≠ loc.ptr := by
      intro e he hep
      exact ha (List.any_eq_true.2 ⟨e, he, by simpa using hep⟩)
    refine ⟨⟨?_, ?_⟩, ?_, ?_⟩
    · rw [List.map_append, List.nodup_append]
      refine ⟨h.1, by simp, ?_⟩
      intro a hm b hb
      obtain ⟨e, he, rfl⟩ := List.mem_map.1 hm
      simp only [List.map_cons, List.map_nil, List.mem_singleton] at hb
      subst hb
      exact hnot e he
    · intro e he
      rcases List.mem_append.1 he with he | he
      · exact h.2 e he
      · simp only [List.mem_singleton] at he
        subst he
        refine ⟨by simp, ?_⟩
        intro l hm
        simp only [List.mem_singleton] at hm
        subst hm
        exact ⟨rfl, hl⟩
    · intro p b
      simp only [SetByte, List.mem_append, List.mem_singleton, or_and_right, exists_or,
        exists_eq_left]
      constructor
      · rintro (h | ⟨h1, h2⟩)
        · exact Or.inl h
        · exact Or.inr ⟨h1.symm, h2⟩
      · rintro (h | ⟨h1, h2⟩)
        · exact Or.inl h
        · exact Or.inr ⟨h1.symm, h2⟩
    · simp

theorem insertAll_spec {ob : Option Nat → Obj} : ∀ {ls : List Loc} {s : MSet}, SetWf ob s →
    (∀ l ∈ ls, WfLoc (ob l.ptr) l) →
    SetWf ob (insertAll s ls).1 ∧
    (∀ p b, SetByte (insertAll s ls).1 p b ↔ SetByte s p b ∨ ListByte ls p b) ∧
    ((insertAll s ls).2 = false → (insertAll s ls).1 = s)
  | [], s, h, _ => by simp [insertAll, h, ListByte]
  | l :: ls, s, h, hl => by
    obtain ⟨h1, h2, h3⟩ := insert_spec h (hl l (by simp))
    obtain ⟨i1, i2, i3⟩ := insertAll_spec (ls := ls) h1 (fun l hm => hl l (by simp [hm]))
    simp only [insertAll]
    refine ⟨i1, ?_, ?_⟩
    · intro p b
      rw [i2, h2]
      simp only [ListByte, List.mem_cons, or_and_right, exists_or, exists_eq_left]
      rw [or_assoc, eq_comm (a := p)]
    · intro h
      simp only [Bool.or_eq_false_iff] at h
      rw [i3 h.1, h3.1 h.2]

theorem setWf_nil (ob : Option Nat → Obj) : SetWf ob [] := by simp [SetWf]

theorem setByte_nil {p : Option Nat} {b : Nat} : ¬ SetByte [] p b := by simp [SetByte]

theorem setByte_all {s : MSet} {p : Option Nat} {b : Nat} :
    SetByte s p b ↔ ListByte (allLocs s) p b := by
  simp only [SetByte, ListByte, allLocs, List.mem_flatMap]
  constructor
  · rintro ⟨e, he, l, hl, h⟩; exact ⟨l, ⟨e, he, hl⟩, h⟩
  · rintro ⟨l, ⟨e, he, hl⟩, h⟩; exact ⟨e, he, l, hl, h⟩

theorem allLocs_wf {ob : Option Nat → Obj} {s : MSet} (h : SetWf ob s) :
    ∀ l ∈ allLocs s, WfLoc (ob l.ptr) l := by
  intro l hl
  simp only [allLocs, List.mem_flatMap] at hl
  obtain ⟨e, he, hl⟩ := hl
  exact ((h.2 e he).2 l hl).2

end Tsar.MemSet
