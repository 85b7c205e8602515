import Verif.Persistent.Model
import Mathlib.Data.List.Perm.Subperm
import Mathlib.Data.List.Nodup

/-!
# Intrusive lists of persistent iterators
-/

namespace Tsar
namespace Persistent

/-! ### Observers -/

/-- `mPrev` of an iterator. -/
def State.pv (s : State) (x : Nat) : Option Cell := (s.it x).map (·.prev)
/-- `mPtr` of an iterator. -/
def State.pt (s : State) (x : Nat) : Option (Option Nat) := (s.it x).map (·.ptr)
/-- The key of a bucket. -/
def State.ky (s : State) (b : Nat) : Option Nat := (s.bucket b).map (·.key)

/-- Everything but links is the same. -/
structure Same (s s' : State) : Prop where
  pt : s'.pt = s.pt
  ky : s'.ky = s.ky
  place : s'.place = s.place

theorem Same.refl (s : State) : Same s s := ⟨rfl, rfl, rfl⟩
theorem Same.trans {a b c : State} (h : Same a b) (h' : Same b c) : Same a c :=
  ⟨h'.pt.trans h.pt, h'.ky.trans h.ky, h'.place.trans h.place⟩

theorem pv_some {s : State} {x : Nat} {c : Cell} (h : s.pv x = some c) :
    ∃ i, s.it x = some i ∧ i.prev = c := by
  simpa [State.pv] using h

theorem pt_some {s : State} {x : Nat} {p : Option Nat} (h : s.pt x = some p) :
    ∃ i, s.it x = some i ∧ i.ptr = p := by
  simpa [State.pt] using h

theorem pv_isSome {s : State} {x : Nat} : s.pv x = none ↔ s.it x = none := by simp [State.pv]
theorem pt_isSome {s : State} {x : Nat} : s.pt x = none ↔ s.it x = none := by simp [State.pt]
theorem rd_isSome {s : State} {x : Nat} : s.read (.next x) = none ↔ s.it x = none := by simp [State.read]
theorem ky_isSome {s : State} {b : Nat} : s.ky b = none ↔ s.read (.head b) = none := by
  simp [State.ky, State.read]

theorem write_obs {s : State} {c : Cell} {o : Option Nat} (h : s.read c = some o) (v : Option Nat) :
    ∃ s', s.write c v = some s' ∧ (∀ c', s'.read c' = if c' = c then some v else s.read c') ∧
      s'.pv = s.pv ∧ Same s s' := by
  cases c with
  | head b =>
    simp only [State.read, Option.map_eq_some_iff] at h
    obtain ⟨k, hk, rfl⟩ := h
    refine ⟨{ s with bucket := upd s.bucket b (some { k with head := v }) },
      by simp only [State.write, hk, Option.map_some], ?_, rfl, rfl, ?_, rfl⟩
    · rintro (b' | x)
      · by_cases hb : b' = b <;> simp [State.read, upd, hb]
      · simp [State.read]
    · funext b'
      by_cases hb : b' = b
      · subst hb; simp [State.ky, upd, hk]
      · simp [State.ky, upd, hb]
  | next x =>
    simp only [State.read, Option.map_eq_some_iff] at h
    obtain ⟨k, hk, rfl⟩ := h
    refine ⟨{ s with it := upd s.it x (some { k with next := v }) },
      by simp only [State.write, hk, Option.map_some], ?_, ?_, ?_, rfl, rfl⟩
    · rintro (b' | x')
      · simp [State.read]
      · by_cases hb : x' = x <;> simp [State.read, upd, hb]
    · funext x'
      by_cases hb : x' = x
      · subst hb; simp [State.pv, upd, hk]
      · simp [State.pv, upd, hb]
    · funext x'
      by_cases hb : x' = x
      · subst hb; simp [State.pt, upd, hk]
      · simp [State.pt, upd, hb]

theorem setPrev_obs {s : State} {x : Nat} {o : Cell} (h : s.pv x = some o) (c : Cell) :
    ∃ s', s.setPrev x c = some s' ∧ s'.read = s.read ∧
      (∀ y, s'.pv y = if y = x then some c else s.pv y) ∧ Same s s' := by
  obtain ⟨i, hi, -⟩ := pv_some h
  refine ⟨{ s with it := upd s.it x (some { i with prev := c }) },
    by simp only [State.setPrev, hi, Option.map_some], ?_, ?_, ?_, rfl, rfl⟩
  · funext c'
    cases c' with
    | head b => rfl
    | next y =>
      by_cases hy : y = x
      · subst hy; simp [State.read, upd, hi]
      · simp [State.read, upd, hy]
  · intro y
    by_cases hy : y = x <;> simp [State.pv, upd, hy]
  · funext y
    by_cases hy : y = x
    · subst hy; simp [State.pt, upd, hi]
    · simp [State.pt, upd, hy]

theorem setPtr_obs {s : State} {x : Nat} {o : Option Nat} (h : s.pt x = some o) (p : Option Nat) :
    ∃ s', s.setPtr x p = some s' ∧ s'.read = s.read ∧ s'.pv = s.pv ∧
      (∀ y, s'.pt y = if y = x then some p else s.pt y) ∧ s'.ky = s.ky ∧ s'.place = s.place := by
  obtain ⟨i, hi, -⟩ := pt_some h
  refine ⟨{ s with it := upd s.it x (some { i with ptr := p }) },
    by simp only [State.setPtr, hi, Option.map_some], ?_, ?_, ?_, rfl, rfl⟩
  · funext c'
    cases c' with
    | head b => rfl
    | next y =>
      by_cases hy : y = x
      · subst hy; simp [State.read, upd, hi]
      · simp [State.read, upd, hy]
  · funext y
    by_cases hy : y = x
    · subst hy; simp [State.pv, upd, hi]
    · simp [State.pv, upd, hy]
  · intro y
    by_cases hy : y = x <;> simp [State.pt, upd, hy]

/-! ### Segments of lists -/

/-- Links from the cell `c` go through `l` and end with the null pointer. -/
def Seg (s : State) : Cell → List Nat → Prop
  | c, [] => s.read c = some none
  | c, x :: xs => s.read c = some (some x) ∧ s.pv x = some c ∧ Seg s (.next x) xs

/-- Links from the cell `c` go through `l` to the cell `e`. -/
def SegTo (s : State) : Cell → List Nat → Cell → Prop
  | c, [], e => c = e
  | c, x :: xs, e => s.read c = some (some x) ∧ s.pv x = some c ∧ SegTo s (.next x) xs e

theorem seg_append {s : State} {c : Cell} {l1 l2 : List Nat} :
    Seg s c (l1 ++ l2) ↔ ∃ e, SegTo s c l1 e ∧ Seg s e l2 := by
  induction l1 generalizing c with
  | nil => simp [SegTo]
  | cons x xs ih =>
    simp only [List.cons_append, Seg, SegTo, ih]
    constructor
    · rintro ⟨h1, h2, e, h3, h4⟩; exact ⟨e, ⟨h1, h2, h3⟩, h4⟩
    · rintro ⟨e, ⟨h1, h2, h3⟩, h4⟩; exact ⟨h1, h2, e, h3, h4⟩

theorem seg_read {s : State} {c : Cell} {l : List Nat} (h : Seg s c l) : s.read c = some l.head? := by
  cases l with
  | nil => exact h
  | cons x xs => exact h.1

theorem seg_alive {s : State} {c : Cell} {l : List Nat} (h : Seg s c l) {x : Nat} (hx : x ∈ l) :
    ∃ c, s.pv x = some c := by
  induction l generalizing c with
  | nil => simp at hx
  | cons y ys ih =>
    rcases List.mem_cons.1 hx with rfl | hx
    · exact ⟨c, h.2.1⟩
    · exact ih h.2.2 hx

/-- Cells which are read by a list. -/
theorem seg_frame {s s' : State} {c : Cell} {l : List Nat} (h : Seg s c l)
    (hr : ∀ c', c' = c ∨ (∃ x ∈ l, c' = .next x) → s'.read c' = s.read c')
    (hp : ∀ x ∈ l, s'.pv x = s.pv x) : Seg s' c l := by
  induction l generalizing c with
  | nil => exact (hr c (.inl rfl)).trans h
  | cons x xs ih =>
    refine ⟨(hr c (.inl rfl)).trans h.1, (hp x (List.mem_cons_self ..)).trans h.2.1, ?_⟩
    refine ih h.2.2 ?_ (fun y hy => hp y (List.mem_cons_of_mem _ hy))
    rintro c' (rfl | ⟨y, hy, rfl⟩)
    · exact hr _ (.inr ⟨x, List.mem_cons_self .., rfl⟩)
    · exact hr _ (.inr ⟨y, List.mem_cons_of_mem _ hy, rfl⟩)

/-- The last cell is the first one or belongs to an iterator. -/
theorem segTo_end {s : State} {c e : Cell} {l : List Nat} (h : SegTo s c l e) :
    (l = [] ∧ e = c) ∨ ∃ x ∈ l, e = .next x := by
  induction l generalizing c with
  | nil => exact .inl ⟨rfl, h.symm⟩
  | cons y ys ih =>
    right
    rcases ih h.2.2 with ⟨-, he⟩ | ⟨x, hx, he⟩
    · exact ⟨y, List.mem_cons_self .., he⟩
    · exact ⟨x, List.mem_cons_of_mem _ hx, he⟩

/-- The last cell is not read. -/
theorem segTo_frame {s s' : State} {c e : Cell} {l : List Nat} (h : SegTo s c l e) (hn : l.Nodup)
    (hc : ∀ x ∈ l, c ≠ .next x)
    (hr : ∀ c', c' = c ∨ (∃ x ∈ l, c' = .next x) → c' ≠ e → s'.read c' = s.read c')
    (hp : ∀ x ∈ l, s'.pv x = s.pv x) : SegTo s' c l e := by
  induction l generalizing c with
  | nil => exact h
  | cons x xs ih =>
    rw [List.nodup_cons] at hn
    have hce : c ≠ e := by
      rcases segTo_end h with ⟨h0, -⟩ | ⟨y, hy, rfl⟩
      · cases h0
      · exact hc y hy
    refine ⟨(hr c (.inl rfl) hce).trans h.1, (hp x (List.mem_cons_self ..)).trans h.2.1, ?_⟩
    refine ih h.2.2 hn.2 ?_ ?_ (fun y hy => hp y (List.mem_cons_of_mem _ hy))
    · rintro y hy hxy
      cases hxy
      exact hn.1 hy
    · rintro c' hc' hne
      rcases hc' with rfl | ⟨y, hy, rfl⟩
      · exact hr _ (.inr ⟨x, List.mem_cons_self .., rfl⟩) hne
      · exact hr _ (.inr ⟨y, List.mem_cons_of_mem _ hy, rfl⟩) hne

/-! ### Invariant of lists -/

/-- `L b` is the list of iterators to the bucket `b`. -/
structure Inv (s : State) (L : Nat → List Nat) : Prop where
  seg : ∀ b, s.ky b ≠ none → Seg s (.head b) (L b)
  dead : ∀ b, s.ky b = none → L b = []
  nodup : ∀ b, (L b).Nodup
  disj : ∀ b b' x, x ∈ L b → x ∈ L b' → b = b'
  free : ∀ x c, s.pv x = some c → (∀ b, x ∉ L b) → c = .next x

theorem Inv.alive {s : State} {L : Nat → List Nat} (h : Inv s L) {b x : Nat} (hx : x ∈ L b) :
    s.ky b ≠ none := by
  intro hk
  rw [h.dead b hk] at hx
  simp at hx

/-- An iterator in a list is valid. -/
theorem Inv.valid {s : State} {L : Nat → List Nat} (h : Inv s L) {b x : Nat} (hx : x ∈ L b) :
    ∃ c, s.pv x = some c ∧ c ≠ .next x := by
  have hs := h.seg b (h.alive hx)
  obtain ⟨l1, l2, hl⟩ := List.append_of_mem hx
  have hn := h.nodup b
  rw [hl] at hs hn
  obtain ⟨e, h1, h2⟩ := seg_append.1 hs
  refine ⟨e, h2.2.1, ?_⟩
  rcases segTo_end h1 with ⟨-, rfl⟩ | ⟨y, hy, rfl⟩
  · simp
  · intro hc
    cases hc
    rw [List.nodup_append] at hn
    exact hn.2.2 x hy x (List.mem_cons_self ..) rfl

theorem addToList_inv {s : State} {L : Nat → List Nat} (h : Inv s L) {x b : Nat}
    (hx : ∀ b, x ∉ L b) (hp : s.pt x = some (some b)) (hb : s.ky b ≠ none) :
    ∃ s', s.addToList x = some s' ∧ Inv s' (upd L b (x :: L b)) ∧ Same s s' ∧
      (∀ y, s'.pv y = none ↔ s.pv y = none) := by
  obtain ⟨i, hi, hip⟩ := pt_some hp
  have hseg := h.seg b hb
  have hrd : s.read (.head b) = some (L b).head? := seg_read hseg
  have hnx : s.read (.next x) = some i.next := by simp [State.read, hi]
  have hpx : s.pv x = some i.prev := by simp [State.pv, hi]
  obtain ⟨s1, e1, r1, p1, m1⟩ := write_obs hnx (L b).head?
  have hb1 : s1.read (.head b) = some (L b).head? := by rw [r1]; simpa using hrd
  obtain ⟨s2, e2, r2, p2, m2⟩ := write_obs hb1 (some x)
  have hpx2 : s2.pv x = some i.prev := by rw [p2, p1]; exact hpx
  obtain ⟨s3, e3, r3, p3, m3⟩ := setPrev_obs hpx2 (.head b)
  -- the last step
  have hlast : ∃ s', (match (L b).head? with | some y => s3.setPrev y (.next x) | none => some s3) = some s' ∧
      s'.read = s3.read ∧
      (∀ y, s'.pv y = if some y = (L b).head? then some (.next x) else s3.pv y) ∧ Same s3 s' := by
    cases hL : L b with
    | nil => exact ⟨s3, rfl, rfl, by simp, Same.refl _⟩
    | cons y ys =>
      have hy : ∃ c, s3.pv y = some c := by
        rw [p3]
        split
        · exact ⟨_, rfl⟩
        · rw [p2, p1]
          exact seg_alive hseg (hL ▸ List.mem_cons_self ..)
      obtain ⟨c, hc⟩ := hy
      obtain ⟨s4, e4, r4, p4, m4⟩ := setPrev_obs hc (.next x)
      refine ⟨s4, e4, r4, ?_, m4⟩
      intro z
      rw [p4]
      simp [eq_comm]
  obtain ⟨s', e4, r4, p4, m4⟩ := hlast
  have hsame : Same s s' := ((m1.trans m2).trans m3).trans m4
  have hread : ∀ c, s'.read c = if c = .head b then some (some x) else
      if c = .next x then some (L b).head? else s.read c := by
    intro c
    rw [r4, r3, r2, r1]
  have hpv : ∀ y, s'.pv y = if some y = (L b).head? then some (.next x) else
      if y = x then some (.head b) else s.pv y := by
    intro y
    rw [p4, p3, p2, p1]
  refine ⟨s', ?_, ⟨?_, ?_, ?_, ?_, ?_⟩, hsame, ?_⟩
  · unfold State.addToList
    simp only [hi, hip, hrd, e1, e2, e3, Option.bind_eq_bind, Option.bind_some]
    exact e4
  · intro b' hb'
    rw [hsame.ky] at hb'
    by_cases hbb : b' = b
    · subst hbb
      simp only [upd, if_true]
      refine ⟨by rw [hread]; simp, ?_, ?_⟩
      · rw [hpv, if_neg, if_pos rfl]
        intro hc
        exact hx b' (List.mem_of_mem_head? hc.symm)
      · -- the old list is behind the new element
        have hrest : s'.read (.next x) = some (L b').head? := by rw [hread]; simp
        cases hL : L b' with
        | nil => rw [hL] at hrest; exact hrest
        | cons y ys =>
          rw [hL] at hseg hrest
          have hnd := h.nodup b'
          rw [hL, List.nodup_cons] at hnd
          refine ⟨hrest, by rw [hpv, hL]; simp, ?_⟩
          refine seg_frame hseg.2.2 ?_ ?_
          · intro c' hc'
            have hc1 : ∃ z, z ∈ L b' ∧ c' = .next z := by
              rcases hc' with rfl | ⟨z, hz, rfl⟩
              · exact ⟨y, hL ▸ List.mem_cons_self .., rfl⟩
              · exact ⟨z, hL ▸ List.mem_cons_of_mem _ hz, rfl⟩
            obtain ⟨z, hz, rfl⟩ := hc1
            rw [hread, if_neg (by simp), if_neg]
            intro hc
            cases hc
            exact hx b' hz
          · intro z hz
            rw [hpv, hL, if_neg, if_neg]
            · rintro rfl
              exact hx b' (hL ▸ List.mem_cons_of_mem _ hz)
            · intro hc
              simp only [List.head?_cons, Option.some.injEq] at hc
              exact hnd.1 (hc ▸ hz)
    · simp only [upd, if_neg hbb]
      refine seg_frame (h.seg b' hb') ?_ ?_
      · rintro c' (rfl | ⟨z, hz, rfl⟩)
        · rw [hread, if_neg (by simpa using hbb), if_neg (by simp)]
        · rw [hread, if_neg (by simp), if_neg]
          intro hc
          cases hc
          exact hx b' hz
      · intro z hz
        rw [hpv, if_neg, if_neg]
        · rintro rfl
          exact hx b' hz
        · intro hc
          exact hbb (h.disj b' b z hz (List.mem_of_mem_head? hc.symm))
  · intro b' hb'
    rw [hsame.ky] at hb'
    have : b' ≠ b := fun hc => hb (hc ▸ hb')
    simp only [upd, if_neg this]
    exact h.dead b' hb'
  · intro b'
    by_cases hbb : b' = b
    · subst hbb
      simp only [upd, if_true]
      exact List.nodup_cons.2 ⟨hx b', h.nodup b'⟩
    · simp only [upd, if_neg hbb]
      exact h.nodup b'
  · intro b1 b2 z h1 h2
    by_cases hb1 : b1 = b <;> by_cases hb2 : b2 = b
    · rw [hb1, hb2]
    · subst hb1
      simp only [upd, if_true, if_neg hb2] at h1 h2
      rcases List.mem_cons.1 h1 with rfl | h1
      · exact absurd h2 (hx b2)
      · exact h.disj _ _ z h1 h2
    · subst hb2
      simp only [upd, if_true, if_neg hb1] at h1 h2
      rcases List.mem_cons.1 h2 with rfl | h2
      · exact absurd h1 (hx b1)
      · exact h.disj _ _ z h1 h2
    · simp only [upd, if_neg hb1, if_neg hb2] at h1 h2
      exact h.disj _ _ z h1 h2
  · intro y c hy hf
    have hyx : y ≠ x := by
      rintro rfl
      have := hf b
      simp [upd] at this
    have hyL : ∀ b, y ∉ L b := by
      intro b' hb'
      have := hf b'
      by_cases hbb : b' = b
      · subst hbb
        simp only [upd, if_true] at this
        exact this (List.mem_cons_of_mem _ hb')
      · simp only [upd, if_neg hbb] at this
        exact this hb'
    rw [hpv, if_neg (fun hc => hyL b (List.mem_of_mem_head? hc.symm)), if_neg hyx] at hy
    exact h.free y c hy hyL
  · intro y
    rw [pv_isSome, pv_isSome, ← pt_isSome, ← pt_isSome, hsame.pt]

theorem erase_split {l1 l2 : List Nat} {x : Nat} (h : (l1 ++ x :: l2).Nodup) :
    (l1 ++ x :: l2).erase x = l1 ++ l2 := by
  rw [List.nodup_append] at h
  rw [List.erase_append_right _ (fun hc => h.2.2 x hc x (List.mem_cons_self ..) rfl)]
  simp

theorem removeFromList_inv {s : State} {L : Nat → List Nat} (h : Inv s L) {x b : Nat} (hx : x ∈ L b) :
    ∃ s', s.removeFromList x = some s' ∧ Inv s' (upd L b ((L b).erase x)) ∧ Same s s' ∧
      (∀ y, s'.pv y = none ↔ s.pv y = none) := by
  have hb := h.alive hx
  obtain ⟨l1, l2, hl⟩ := List.append_of_mem hx
  have hseg := h.seg b hb
  have hnd := h.nodup b
  rw [hl] at hseg hnd
  rw [hl, erase_split hnd]
  obtain ⟨e, hs1, hs2⟩ := seg_append.1 hseg
  obtain ⟨hre, hpe, hsx⟩ := hs2
  have hnx : s.read (.next x) = some l2.head? := seg_read hsx
  have hxl1 : x ∉ l1 := fun hc => by
    rw [List.nodup_append] at hnd
    exact hnd.2.2 x hc x (List.mem_cons_self ..) rfl
  have hxl2 : x ∉ l2 := by
    rw [List.nodup_append, List.nodup_cons] at hnd
    exact hnd.2.1.1
  have hnd1 : l1.Nodup := (List.nodup_append.1 hnd).1
  have hnd2 : l2.Nodup := (List.nodup_cons.1 (List.nodup_append.1 hnd).2.1).2
  have hd12 : ∀ y ∈ l1, y ∉ l2 := fun y h1 h2 =>
    (List.nodup_append.1 hnd).2.2 y h1 y (List.mem_cons_of_mem _ h2) rfl
  have hmem : ∀ y, y ∈ L b ↔ y ∈ l1 ∨ y = x ∨ y ∈ l2 := by
    intro y; rw [hl]; simp
  have hee : e = .head b ∨ ∃ y ∈ l1, e = .next y := by
    rcases segTo_end hs1 with ⟨-, he⟩ | he
    · exact .inl he
    · exact .inr he
  have hex : e ≠ .next x := by
    rcases hee with rfl | ⟨y, hy, rfl⟩
    · simp
    · intro hc; cases hc; exact hxl1 hy
  obtain ⟨i, hi, hie⟩ := pv_some hpe
  have hin : i.next = l2.head? := by
    have : s.read (.next x) = some i.next := by simp [State.read, hi]
    exact Option.some.inj (this.symm.trans hnx)
  obtain ⟨s1, e1, r1, p1, m1⟩ := write_obs hre i.next
  have hp1 : s1.pv x = some e := by rw [p1]; exact hpe
  have hn1 : s1.read (.next x) = some l2.head? := by
    rw [r1, if_neg (Ne.symm hex), hnx]
  obtain ⟨i', hi', hie'⟩ := pv_some hp1
  have hin' : i'.next = l2.head? := by
    have : s1.read (.next x) = some i'.next := by simp [State.read, hi']
    exact Option.some.inj (this.symm.trans hn1)
  have hstep : ∃ s2, (match l2.head? with
        | some y => s1.setPrev y e
        | none => some s1) = some s2 ∧ s2.read = s1.read ∧
      (∀ y, s2.pv y = if some y = l2.head? then some e else s1.pv y) ∧ Same s1 s2 := by
    cases hl2 : l2 with
    | nil => exact ⟨s1, rfl, rfl, by simp, Same.refl _⟩
    | cons y ys =>
      rw [hl2] at hsx
      have hy : s1.pv y = some (.next x) := by rw [p1]; exact hsx.2.1
      obtain ⟨s2, e2, r2, p2, m2⟩ := setPrev_obs hy e
      refine ⟨s2, e2, r2, ?_, m2⟩
      intro z
      rw [p2]
      simp [eq_comm]
  obtain ⟨s2, e2, r2, p2, m2⟩ := hstep
  have hp2 : s2.pv x = some e := by
    rw [p2, if_neg (fun hc => hxl2 (List.mem_of_mem_head? hc.symm))]
    exact hp1
  obtain ⟨s', e3, r3, p3, m3⟩ := setPrev_obs hp2 (.next x)
  have hsame : Same s s' := (m1.trans m2).trans m3
  have hread : ∀ c, s'.read c = if c = e then some l2.head? else s.read c := by
    intro c
    rw [r3, r2, r1, hin]
  have hpv : ∀ y, s'.pv y = if y = x then some (.next x) else
      if some y = l2.head? then some e else s.pv y := by
    intro y
    rw [p3, p2, p1]
  refine ⟨s', ?_, ⟨?_, ?_, ?_, ?_, ?_⟩, hsame, ?_⟩
  · unfold State.removeFromList
    simp only [hi, hie, e1, hi', hin', hie', Option.bind_eq_bind, Option.bind_some]
    cases hl2 : l2.head? with
    | none =>
      rw [hl2] at e2
      simp only [Option.some.injEq] at e2
      subst e2
      exact e3
    | some y =>
      rw [hl2] at e2
      simp only at e2 ⊢
      rw [e2]
      exact e3
  · intro b' hb'
    rw [hsame.ky] at hb'
    by_cases hbb : b' = b
    · subst hbb
      simp only [upd, if_true]
      refine seg_append.2 ⟨e, segTo_frame hs1 hnd1 (by simp) ?_ ?_, ?_⟩
      · intro c' _ hne
        rw [hread, if_neg hne]
      · intro y hy
        rw [hpv, if_neg (fun hc : y = x => hxl1 (hc ▸ hy)),
          if_neg (fun hc => hd12 y hy (List.mem_of_mem_head? hc.symm))]
      · have hrd : s'.read e = some l2.head? := by rw [hread, if_pos rfl]
        cases hl2 : l2 with
        | nil => rw [hl2] at hrd; exact hrd
        | cons y ys =>
          rw [hl2] at hrd hsx hnd2 hd12 hxl2
          rw [List.nodup_cons] at hnd2
          refine ⟨hrd, ?_, ?_⟩
          · rw [hpv, if_neg (fun hc : y = x => hxl2 (hc ▸ List.mem_cons_self ..)), hl2]
            simp
          · have hne : ∀ z ∈ y :: ys, Cell.next z ≠ e := by
              intro z hz hc
              rcases hee with rfl | ⟨w, hw, rfl⟩
              · cases hc
              · cases hc
                exact hd12 z hw hz
            refine seg_frame hsx.2.2 ?_ ?_
            · rintro c' (rfl | ⟨z, hz, rfl⟩)
              · rw [hread, if_neg (hne y (List.mem_cons_self ..))]
              · rw [hread, if_neg (hne z (List.mem_cons_of_mem _ hz))]
            · intro z hz
              rw [hpv, if_neg (fun hc : z = x => hxl2 (hc ▸ List.mem_cons_of_mem _ hz)), hl2, if_neg]
              intro hc
              simp only [List.head?_cons, Option.some.injEq] at hc
              exact hnd2.1 (hc ▸ hz)
    · simp only [upd, if_neg hbb]
      have hdis : ∀ z ∈ L b', z ∉ L b := fun z h1 h2 => hbb (h.disj b' b z h1 h2)
      refine seg_frame (h.seg b' hb') ?_ ?_
      · intro c' hc'
        rw [hread, if_neg]
        rintro rfl
        rcases hc' with rfl | ⟨z, hz, rfl⟩
        · rcases hee with he | ⟨w, hw, he⟩
          · cases he; exact hbb rfl
          · cases he
        · rcases hee with he | ⟨w, hw, he⟩
          · cases he
          · cases he
            exact hdis z hz ((hmem z).2 (.inl hw))
      · intro z hz
        rw [hpv, if_neg (fun hc : z = x => hdis z hz (hc ▸ hx)),
          if_neg (fun hc => hdis z hz ((hmem z).2 (.inr (.inr (List.mem_of_mem_head? hc.symm)))))]
  · intro b' hb'
    rw [hsame.ky] at hb'
    have : b' ≠ b := fun hc => hb (hc ▸ hb')
    simp only [upd, if_neg this]
    exact h.dead b' hb'
  · intro b'
    by_cases hbb : b' = b
    · subst hbb
      simp only [upd, if_true]
      rw [List.nodup_append]
      exact ⟨hnd1, hnd2, fun y h1 z h2 hc => hd12 y h1 (hc ▸ h2)⟩
    · simp only [upd, if_neg hbb]
      exact h.nodup b'
  · have hsub : ∀ b' z, z ∈ upd L b (l1 ++ l2) b' → z ∈ L b' := by
      intro b' z hz
      by_cases hbb : b' = b
      · subst hbb
        simp only [upd, if_true] at hz
        rw [hmem]
        rcases List.mem_append.1 hz with hz | hz
        · exact .inl hz
        · exact .inr (.inr hz)
      · simpa only [upd, if_neg hbb] using hz
    intro b1 b2 z h1 h2
    exact h.disj _ _ z (hsub _ _ h1) (hsub _ _ h2)
  · intro y c hy hf
    by_cases hyx : y = x
    · subst hyx
      rw [hpv, if_pos rfl] at hy
      exact (Option.some.inj hy).symm
    · have hyL : ∀ b, y ∉ L b := by
        intro b' hb'
        have := hf b'
        by_cases hbb : b' = b
        · subst hbb
          simp only [upd, if_true, List.mem_append] at this
          rcases (hmem y).1 hb' with h1 | h1 | h1
          · exact this (.inl h1)
          · exact hyx h1
          · exact this (.inr h1)
        · simp only [upd, if_neg hbb] at this
          exact this hb'
      rw [hpv, if_neg hyx,
        if_neg (fun hc => hyL b ((hmem y).2 (.inr (.inr (List.mem_of_mem_head? hc.symm)))))] at hy
      exact h.free y c hy hyL
  · intro y
    rw [pv_isSome, pv_isSome, ← pt_isSome, ← pt_isSome, hsame.pt]

end Persistent
end Tsar
