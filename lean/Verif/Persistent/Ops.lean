import Verif.Persistent.Lemmas

/-!
# Operations on persistent iterators keep lists consistent
-/

namespace Tsar
namespace Persistent

theorem upd_same {α : Type} (f : Nat → α) (i : Nat) (v : α) : upd f i v i = v := by simp [upd]
theorem upd_ne {α : Type} (f : Nat → α) {i j : Nat} (v : α) (h : j ≠ i) : upd f i v j = f j := by
  simp [upd, h]
theorem upd_upd {α : Type} (f : Nat → α) (i : Nat) (v w : α) : upd (upd f i v) i w = upd f i w := by
  funext j; by_cases h : j = i <;> simp [upd, h]
theorem upd_self {α : Type} (f : Nat → α) (i : Nat) : upd f i (f i) = f := by
  funext j; by_cases h : j = i <;> simp [upd, h]

/-- The same iterators exist. -/
def SameIts (s s' : State) : Prop := ∀ y, s'.pv y = none ↔ s.pv y = none

theorem Inv.mem_alive {s : State} {L : Nat → List Nat} (h : Inv s L) {b x : Nat} (hx : x ∈ L b) :
    s.pv x ≠ none := by
  obtain ⟨c, hc, -⟩ := h.valid hx
  simp [hc]

/-- `isValid()` is true if and only if an iterator is in a list. -/
theorem Inv.valid_iff {s : State} {L : Nat → List Nat} (h : Inv s L) {x : Nat} {i : It}
    (hi : s.it x = some i) : i.valid x = true ↔ ∃ b, x ∈ L b := by
  have hp : s.pv x = some i.prev := by simp [State.pv, hi]
  unfold It.valid
  constructor
  · intro hv
    by_cases hc : ∃ b, x ∈ L b
    · exact hc
    · have := h.free x _ hp (fun b hb => hc ⟨b, hb⟩)
      simp [this] at hv
  · rintro ⟨b, hb⟩
    obtain ⟨c, hc, hne⟩ := h.valid hb
    have : c = i.prev := Option.some.inj (hc.symm.trans hp)
    simpa [this] using hne

/-! ### Allocation -/

theorem alloc_obs (s : State) (x : Nat) (p : Option Nat) :
    (∀ c, (s.alloc x p).read c = if c = .next x then some none else s.read c) ∧
    (∀ y, (s.alloc x p).pv y = if y = x then some (.next x) else s.pv y) ∧
    (∀ y, (s.alloc x p).pt y = if y = x then some p else s.pt y) := by
  refine ⟨?_, ?_, ?_⟩
  · rintro (b | y)
    · simp [State.alloc, State.read]
    · by_cases h : y = x <;> simp [State.alloc, State.read, upd, h]
  · intro y
    by_cases h : y = x <;> simp [State.alloc, State.pv, upd, h]
  · intro y
    by_cases h : y = x <;> simp [State.alloc, State.pt, upd, h]

theorem alloc_inv {s : State} {L : Nat → List Nat} (h : Inv s L) {x : Nat} (hx : s.pv x = none)
    (p : Option Nat) : Inv (s.alloc x p) L ∧ (∀ b, x ∉ L b) := by
  have hL : ∀ b, x ∉ L b := fun b hb => h.mem_alive hb hx
  obtain ⟨hr, hp, -⟩ := alloc_obs s x p
  refine ⟨⟨?_, h.dead, h.nodup, h.disj, ?_⟩, hL⟩
  · intro b hb
    refine seg_frame (h.seg b hb) ?_ ?_
    · rintro c' (rfl | ⟨y, hy, rfl⟩)
      · rw [hr, if_neg (by simp)]
      · rw [hr, if_neg]
        intro hc; cases hc; exact hL b hy
    · intro y hy
      rw [hp, if_neg]
      rintro rfl; exact hL b hy
  · intro y c hy hf
    rw [hp] at hy
    split at hy
    · rename_i h'; subst h'; exact (Option.some.inj hy).symm
    · exact h.free y c hy hf

/-- Destruction of an iterator which is in no list. -/
theorem dealloc_inv {s : State} {L : Nat → List Nat} (h : Inv s L) {x : Nat} (hL : ∀ b, x ∉ L b) :
    Inv { s with it := upd s.it x none } L := by
  have hr : ∀ c, c ≠ .next x → ({ s with it := upd s.it x none } : State).read c = s.read c := by
    rintro (b | y) hc
    · rfl
    · have : y ≠ x := fun h => hc (h ▸ rfl)
      simp [State.read, upd, this]
  have hp : ∀ y, y ≠ x → ({ s with it := upd s.it x none } : State).pv y = s.pv y := by
    intro y hy
    simp [State.pv, upd, hy]
  refine ⟨?_, h.dead, h.nodup, h.disj, ?_⟩
  · intro b hb
    refine seg_frame (h.seg b hb) ?_ ?_
    · rintro c' (rfl | ⟨y, hy, rfl⟩)
      · exact hr _ (by simp)
      · refine hr _ ?_
        intro hc; cases hc; exact hL b hy
    · intro y hy
      refine hp y ?_
      rintro rfl; exact hL b hy
  · intro y c hy hf
    by_cases hyx : y = x
    · subst hyx
      simp [State.pv, upd] at hy
    · rw [hp y hyx] at hy
      exact h.free y c hy hf

theorem setPtr_inv {s s' : State} {L : Nat → List Nat} (h : Inv s L) (hr : s'.read = s.read)
    (hp : s'.pv = s.pv) (hk : s'.ky = s.ky) : Inv s' L := by
  refine ⟨?_, fun b hb => h.dead b (hk ▸ hb), h.nodup, h.disj, fun x c hx hf => h.free x c (hp ▸ hx) hf⟩
  intro b hb
  exact seg_frame (h.seg b (hk ▸ hb)) (fun c _ => by rw [hr]) (fun y _ => by rw [hp])

/-- `invalidate()` of an iterator which is in no list changes nothing. -/
theorem invalidate_inv {s : State} {L : Nat → List Nat} (h : Inv s L) {x : Nat} (hL : ∀ b, x ∉ L b)
    (hx : s.pv x ≠ none) : ∃ s', s.invalidate x = some s' ∧ Inv s' L ∧ Same s s' ∧ SameIts s s' := by
  obtain ⟨c, hc⟩ := Option.ne_none_iff_exists'.1 hx
  obtain ⟨s', e, r, p, m⟩ := setPrev_obs hc (.next x)
  have hcx := h.free x c hc hL
  have hp : s'.pv = s.pv := by
    funext y
    rw [p]
    split
    · rename_i hy; subst hy; rw [hc, hcx]
    · rfl
  exact ⟨s', e, setPtr_inv h r hp m.ky, m, fun y => by rw [hp]⟩

/-! ### Buckets -/

theorem drain_inv {s : State} {L : Nat → List Nat} (h : Inv s L) {b fuel : Nat} (hb : s.ky b ≠ none)
    (hf : (L b).length ≤ fuel) :
    ∃ s', s.drain b fuel = some s' ∧ Inv s' (upd L b []) ∧ Same s s' ∧ SameIts s s' := by
  induction fuel generalizing s L with
  | zero =>
    have hL : L b = [] := List.length_eq_zero_iff.1 (Nat.le_zero.1 hf)
    have hrd := seg_read (h.seg b hb)
    rw [hL] at hrd
    simp only [State.read, Option.map_eq_some_iff] at hrd
    obtain ⟨⟨k, o⟩, hk, ho⟩ := hrd
    simp only [List.head?_nil] at ho
    subst ho
    refine ⟨s, by simp [State.drain, hk], ?_, Same.refl _, fun _ => Iff.rfl⟩
    rw [← hL, upd_self]
    exact h
  | succ fuel ih =>
    have hrd := seg_read (h.seg b hb)
    simp only [State.read, Option.map_eq_some_iff] at hrd
    obtain ⟨⟨k, o⟩, hk, ho⟩ := hrd
    simp only at ho
    cases hL : L b with
    | nil =>
      rw [hL] at ho
      simp only [List.head?_nil] at ho
      subst ho
      refine ⟨s, by simp [State.drain, hk], ?_, Same.refl _, fun _ => Iff.rfl⟩
      rw [← hL, upd_self]
      exact h
    | cons x xs =>
      rw [hL] at ho
      simp only [List.head?_cons] at ho
      subst ho
      obtain ⟨s1, e1, i1, m1, n1⟩ := removeFromList_inv h (x := x) (b := b) (hL ▸ List.mem_cons_self ..)
      rw [hL, List.erase_cons_head] at i1
      have hlen : (upd L b xs b).length ≤ fuel := by
        rw [upd_same]
        rw [hL] at hf
        simpa using hf
      obtain ⟨s2, e2, i2, m2, n2⟩ := ih i1 (by rw [m1.ky]; exact hb) hlen
      rw [upd_upd] at i2
      refine ⟨s2, ?_, i2, m1.trans m2, fun y => (n2 y).trans (n1 y)⟩
      simp only [State.drain, hk, e1, e2]

/-- Destruction of a bucket without iterators. -/
theorem killBucket_inv {s : State} {L : Nat → List Nat} (h : Inv s L) {b : Nat} (hL : L b = []) :
    Inv { s with bucket := upd s.bucket b none } L := by
  have hr : ∀ c, c ≠ .head b → ({ s with bucket := upd s.bucket b none } : State).read c = s.read c := by
    rintro (b' | y) hc
    · have : b' ≠ b := fun h => hc (h ▸ rfl)
      simp [State.read, upd, this]
    · rfl
  have hk : ∀ b', b' ≠ b → ({ s with bucket := upd s.bucket b none } : State).ky b' = s.ky b' := by
    intro b' hb'
    simp [State.ky, upd, hb']
  refine ⟨?_, ?_, h.nodup, h.disj, h.free⟩
  · intro b' hb'
    by_cases hbb : b' = b
    · subst hbb
      simp [State.ky, upd] at hb'
    · rw [hk b' hbb] at hb'
      refine seg_frame (h.seg b' hb') ?_ (fun _ _ => rfl)
      rintro c' (rfl | ⟨y, hy, rfl⟩)
      · exact hr _ (by simpa using hbb)
      · exact hr _ (by simp)
  · intro b' hb'
    by_cases hbb : b' = b
    · subst hbb; exact hL
    · rw [hk b' hbb] at hb'
      exact h.dead b' hb'

theorem kill_inv {s : State} {L : Nat → List Nat} (h : Inv s L) {b fuel : Nat} (hb : s.ky b ≠ none)
    (hf : (L b).length ≤ fuel) :
    ∃ s', s.kill fuel b = some s' ∧ Inv s' (upd L b []) ∧ s'.pt = s.pt ∧ s'.place = s.place ∧
      s'.ky = upd s.ky b none ∧ SameIts s s' := by
  obtain ⟨s1, e1, i1, m1, n1⟩ := drain_inv h hb hf
  refine ⟨{ s1 with bucket := upd s1.bucket b none }, by simp [State.kill, e1],
    killBucket_inv i1 (upd_same ..), m1.pt, m1.place, ?_, n1⟩
  rw [← m1.ky]
  funext b'
  by_cases hbb : b' = b <;> simp [State.ky, upd, hbb]

/-- A new bucket at a free address. -/
theorem newBucket_inv {s : State} {L : Nat → List Nat} (h : Inv s L) {b : Nat} (hb : s.ky b = none)
    (k : Nat) : Inv (s.newBucket b k) L ∧ (s.newBucket b k).ky = upd s.ky b (some k) := by
  have hr : ∀ c, (s.newBucket b k).read c = if c = .head b then some none else s.read c := by
    rintro (b' | y)
    · by_cases hbb : b' = b <;> simp [State.newBucket, State.read, upd, hbb]
    · simp [State.newBucket, State.read]
  have hk : (s.newBucket b k).ky = upd s.ky b (some k) := by
    funext b'
    by_cases hbb : b' = b <;> simp [State.newBucket, State.ky, upd, hbb]
  have hL := h.dead b hb
  refine ⟨⟨?_, ?_, h.nodup, h.disj, h.free⟩, hk⟩
  · intro b' hb'
    by_cases hbb : b' = b
    · subst hbb
      rw [hL]
      exact (hr _).trans (if_pos rfl)
    · rw [hk, upd_ne _ _ hbb] at hb'
      refine seg_frame (h.seg b' hb') ?_ (fun _ _ => rfl)
      rintro c' (rfl | ⟨y, hy, rfl⟩)
      · rw [hr, if_neg (by simpa using hbb)]
      · rw [hr, if_neg (by simp)]
  · intro b' hb'
    by_cases hbb : b' = b
    · subst hbb; exact hL
    · rw [hk, upd_ne _ _ hbb] at hb'
      exact h.dead b' hb'

theorem retarget_obs (l : List Nat) {s : State} {c : Cell} (b fuel : Nat) (h : Seg s c l) (hf : l.length ≤ fuel) :
    ∃ s', s.retarget b fuel l.head? = some s' ∧ s'.read = s.read ∧ s'.pv = s.pv ∧
      (∀ y, s'.pt y = if y ∈ l then some (some b) else s.pt y) ∧ s'.ky = s.ky ∧ s'.place = s.place := by
  induction l generalizing s c fuel with
  | nil =>
    refine ⟨s, ?_, rfl, rfl, by simp, rfl, rfl⟩
    cases fuel <;> rfl
  | cons x xs ih =>
    obtain ⟨fuel, rfl⟩ : ∃ f, fuel = f + 1 := ⟨fuel - 1, by simp at hf; omega⟩
    obtain ⟨i, hi, -⟩ := pv_some h.2.1
    have hp : s.pt x = some i.ptr := by simp [State.pt, hi]
    obtain ⟨s1, e1, r1, p1, t1, k1, l1⟩ := setPtr_obs hp (some b)
    have hseg : Seg s1 (.next x) xs := seg_frame h.2.2 (fun c _ => by rw [r1]) (fun y _ => by rw [p1])
    obtain ⟨s2, e2, r2, p2, t2, k2, l2⟩ := ih fuel hseg (by simpa using hf)
    have hrd := seg_read hseg
    simp only [State.read, Option.map_eq_some_iff] at hrd
    obtain ⟨i1, hi1, hn1⟩ := hrd
    refine ⟨s2, ?_, r2.trans r1, p2.trans p1, ?_, k2.trans k1, l2.trans l1⟩
    · simp only [List.head?_cons, State.retarget, e1, Option.bind_eq_bind, Option.bind_some, hi1, hn1]
      exact e2
    · intro y
      rw [t2, t1]
      by_cases h1 : y ∈ xs <;> by_cases h2 : y = x <;> simp [h1, h2]

/-- The list of a bucket is moved to a bucket at a free address. -/
theorem moveBucket_inv {s : State} {L : Nat → List Nat} (h : Inv s L) {k b b' fuel : Nat}
    (hk : s.place k = some b) (hkb : s.ky b = some k) (hb' : s.ky b' = none) (hf : (L b).length ≤ fuel) :
    ∃ s', s.moveBucket fuel k b' = some s' ∧ Inv s' (upd (upd L b' (L b)) b []) ∧
      (∀ y, s'.pt y = if y ∈ L b then some (some b') else s.pt y) ∧ s'.place = upd s.place k (some b') ∧
      s'.ky = upd (upd s.ky b' (some k)) b none ∧ SameIts s s' := by
  have hne : b' ≠ b := by rintro rfl; rw [hkb] at hb'; simp at hb'
  have hseg := h.seg b (by simp [hkb])
  have hrd := seg_read hseg
  simp only [State.read, Option.map_eq_some_iff] at hrd
  obtain ⟨v, hv, hvh⟩ := hrd
  have hvk : v.key = k := by
    have : s.ky b = some v.key := by simp [State.ky, hv]
    exact Option.some.inj (this.symm.trans hkb)
  -- the destination is constructed
  let s0 : State := { s with bucket := upd s.bucket b' (some v) }
  have r0 : ∀ c, s0.read c = if c = .head b' then some (L b).head? else s.read c := by
    rintro (c | y)
    · by_cases hc : c = b'
      · subst hc; simp [s0, State.read, upd, hvh]
      · simp [s0, State.read, upd, hc]
    · simp [s0, State.read]
  have k0 : s0.ky = upd s.ky b' (some k) := by
    funext c
    by_cases hc : c = b' <;> simp [s0, State.ky, upd, hc, hvk]
  have p0 : s0.pv = s.pv := rfl
  have t0 : s0.pt = s.pt := rfl
  have hb0 : s0.read (.head b) = some (L b).head? := by
    rw [r0, if_neg (by simpa using Ne.symm hne)]
    exact seg_read hseg
  obtain ⟨s1, e1, r1, p1, m1⟩ := write_obs hb0 none
  have hL' : L b' = [] := h.dead b' hb'
  have hdis : ∀ c, c ≠ b → ∀ z ∈ L c, z ∉ L b := fun c hc z h1 h2 => hc (h.disj c b z h1 h2)
  -- the first iterator refers to the destination and pointers are updated
  have hmid : ∃ s2, (match v.head with
        | none => some s1
        | some x => (s1.setPrev x (.head b')).bind (fun s => s.retarget b' fuel (some x))) = some s2 ∧
      s2.read = s1.read ∧
      (∀ y, s2.pv y = if some y = (L b).head? then some (.head b') else s.pv y) ∧
      (∀ y, s2.pt y = if y ∈ L b then some (some b') else s.pt y) ∧ s2.ky = s1.ky ∧ s2.place = s1.place ∧
      Seg s2 (.head b') (L b) := by
    have hrb : s1.read (.head b') = some (L b).head? := by
      rw [r1, if_neg (by simpa using hne), r0, if_pos rfl]
    cases hL : L b with
    | nil =>
      rw [hL] at hvh hrb
      simp only [List.head?_nil] at hvh
      rw [hvh]
      refine ⟨s1, rfl, rfl, ?_, ?_, rfl, rfl, hrb⟩
      · intro y; rw [p1, p0]; simp
      · intro y; rw [m1.pt, t0]; simp
    | cons x xs =>
      rw [hL] at hvh hrb hseg
      have hnd := h.nodup b
      rw [hL, List.nodup_cons] at hnd
      simp only [List.head?_cons] at hvh
      rw [hvh]
      have hpx : s1.pv x = some (.head b) := by rw [p1, p0]; exact hseg.2.1
      obtain ⟨s2, e2, r2, p2, m2⟩ := setPrev_obs hpx (.head b')
      have hseg2 : Seg s2 (.head b') (x :: xs) := by
        refine ⟨by rw [r2]; exact hrb, by rw [p2, if_pos rfl], ?_⟩
        refine seg_frame hseg.2.2 ?_ ?_
        · intro c hc
          have : ∃ z, c = .next z := by
            rcases hc with rfl | ⟨z, -, rfl⟩ <;> exact ⟨_, rfl⟩
          obtain ⟨z, rfl⟩ := this
          rw [r2, r1, if_neg (by simp), r0, if_neg (by simp)]
        · intro z hz
          rw [p2, if_neg (by rintro rfl; exact hnd.1 hz), p1, p0]
      obtain ⟨s3, e3, r3, p3, t3, k3, l3⟩ := retarget_obs (x :: xs) b' fuel hseg2 (by rw [hL] at hf; exact hf)
      refine ⟨s3, ?_, r3.trans r2, ?_, ?_, ?_, ?_, ?_⟩
      · simp only [e2, Option.bind_some]
        exact e3
      · intro y
        rw [p3, p2, p1, p0]
        simp
      · intro y
        rw [t3, m2.pt, m1.pt, t0]
      · exact k3.trans m2.ky
      · exact l3.trans m2.place
      · exact seg_frame hseg2 (fun c _ => by rw [r3]) (fun y _ => by rw [p3])
  obtain ⟨s2, e2, r2, p2, t2, k2, l2, hsegb'⟩ := hmid
  have hk2 : s2.ky = upd s.ky b' (some k) := by rw [k2, m1.ky, k0]
  have hread2 : ∀ c, s2.read c = if c = .head b then some none else
      if c = .head b' then some (L b).head? else s.read c := by
    intro c; rw [r2, r1, r0]
  have hinv2 : Inv s2 (upd (upd L b' (L b)) b []) := by
    refine ⟨?_, ?_, ?_, ?_, ?_⟩
    · intro c hc
      rw [hk2] at hc
      by_cases hcb : c = b
      · subst hcb
        rw [upd_same]
        exact (hread2 _).trans (if_pos rfl)
      · rw [upd_ne _ _ hcb]
        by_cases hcb' : c = b'
        · subst hcb'
          rw [upd_same]
          exact hsegb'
        · rw [upd_ne _ _ hcb'] at hc ⊢
          refine seg_frame (h.seg c hc) ?_ ?_
          · rintro c' (rfl | ⟨z, hz, rfl⟩)
            · rw [hread2, if_neg (by simpa using hcb), if_neg (by simpa using hcb')]
            · rw [hread2, if_neg (by simp), if_neg (by simp)]
          · intro z hz
            rw [p2, if_neg]
            intro hz'
            exact hdis c hcb z hz (List.mem_of_mem_head? hz'.symm)
    · intro c hc
      rw [hk2] at hc
      by_cases hcb : c = b
      · subst hcb; exact upd_same ..
      · rw [upd_ne _ _ hcb]
        by_cases hcb' : c = b'
        · subst hcb'; simp [upd_same] at hc
        · rw [upd_ne _ _ hcb'] at hc ⊢
          exact h.dead c hc
    · intro c
      by_cases hcb : c = b
      · subst hcb; rw [upd_same]; exact List.nodup_nil
      · rw [upd_ne _ _ hcb]
        by_cases hcb' : c = b'
        · subst hcb'; rw [upd_same]; exact h.nodup b
        · rw [upd_ne _ _ hcb']; exact h.nodup c
    · have hm : ∀ c z, z ∈ upd (upd L b' (L b)) b [] c → (c = b' ∧ z ∈ L b) ∨ (c ≠ b ∧ c ≠ b' ∧ z ∈ L c) := by
        intro c z hz
        by_cases hcb : c = b
        · subst hcb; rw [upd_same] at hz; simp at hz
        · rw [upd_ne _ _ hcb] at hz
          by_cases hcb' : c = b'
          · subst hcb'; rw [upd_same] at hz; exact .inl ⟨rfl, hz⟩
          · rw [upd_ne _ _ hcb'] at hz; exact .inr ⟨hcb, hcb', hz⟩
      intro c1 c2 z h1 h2
      rcases hm c1 z h1 with ⟨rfl, a1⟩ | ⟨a0, a1, a2⟩ <;> rcases hm c2 z h2 with ⟨rfl, d1⟩ | ⟨d0, d1, d2⟩
      · rfl
      · exact absurd a1 (hdis c2 d0 z d2)
      · exact absurd d1 (hdis c1 a0 z a2)
      · exact h.disj c1 c2 z a2 d2
    · intro y c hy hf
      have hyL : ∀ c, y ∉ L c := by
        intro c hc
        by_cases hcb : c = b
        · subst hcb
          refine hf b' ?_
          rw [upd_ne _ _ hne, upd_same]
          exact hc
        · refine hf c ?_
          have hcb' : c ≠ b' := by rintro rfl; rw [hL'] at hc; simp at hc
          rw [upd_ne _ _ hcb, upd_ne _ _ hcb']
          exact hc
      rw [p2, if_neg (fun hz => hyL b (List.mem_of_mem_head? hz.symm))] at hy
      exact h.free y c hy hyL
  obtain ⟨s3, e3, i3, t3, l3, k3, n3⟩ := kill_inv hinv2 (b := b) (fuel := fuel)
    (by rw [hk2, upd_ne _ _ (Ne.symm hne), hkb]; simp) (by rw [upd_same]; simp)
  rw [upd_upd] at i3
  refine ⟨{ s3 with place := upd s3.place k (some b') }, ?_, ?_, ?_, ?_, ?_, ?_⟩
  · unfold State.moveBucket
    simp only [hk, hv, Option.bind_eq_bind, Option.bind_some]
    have e1' : State.write { s with bucket := upd s.bucket b' (some v) } (.head b) none = some s1 := e1
    rw [e1']
    simp only [Option.bind_some]
    have e2' : (match v.head with
        | none => some s1
        | some x => (s1.setPrev x (.head b')).bind (fun s => s.retarget b' fuel (some x))) = some s2 := e2
    cases hvv : v.head with
    | none =>
      rw [hvv] at e2'
      simp only [Option.some.injEq] at e2'
      subst e2'
      simp only [Option.bind_some, e3]
    | some x =>
      rw [hvv] at e2'
      simp only at e2' ⊢
      obtain ⟨t, ht1, ht2⟩ := Option.bind_eq_some_iff.1 e2'
      rw [ht1]
      simp only [Option.bind_some, ht2, e3]
  · exact setPtr_inv i3 rfl rfl rfl
  · intro y
    change s3.pt y = _
    rw [t3, t2]
  · change upd s3.place k (some b') = _
    rw [l3, l2, m1.place]
  · change s3.ky = _
    rw [k3, hk2]
  · intro y
    refine (n3 y).trans ?_
    rw [pv_isSome, ← pt_isSome, t2, pv_isSome, ← pt_isSome]
    split
    · rename_i hy
      simp only [reduceCtorEq, false_iff]
      rw [pt_isSome, ← pv_isSome]
      exact h.mem_alive hy
    · exact Iff.rfl

end Persistent
end Tsar
