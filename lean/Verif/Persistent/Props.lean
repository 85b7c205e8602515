import Verif.Persistent.Ops

/-!
# Persistent iterators: specification and theorems

Property C30.
-/

namespace Tsar
namespace Persistent

/-! ## Specification -/

/-- What an iterator refers to: nothing, an element which has been removed (or the iterator has been moved
from), the element with the key `k`. -/
inductive Target where
  | null
  | stale
  | elem (k : Nat)
  deriving DecidableEq

/-- Keys in the container and targets of existing iterators. -/
structure Spec where
  has : Nat → Bool
  target : Nat → Option Target

/-- The empty container without iterators. -/
def Spec.init : Spec := ⟨fun _ => false, fun _ => none⟩

/-- A source of a move. -/
def Target.moved : Target → Target
  | .elem _ => .stale
  | t => t

/-- Removal of a key. -/
def Target.erased (k : Nat) (t : Target) : Target := if t = .elem k then .stale else t

/-- Effect of an operation. -/
def Spec.step (σ : Spec) : Op → Spec
  | .insert k _ => { σ with has := upd σ.has k true }
  | .grow _ _ => σ
  | .erase k => ⟨upd σ.has k false, fun x => (σ.target x).map (Target.erased k)⟩
  | .null x => { σ with target := upd σ.target x (some .null) }
  | .create x k => { σ with target := upd σ.target x (some (.elem k)) }
  | .copy x y => { σ with target := upd σ.target x (σ.target y) }
  | .move x y => { σ with target := upd (upd σ.target x (σ.target y)) y ((σ.target y).map Target.moved) }
  | .assign x y => { σ with target := upd σ.target x (σ.target y) }
  | .assignMove x y =>
    { σ with target := upd (upd σ.target x (σ.target y)) y ((σ.target y).map Target.moved) }
  | .assignKey x k => { σ with target := upd σ.target x (some (.elem k)) }
  | .destroy x => { σ with target := upd σ.target x none }

/-- The state after a history. -/
def Spec.run (σ : Spec) (ops : List Op) : Spec := ops.foldl Spec.step σ

/-- The restriction on assignments: an iterator to an element is assigned only to an iterator which has
never referred to an element, to an iterator to the same element or to an invalid iterator which remembers
another bucket. -/
def AssignOK (s : State) (σ : Spec) (x y : Nat) : Prop :=
  σ.target x ≠ none ∧ σ.target y ≠ none ∧
  ∀ k, σ.target y = some (.elem k) → σ.target x = some .null ∨ σ.target x = some (.elem k) ∨
    (σ.target x = some .stale ∧ (s.it x).map (·.ptr) ≠ (s.it y).map (·.ptr))

/-- An operation may be executed: objects exist if they are used and do not exist if they are
constructed, a key is found if it is used. Buckets are placed at arbitrary free addresses. -/
def Legal (s : State) (σ : Spec) : Op → Prop
  | .insert k b => σ.has k = false ∧ s.bucket b = none
  | .grow k b => σ.has k = true ∧ s.bucket b = none
  | .erase k => σ.has k = true
  | .null x => σ.target x = none
  | .create x k => σ.target x = none ∧ σ.has k = true
  | .copy x y => σ.target x = none ∧ σ.target y ≠ none
  | .move x y => σ.target x = none ∧ σ.target y ≠ none
  | .assign x y => AssignOK s σ x y
  | .assignMove x y => AssignOK s σ x y
  | .assignKey x k => σ.target x ≠ none ∧ σ.has k = true
  | .destroy x => σ.target x ≠ none

/-- A history of legal operations. -/
def LegalRun (fuel : Nat) : State → Spec → List Op → Prop
  | _, _, [] => True
  | s, σ, o :: os => Legal s σ o ∧ ∀ s', s.step fuel o = some s' → LegalRun fuel s' (σ.step o) os

/-! ## Refinement -/

/-- The model state and the specification agree; there are at most `n` iterators. -/
structure R (n : Nat) (s : State) (σ : Spec) (L : Nat → List Nat) : Prop where
  inv : Inv s L
  has : ∀ k, σ.has k = true ↔ s.place k ≠ none
  place : ∀ k b, s.place k = some b ↔ s.ky b = some k
  alive : ∀ x, σ.target x = none ↔ s.pv x = none
  ptr : ∀ x b, x ∈ L b → s.pt x = some (some b)
  elem : ∀ x k, σ.target x = some (.elem k) ↔ ∃ b, x ∈ L b ∧ s.ky b = some k
  null : ∀ x, σ.target x = some .null → s.pt x = some none
  bound : ∃ A : List Nat, A.length ≤ n ∧ ∀ x, s.pv x ≠ none → x ∈ A

theorem R.len {n : Nat} {s : State} {σ : Spec} {L : Nat → List Nat} (h : R n s σ L) (b : Nat) :
    (L b).length ≤ n := by
  obtain ⟨A, hA, hs⟩ := h.bound
  have : (L b).Subperm A := (h.inv.nodup b).subperm (fun x hx => hs x (h.inv.mem_alive hx))
  exact Nat.le_trans this.length_le hA

theorem R.bucket_free {n : Nat} {s : State} {σ : Spec} {L : Nat → List Nat} (_h : R n s σ L) {b : Nat}
    (hb : s.bucket b = none) : s.ky b = none := by simp [State.ky, hb]

theorem R.find {n : Nat} {s : State} {σ : Spec} {L : Nat → List Nat} (h : R n s σ L) {k : Nat}
    (hk : σ.has k = true) : ∃ b, s.place k = some b ∧ s.ky b = some k := by
  obtain ⟨b, hb⟩ := Option.ne_none_iff_exists'.1 ((h.has k).1 hk)
  exact ⟨b, hb, (h.place k b).1 hb⟩

/-- An iterator in a list refers to an element. -/
theorem R.mem {n : Nat} {s : State} {σ : Spec} {L : Nat → List Nat} (h : R n s σ L) {x b : Nat}
    (hx : x ∈ L b) : ∃ k, s.ky b = some k ∧ σ.target x = some (.elem k) := by
  obtain ⟨k, hk⟩ := Option.ne_none_iff_exists'.1 (h.inv.alive hx)
  exact ⟨k, hk, (h.elem x k).2 ⟨b, hx, hk⟩⟩

theorem R.not_mem {n : Nat} {s : State} {σ : Spec} {L : Nat → List Nat} (h : R n s σ L) {x : Nat}
    (hx : ∀ k, σ.target x ≠ some (.elem k)) (b : Nat) : x ∉ L b := by
  intro hb
  obtain ⟨k, -, hk⟩ := h.mem hb
  exact hx k hk

theorem R.bucket_inj {n : Nat} {s : State} {σ : Spec} {L : Nat → List Nat} (h : R n s σ L) {b b' k : Nat}
    (h1 : s.ky b = some k) (h2 : s.ky b' = some k) : b = b' := by
  have a := (h.place k b).2 h1
  have c := (h.place k b').2 h2
  rw [a] at c
  exact Option.some.inj c

theorem R.it {n : Nat} {s : State} {σ : Spec} {L : Nat → List Nat} (h : R n s σ L) {x : Nat}
    (hx : σ.target x ≠ none) : ∃ i, s.it x = some i ∧ s.pt x = some i.ptr ∧ s.pv x = some i.prev := by
  have : s.it x ≠ none := fun hc => hx ((h.alive x).2 (pv_isSome.2 hc))
  obtain ⟨i, hi⟩ := Option.ne_none_iff_exists'.1 this
  exact ⟨i, hi, by simp [State.pt, hi], by simp [State.pv, hi]⟩

theorem R.init : R 0 State.init Spec.init (fun _ => []) := by
  refine ⟨⟨?_, fun _ _ => rfl, fun _ => List.nodup_nil, ?_, ?_⟩, ?_, ?_, ?_, ?_, ?_, ?_, ⟨[], Nat.le_refl _, ?_⟩⟩ <;>
    simp [State.init, Spec.init, State.ky, State.pv]

/-- A general form of a step which changes lists but not buckets: targets are described by lists. -/
theorem R.update {n n' : Nat} {s s' : State} {σ : Spec} {L L' : Nat → List Nat} (h : R n s σ L)
    (t' : Nat → Option Target) (hinv : Inv s' L') (hk : s'.ky = s.ky) (hpl : s'.place = s.place)
    (halive : ∀ x, t' x = none ↔ s'.pv x = none)
    (hptr : ∀ x b, x ∈ L' b → s'.pt x = some (some b))
    (helem : ∀ x k, t' x = some (.elem k) ↔ ∃ b, x ∈ L' b ∧ s.ky b = some k)
    (hnull : ∀ x, t' x = some .null → s'.pt x = some none)
    (hb : ∃ A : List Nat, A.length ≤ n' ∧ ∀ x, s'.pv x ≠ none → x ∈ A) :
    R n' s' { σ with target := t' } L' :=
  ⟨hinv, fun k => by rw [hpl]; exact h.has k, fun k b => by rw [hpl, hk]; exact h.place k b, halive, hptr,
    fun x k => by rw [hk]; exact helem x k, hnull, hb⟩

theorem R.grow_bound {n : Nat} {s s' : State} {σ : Spec} {L : Nat → List Nat} (h : R n s σ L) (x : Nat)
    (hs : ∀ y, y ≠ x → s'.pv y ≠ none → s.pv y ≠ none) :
    ∃ A : List Nat, A.length ≤ n + 1 ∧ ∀ y, s'.pv y ≠ none → y ∈ A := by
  obtain ⟨A, hA, hm⟩ := h.bound
  refine ⟨x :: A, by simpa using hA, ?_⟩
  intro y hy
  by_cases hyx : y = x
  · exact hyx ▸ List.mem_cons_self ..
  · exact List.mem_cons_of_mem _ (hm y (hs y hyx hy))

theorem R.same_bound {n : Nat} {s s' : State} {σ : Spec} {L : Nat → List Nat} (h : R n s σ L)
    (hs : ∀ y, s'.pv y ≠ none → s.pv y ≠ none) :
    ∃ A : List Nat, A.length ≤ n + 1 ∧ ∀ y, s'.pv y ≠ none → y ∈ A :=
  h.grow_bound 0 (fun y _ => hs y)

/-! ### Lists after an addition and a removal -/

theorem mem_add {L : Nat → List Nat} {b x y c : Nat} :
    y ∈ upd L b (x :: L b) c ↔ (y = x ∧ c = b) ∨ y ∈ L c := by
  by_cases hc : c = b
  · subst hc; simp [upd_same]
  · simp [upd_ne _ _ hc, hc]

theorem mem_remove {s : State} {L : Nat → List Nat} (h : Inv s L) {b x y c : Nat} (hx : x ∈ L b) :
    y ∈ upd L b ((L b).erase x) c ↔ y ≠ x ∧ y ∈ L c := by
  by_cases hc : c = b
  · subst hc
    rw [upd_same, (h.nodup c).mem_erase_iff]
  · rw [upd_ne _ _ hc]
    constructor
    · intro hy
      refine ⟨?_, hy⟩
      rintro rfl
      exact hc (h.disj _ _ _ hy hx)
    · exact fun hy => hy.2

/-! ### Steps of iterators -/

/-- An iterator becomes an iterator to a bucket. -/
theorem R.attach {n : Nat} {s s1 : State} {σ : Spec} {L : Nat → List Nat} (h : R n s σ L) {x b k : Nat}
    (hinv : Inv s1 L) (hx : ∀ b, x ∉ L b) (hk : s1.ky = s.ky) (hpl : s1.place = s.place)
    (hpt : ∀ y, s1.pt y = if y = x then some (some b) else s.pt y)
    (hpv : ∀ y, y ≠ x → (s1.pv y = none ↔ s.pv y = none))
    (hb : s.ky b = some k) :
    ∃ s', s1.addToList x = some s' ∧
      R (n + 1) s' { σ with target := upd σ.target x (some (.elem k)) } (upd L b (x :: L b)) := by
  obtain ⟨s', e, i, m, nn⟩ := addToList_inv hinv hx (by rw [hpt, if_pos rfl]) (by rw [hk, hb]; simp)
  have hxa : s'.pv x ≠ none := i.mem_alive (b := b) (mem_add.2 (.inl ⟨rfl, rfl⟩))
  refine ⟨s', e, h.update _ i (m.ky.trans hk) (m.place.trans hpl) ?_ ?_ ?_ ?_ ?_⟩
  · intro y
    by_cases hyx : y = x
    · subst hyx
      rw [upd_same]
      simp [hxa]
    · rw [upd_ne _ _ hyx, h.alive, nn, hpv y hyx]
  · intro y c hy
    rw [m.pt, hpt]
    rcases mem_add.1 hy with ⟨rfl, rfl⟩ | hyc
    · rw [if_pos rfl]
    · rw [if_neg (by rintro rfl; exact hx c hyc)]
      exact h.ptr y c hyc
  · intro y k'
    by_cases hyx : y = x
    · subst hyx
      rw [upd_same]
      constructor
      · intro he
        cases he
        exact ⟨b, mem_add.2 (.inl ⟨rfl, rfl⟩), hb⟩
      · rintro ⟨c, hc, hck⟩
        rcases mem_add.1 hc with ⟨-, rfl⟩ | hc
        · rw [hb] at hck
          rw [Option.some.inj hck]
        · exact absurd hc (hx c)
    · rw [upd_ne _ _ hyx, h.elem]
      constructor
      · rintro ⟨c, hc, hck⟩; exact ⟨c, mem_add.2 (.inr hc), hck⟩
      · rintro ⟨c, hc, hck⟩
        rcases mem_add.1 hc with ⟨hc, -⟩ | hc
        · exact absurd hc hyx
        · exact ⟨c, hc, hck⟩
  · intro y hy
    by_cases hyx : y = x
    · subst hyx
      rw [upd_same] at hy
      simp at hy
    · rw [upd_ne _ _ hyx] at hy
      rw [m.pt, hpt, if_neg hyx]
      exact h.null y hy
  · refine h.grow_bound x (fun y hyx hy hc => hy ?_)
    rw [nn, hpv y hyx]
    exact hc

/-- An iterator in a list is detached. -/
theorem R.detach {n : Nat} {s s1 : State} {σ : Spec} {L : Nat → List Nat} (h : R n s σ L) {x b : Nat} {t : Target}
    (hx : x ∈ L b) (ht : ∀ k, t ≠ .elem k) (hinv : Inv s1 L) (hk : s1.ky = s.ky) (hpl : s1.place = s.place)
    (hpt : ∀ y, y ≠ x → s1.pt y = s.pt y) (hpx : t = .null → s1.pt x = some none)
    (hpv : ∀ y, s1.pv y = none ↔ s.pv y = none) :
    ∃ s', s1.removeFromList x = some s' ∧
      R (n + 1) s' { σ with target := upd σ.target x (some t) } (upd L b ((L b).erase x)) := by
  obtain ⟨s', e, i, m, nn⟩ := removeFromList_inv hinv hx
  refine ⟨s', e, h.update _ i (m.ky.trans hk) (m.place.trans hpl) ?_ ?_ ?_ ?_ ?_⟩
  · intro y
    rw [nn, hpv]
    by_cases hyx : y = x
    · subst hyx
      rw [upd_same]
      simp [h.inv.mem_alive hx]
    · rw [upd_ne _ _ hyx, h.alive]
  · intro y c hy
    obtain ⟨hyx, hy⟩ := (mem_remove h.inv hx).1 hy
    rw [m.pt, hpt y hyx]
    exact h.ptr y c hy
  · intro y k'
    by_cases hyx : y = x
    · subst hyx
      rw [upd_same]
      constructor
      · intro he
        exact absurd (Option.some.inj he) (ht k')
      · rintro ⟨c, hc, -⟩
        exact absurd rfl ((mem_remove h.inv hx).1 hc).1
    · rw [upd_ne _ _ hyx, h.elem]
      constructor
      · rintro ⟨c, hc, hck⟩; exact ⟨c, (mem_remove h.inv hx).2 ⟨hyx, hc⟩, hck⟩
      · rintro ⟨c, hc, hck⟩; exact ⟨c, ((mem_remove h.inv hx).1 hc).2, hck⟩
  · intro y hy
    by_cases hyx : y = x
    · subst hyx
      rw [upd_same] at hy
      rw [m.pt]
      exact hpx (Option.some.inj hy)
    · rw [upd_ne _ _ hyx] at hy
      rw [m.pt, hpt y hyx]
      exact h.null y hy
  · refine h.same_bound (fun y hy hc => hy ?_)
    rw [nn, hpv]
    exact hc

/-- An iterator which is in no list stays invalid. -/
theorem R.idle {n : Nat} {s s' : State} {σ : Spec} {L : Nat → List Nat} (h : R n s σ L) {x : Nat} {t : Target}
    (hx : ∀ b, x ∉ L b) (ht : ∀ k, t ≠ .elem k) (hinv : Inv s' L) (hk : s'.ky = s.ky) (hpl : s'.place = s.place)
    (hpt : ∀ y, y ≠ x → s'.pt y = s.pt y) (hpx : t = .null → s'.pt x = some none)
    (hpv : ∀ y, y ≠ x → (s'.pv y = none ↔ s.pv y = none)) (hxa : s'.pv x ≠ none) :
    R (n + 1) s' { σ with target := upd σ.target x (some t) } L := by
  refine h.update _ hinv hk hpl ?_ ?_ ?_ ?_ ?_
  · intro y
    by_cases hyx : y = x
    · subst hyx
      rw [upd_same]
      simp [hxa]
    · rw [upd_ne _ _ hyx, h.alive, hpv y hyx]
  · intro y c hy
    rw [hpt y (by rintro rfl; exact hx c hy)]
    exact h.ptr y c hy
  · intro y k'
    by_cases hyx : y = x
    · subst hyx
      rw [upd_same]
      constructor
      · intro he
        exact absurd (Option.some.inj he) (ht k')
      · rintro ⟨c, hc, -⟩
        exact absurd hc (hx c)
    · rw [upd_ne _ _ hyx, h.elem]
  · intro y hy
    by_cases hyx : y = x
    · subst hyx
      rw [upd_same] at hy
      exact hpx (Option.some.inj hy)
    · rw [upd_ne _ _ hyx] at hy
      rw [hpt y hyx]
      exact h.null y hy
  · exact h.grow_bound x (fun y hyx hy hc => hy ((hpv y hyx).2 hc))

theorem R.mono {n m : Nat} {s : State} {σ : Spec} {L : Nat → List Nat} (h : R n s σ L) (hnm : n ≤ m) :
    R m s σ L := by
  obtain ⟨A, hA, hm⟩ := h.bound
  exact ⟨h.inv, h.has, h.place, h.alive, h.ptr, h.elem, h.null, A, Nat.le_trans hA hnm, hm⟩

/-- A legal operation is executed without undefined behaviour and refines the specification. -/
theorem R.assignFrom {n : Nat} {s : State} {σ : Spec} {L : Nat → List Nat} (h : R n s σ L) {x y : Nat}
    (hok : AssignOK s σ x y) {i : It} (hi : s.it y = some i) :
    ∃ s' L', s.assignFrom x (i.valid y) i.ptr = some s' ∧
      R (n + 1) s' { σ with target := upd σ.target x (σ.target y) } L' := by
  obtain ⟨hx, hy, hr⟩ := hok
  obtain ⟨j, hj, hjp, hjv⟩ := h.it hx
  have hip : s.pt y = some i.ptr := by simp [State.pt, hi]
  by_cases hv : ∃ b, y ∈ L b
  · obtain ⟨b, hb⟩ := hv
    obtain ⟨k, hk, htk⟩ := h.mem hb
    have hval : i.valid y = true := (h.inv.valid_iff hi).2 ⟨b, hb⟩
    have hib : i.ptr = some b := Option.some.inj (hip.symm.trans (h.ptr y b hb))
    rw [htk]
    have hcase : (∀ k', σ.target x ≠ some (.elem k')) ∧ j.ptr ≠ i.ptr ∨ σ.target x = some (.elem k) := by
      rcases hr k htk with hn | he | ⟨hs, hne⟩
      · refine .inl ⟨by rw [hn]; simp, ?_⟩
        rw [Option.some.inj (hjp.symm.trans (h.null x hn)), hib]
        simp
      · exact .inr he
      · refine .inl ⟨by rw [hs]; simp, fun hc => hne ?_⟩
        rw [hj, hi]
        simp [hc]
    rcases hcase with ⟨hn, hjn⟩ | he
    · obtain ⟨s1, e1, r1, p1, t1, k1, l1⟩ := setPtr_obs hjp i.ptr
      obtain ⟨s', e, hR⟩ := h.attach (b := b) (k := k) (setPtr_inv h.inv r1 p1 k1)
        (h.not_mem hn) k1 l1 (by rw [← hib]; exact t1)
        (fun y _ => by rw [p1]) hk
      refine ⟨s', _, ?_, hR⟩
      simp only [State.assignFrom, hj, Option.bind_eq_bind, Option.bind_some, hval, if_true, ne_eq, hjn,
        not_false_eq_true, e1, e]
    · obtain ⟨b', hb', hkb'⟩ := (h.elem x k).1 he
      have hbb := h.bucket_inj hk hkb'
      subst hbb
      have hjb : j.ptr = some b := Option.some.inj (hjp.symm.trans (h.ptr x b hb'))
      refine ⟨s, L, ?_, ?_⟩
      · simp [State.assignFrom, hj, hval, hjb, hib]
      · rw [← he, upd_self]
        exact h.mono (Nat.le_succ _)
  · have hval : i.valid y = false := by
      cases hc : i.valid y with
      | false => rfl
      | true => exact absurd ((h.inv.valid_iff hi).1 hc) hv
    obtain ⟨t, ht⟩ := Option.ne_none_iff_exists'.1 hy
    have htn : ∀ k, t ≠ .elem k := by
      rintro k rfl
      obtain ⟨b, hb, -⟩ := (h.elem y k).1 ht
      exact hv ⟨b, hb⟩
    have htp : t = .null → i.ptr = none := by
      rintro rfl
      exact Option.some.inj (hip.symm.trans (h.null y ht))
    rw [ht]
    obtain ⟨s1, e1, r1, p1, t1, k1, l1⟩ := setPtr_obs hjp i.ptr
    have hinv1 := setPtr_inv h.inv r1 p1 k1
    by_cases hxv : ∃ b, x ∈ L b
    · obtain ⟨b, hb⟩ := hxv
      have hjval : j.valid x = true := (h.inv.valid_iff hj).2 ⟨b, hb⟩
      obtain ⟨s', e, hR⟩ := h.detach hb htn hinv1 k1 l1 (fun z hz => by rw [t1, if_neg hz])
        (fun hn => by rw [t1, if_pos rfl, htp hn]) (fun z => by rw [p1])
      refine ⟨s', _, ?_, hR⟩
      simp [State.assignFrom, hj, hval, e1, hjval, e]
    · have hjval : j.valid x = false := by
        cases hc : j.valid x with
        | false => rfl
        | true => exact absurd ((h.inv.valid_iff hj).1 hc) hxv
      have hxL : ∀ b, x ∉ L b := fun b hb => hxv ⟨b, hb⟩
      have hxa : s1.pv x ≠ none := by rw [p1, hjv]; simp
      obtain ⟨s', e, i', m, nn⟩ := invalidate_inv hinv1 hxL hxa
      refine ⟨s', L, ?_, h.idle hxL htn i' (m.ky.trans k1) (m.place.trans l1) ?_ ?_ ?_ ?_⟩
      · simp [State.assignFrom, hj, hval, e1, hjval, e]
      · intro z hz
        rw [m.pt, t1, if_neg hz]
      · intro hn
        rw [m.pt, t1, if_pos rfl, htp hn]
      · intro z _
        rw [nn, p1]
      · rw [Ne, nn]
        exact hxa

/-- The source of a move becomes invalid. -/
theorem R.moveFrom {n : Nat} {s : State} {σ : Spec} {L : Nat → List Nat} (h : R n s σ L) {y k : Nat}
    (hy : σ.target y = some (.elem k)) :
    ∃ s' L', s.removeFromList y = some s' ∧
      R (n + 1) s' { σ with target := upd σ.target y (some .stale) } L' := by
  obtain ⟨b, hb, -⟩ := (h.elem y k).1 hy
  obtain ⟨s', e, hR⟩ := h.detach (t := .stale) hb (by simp) h.inv rfl rfl (fun _ _ => rfl) (by simp)
    (fun _ => Iff.rfl)
  exact ⟨s', _, e, hR⟩

/-- Every legal operation is executed without undefined behaviour and refines the specification. -/
theorem R.step {n fuel : Nat} {s : State} {σ : Spec} {L : Nat → List Nat} (h : R n s σ L) (o : Op)
    (hl : Legal s σ o) (hf : n ≤ fuel) :
    ∃ s' L', s.step fuel o = some s' ∧ R (n + 2) s' (σ.step o) L' := by
  cases o with
  | insert k b =>
    obtain ⟨hk, hb⟩ := hl
    have hb := h.bucket_free hb
    obtain ⟨hi, hky⟩ := newBucket_inv h.inv hb k
    have hnk : s.place k = none := by
      by_contra hc
      have := (h.has k).2 hc
      rw [hk] at this
      simp at this
    refine ⟨_, L, rfl, hi, ?_, ?_, h.alive, h.ptr, ?_, h.null, ?_⟩
    · intro k'
      change upd σ.has k true k' = true ↔ upd s.place k (some b) k' ≠ none
      by_cases hkk : k' = k
      · subst hkk; simp [upd_same]
      · rw [upd_ne _ _ hkk, upd_ne _ _ hkk, h.has]
    · intro k' b'
      rw [hky]
      change upd s.place k (some b) k' = some b' ↔ _
      by_cases hkk : k' = k
      · subst hkk
        rw [upd_same]
        by_cases hbb : b' = b
        · subst hbb; simp [upd_same]
        · rw [upd_ne _ _ hbb, ← h.place, hnk]
          simp [Ne.symm hbb]
      · rw [upd_ne _ _ hkk]
        by_cases hbb : b' = b
        · subst hbb
          rw [upd_same, h.place, hb]
          simp [Ne.symm hkk]
        · rw [upd_ne _ _ hbb, h.place]
    · intro x k'
      change σ.target x = _ ↔ _
      rw [h.elem, hky]
      refine exists_congr fun c => and_congr_right fun hc => ?_
      have : c ≠ b := by rintro rfl; exact h.inv.alive hc hb
      rw [upd_ne _ _ this]
    · exact (h.mono (Nat.le_add_right n 2)).bound
  | grow k b =>
    obtain ⟨hk, hb⟩ := hl
    have hb := h.bucket_free hb
    obtain ⟨b0, hp0, hk0⟩ := h.find hk
    obtain ⟨s', e, hi, ht, hp, hky, hn⟩ := moveBucket_inv h.inv hp0 hk0 hb
      (Nat.le_trans (h.len b0) hf)
    have hne : b ≠ b0 := by rintro rfl; rw [hk0] at hb; simp at hb
    have hm : ∀ c z, z ∈ upd (upd L b (L b0)) b0 [] c ↔
        (c = b ∧ z ∈ L b0) ∨ (c ≠ b0 ∧ c ≠ b ∧ z ∈ L c) := by
      intro c z
      by_cases hc0 : c = b0
      · subst hc0; simp [upd_same, Ne.symm hne]
      · rw [upd_ne _ _ hc0]
        by_cases hcb : c = b
        · subst hcb; simp [upd_same]
        · simp [upd_ne _ _ hcb, hcb, hc0]
    refine ⟨s', _, e, hi, ?_, ?_, ?_, ?_, ?_, ?_, ?_⟩
    · intro k'
      change σ.has k' = true ↔ _
      rw [hp, h.has]
      by_cases hkk : k' = k
      · subst hkk; simp [upd_same, hp0]
      · rw [upd_ne _ _ hkk]
    · intro k' b'
      rw [hp, hky]
      by_cases hkk : k' = k
      · subst hkk
        rw [upd_same]
        by_cases hb0 : b' = b0
        · subst hb0; simp [upd_same, hne]
        · rw [upd_ne _ _ hb0]
          by_cases hbb : b' = b
          · subst hbb; simp [upd_same]
          · rw [upd_ne _ _ hbb, ← h.place, hp0]
            simp [Ne.symm hbb, Ne.symm hb0]
      · rw [upd_ne _ _ hkk]
        by_cases hb0 : b' = b0
        · subst hb0
          rw [upd_same, h.place, hk0]
          simp [Ne.symm hkk]
        · rw [upd_ne _ _ hb0]
          by_cases hbb : b' = b
          · subst hbb
            rw [upd_same, h.place, hb]
            simp [Ne.symm hkk]
          · rw [upd_ne _ _ hbb, h.place]
    · intro x
      change σ.target x = none ↔ _
      rw [hn, h.alive]
    · intro x c hx
      rw [ht]
      rcases (hm c x).1 hx with ⟨rfl, hx0⟩ | ⟨h0, -, hx⟩
      · rw [if_pos hx0]
      · rw [if_neg (fun hc => h0 (h.inv.disj _ _ x hx hc))]
        exact h.ptr x c hx
    · intro x k'
      change σ.target x = _ ↔ _
      rw [h.elem, hky]
      constructor
      · rintro ⟨c, hc, hck⟩
        by_cases hc0 : c = b0
        · subst hc0
          refine ⟨b, (hm b x).2 (.inl ⟨rfl, hc⟩), ?_⟩
          rw [upd_ne _ _ hne, upd_same, ← hk0, hck]
        · have hcb : c ≠ b := by rintro rfl; exact h.inv.alive hc hb
          refine ⟨c, (hm c x).2 (.inr ⟨hc0, hcb, hc⟩), ?_⟩
          rw [upd_ne _ _ hc0, upd_ne _ _ hcb, hck]
      · rintro ⟨c, hc, hck⟩
        rcases (hm c x).1 hc with ⟨rfl, hx⟩ | ⟨h0, h1, hx⟩
        · refine ⟨b0, hx, ?_⟩
          rw [upd_ne _ _ hne, upd_same] at hck
          rw [hk0, hck]
        · rw [upd_ne _ _ h0, upd_ne _ _ h1] at hck
          exact ⟨c, hx, hck⟩
    · intro x hx
      rw [ht, if_neg, h.null x hx]
      intro hc
      obtain ⟨k', -, hk'⟩ := h.mem hc
      have hx : σ.target x = some .null := hx
      rw [hx] at hk'
      simp at hk'
    · obtain ⟨A, hA, hm⟩ := h.bound
      exact ⟨A, Nat.le_trans hA (Nat.le_add_right n 2), fun x hx => hm x (fun hc => hx ((hn x).2 hc))⟩
  | erase k =>
    obtain ⟨b, hp0, hk0⟩ := h.find hl
    obtain ⟨s1, e, hi, ht, hp, hky, hn⟩ := kill_inv h.inv (b := b) (fuel := fuel) (by rw [hk0]; simp)
      (Nat.le_trans (h.len b) hf)
    have hm : ∀ c z, z ∈ upd L b [] c ↔ c ≠ b ∧ z ∈ L c := by
      intro c z
      by_cases hcb : c = b
      · subst hcb; simp [upd_same]
      · simp [upd_ne _ _ hcb, hcb]
    refine ⟨{ s1 with place := upd s1.place k none }, upd L b [],
      by simp [State.step, State.erase, hp0, e], setPtr_inv hi rfl rfl rfl, ?_, ?_, ?_, ?_, ?_, ?_, ?_⟩
    · intro k'
      change upd σ.has k false k' = true ↔ upd s1.place k none k' ≠ none
      rw [hp]
      by_cases hkk : k' = k
      · subst hkk; simp [upd_same]
      · rw [upd_ne _ _ hkk, upd_ne _ _ hkk, h.has]
    · intro k' b'
      change upd s1.place k none k' = some b' ↔ s1.ky b' = some k'
      rw [hp, hky]
      by_cases hkk : k' = k
      · subst hkk
        rw [upd_same]
        by_cases hbb : b' = b
        · subst hbb; simp [upd_same]
        · rw [upd_ne _ _ hbb, ← h.place, hp0]
          simp [Ne.symm hbb]
      · rw [upd_ne _ _ hkk]
        by_cases hbb : b' = b
        · subst hbb
          rw [upd_same, h.place, hk0]
          simp [Ne.symm hkk]
        · rw [upd_ne _ _ hbb, h.place]
    · intro x
      change (σ.target x).map (Target.erased k) = none ↔ s1.pv x = none
      rw [hn, ← h.alive]
      simp
    · intro x c hx
      change s1.pt x = _
      rw [ht]
      exact h.ptr x c ((hm c x).1 hx).2
    · intro x k'
      change (σ.target x).map (Target.erased k) = _ ↔ ∃ b', _ ∧ s1.ky b' = some k'
      rw [hky]
      constructor
      · intro he
        rw [Option.map_eq_some_iff] at he
        obtain ⟨t, htx, hte⟩ := he
        unfold Target.erased at hte
        split at hte
        · simp at hte
        · rename_i hne
          subst hte
          obtain ⟨c, hc, hck⟩ := (h.elem x k').1 htx
          have hcb : c ≠ b := by
            rintro rfl
            rw [hk0] at hck
            exact hne (by rw [Option.some.inj hck])
          exact ⟨c, (hm c x).2 ⟨hcb, hc⟩, by rw [upd_ne _ _ hcb, hck]⟩
      · rintro ⟨c, hc, hck⟩
        obtain ⟨hcb, hc⟩ := (hm c x).1 hc
        rw [upd_ne _ _ hcb] at hck
        rw [(h.elem x k').2 ⟨c, hc, hck⟩]
        have : k' ≠ k := by
          rintro rfl
          exact hcb (h.bucket_inj hck hk0)
        simp [Target.erased, this]
    · intro x hx
      change s1.pt x = _
      rw [ht]
      have hx : (σ.target x).map (Target.erased k) = some .null := hx
      rw [Option.map_eq_some_iff] at hx
      obtain ⟨t, htx, hte⟩ := hx
      unfold Target.erased at hte
      split at hte
      · simp at hte
      · subst hte
        exact h.null x htx
    · obtain ⟨A, hA, hm⟩ := h.bound
      exact ⟨A, Nat.le_trans hA (Nat.le_add_right n 2), fun x hx => hm x (fun hc => hx ((hn x).2 hc))⟩
  | null x =>
    have hx : s.pv x = none := (h.alive x).1 hl
    obtain ⟨hi, hL⟩ := alloc_inv h.inv hx none
    obtain ⟨-, hp, ht⟩ := alloc_obs s x none
    refine ⟨_, L, rfl, (h.idle (t := .null) hL (by simp) hi rfl rfl (fun y hy => by rw [ht, if_neg hy])
      (fun _ => by rw [ht, if_pos rfl]) (fun y hy => by rw [hp, if_neg hy]) (by rw [hp, if_pos rfl]; simp)).mono
      (Nat.le_succ _)⟩
  | create x k =>
    obtain ⟨hx, hk⟩ := hl
    have hx : s.pv x = none := (h.alive x).1 hx
    obtain ⟨b, hp0, hk0⟩ := h.find hk
    obtain ⟨hi, hL⟩ := alloc_inv h.inv hx (some b)
    obtain ⟨-, hp, ht⟩ := alloc_obs s x (some b)
    obtain ⟨s', e, hR⟩ := h.attach hi hL rfl rfl ht (fun y hy => by rw [hp, if_neg hy]) hk0
    refine ⟨s', _, ?_, hR.mono (Nat.le_succ _)⟩
    simp only [State.step, hp0, Option.bind_some, State.create, e]
  | copy x y =>
    obtain ⟨hx, hy⟩ := hl
    have hx : s.pv x = none := (h.alive x).1 hx
    obtain ⟨i, hi, hip, -⟩ := h.it hy
    obtain ⟨hinv, hL⟩ := alloc_inv h.inv hx i.ptr
    obtain ⟨-, hp, ht⟩ := alloc_obs s x i.ptr
    by_cases hv : ∃ b, y ∈ L b
    · obtain ⟨b, hb⟩ := hv
      obtain ⟨k, hk, htk⟩ := h.mem hb
      have hval : i.valid y = true := (h.inv.valid_iff hi).2 ⟨b, hb⟩
      have hib : i.ptr = some b := Option.some.inj (hip.symm.trans (h.ptr y b hb))
      obtain ⟨s', e, hR⟩ := h.attach (b := b) hinv hL rfl rfl (by rw [← hib]; exact ht)
        (fun z hz => by rw [hp, if_neg hz]) hk
      refine ⟨s', upd L b (x :: L b), ?_, ?_⟩
      rotate_left
      · simp only [Spec.step, htk]
        exact hR.mono (Nat.le_succ _)
      · simp only [State.step, State.copy, hi, Option.bind_eq_bind, Option.bind_some, hval, if_true, e]
    · have hval : i.valid y = false := by
        cases hc : i.valid y with
        | false => rfl
        | true => exact absurd ((h.inv.valid_iff hi).1 hc) hv
      obtain ⟨t, htt⟩ := Option.ne_none_iff_exists'.1 hy
      have htn : ∀ k, t ≠ .elem k := by
        rintro k rfl
        obtain ⟨b, hb, -⟩ := (h.elem y k).1 htt
        exact hv ⟨b, hb⟩
      obtain ⟨s', e, i', m, nn⟩ := invalidate_inv hinv hL (by rw [hp, if_pos rfl]; simp)
      refine ⟨s', L, ?_, ?_⟩
      rotate_left
      · simp only [Spec.step, htt]
        refine (h.idle hL htn i' m.ky m.place ?_ ?_ ?_ ?_).mono (Nat.le_succ _)
        · intro z hz
          rw [m.pt, ht, if_neg hz]
        · rintro rfl
          rw [m.pt, ht, if_pos rfl]
          exact congrArg some (Option.some.inj (hip.symm.trans (h.null y htt)))
        · intro z hz
          rw [nn, hp, if_neg hz]
        · rw [Ne, nn, hp, if_pos rfl]; simp
      · simp only [State.step, State.copy, hi, Option.bind_eq_bind, Option.bind_some, hval,
          Bool.false_eq_true, if_false, e]
  | move x y =>
    obtain ⟨hx, hy⟩ := hl
    have hxy : y ≠ x := by rintro rfl; exact hy hx
    have hx : s.pv x = none := (h.alive x).1 hx
    obtain ⟨i, hi, hip, -⟩ := h.it hy
    obtain ⟨hinv, hL⟩ := alloc_inv h.inv hx i.ptr
    obtain ⟨-, hp, ht⟩ := alloc_obs s x i.ptr
    by_cases hv : ∃ b, y ∈ L b
    · obtain ⟨b, hb⟩ := hv
      obtain ⟨k, hk, htk⟩ := h.mem hb
      have hval : i.valid y = true := (h.inv.valid_iff hi).2 ⟨b, hb⟩
      have hib : i.ptr = some b := Option.some.inj (hip.symm.trans (h.ptr y b hb))
      obtain ⟨s1, e1, hR⟩ := h.attach (b := b) hinv hL rfl rfl (by rw [← hib]; exact ht)
        (fun z hz => by rw [hp, if_neg hz]) hk
      obtain ⟨s', L', e2, hR2⟩ := hR.moveFrom (y := y) (k := k) (by simp only [upd_ne _ _ hxy]; exact htk)
      refine ⟨s', L', ?_, ?_⟩
      rotate_left
      · simp only [Spec.step, htk]
        exact hR2
      · simp only [State.step, State.move, hi, Option.bind_eq_bind, Option.bind_some, hval, if_true, e1, e2]
    · have hval : i.valid y = false := by
        cases hc : i.valid y with
        | false => rfl
        | true => exact absurd ((h.inv.valid_iff hi).1 hc) hv
      obtain ⟨t, htt⟩ := Option.ne_none_iff_exists'.1 hy
      have htn : ∀ k, t ≠ .elem k := by
        rintro k rfl
        obtain ⟨b, hb, -⟩ := (h.elem y k).1 htt
        exact hv ⟨b, hb⟩
      have htm : t.moved = t := by
        cases t with
        | elem k => exact absurd rfl (htn k)
        | _ => rfl
      obtain ⟨s', e, i', m, nn⟩ := invalidate_inv hinv hL (by rw [hp, if_pos rfl]; simp)
      refine ⟨s', L, ?_, ?_⟩
      rotate_left
      · have hup : upd (upd σ.target x (some t)) y (some t) = upd σ.target x (some t) := by
          funext z
          by_cases hz : z = y
          · subst hz; rw [upd_same, upd_ne _ _ hxy, htt]
          · rw [upd_ne _ _ hz]
        simp only [Spec.step, htt, Option.map_some, htm, hup]
        refine (h.idle hL htn i' m.ky m.place ?_ ?_ ?_ ?_).mono (Nat.le_succ _)
        · intro z hz
          rw [m.pt, ht, if_neg hz]
        · rintro rfl
          rw [m.pt, ht, if_pos rfl]
          exact congrArg some (Option.some.inj (hip.symm.trans (h.null y htt)))
        · intro z hz
          rw [nn, hp, if_neg hz]
        · rw [Ne, nn, hp, if_pos rfl]; simp
      · simp only [State.step, State.move, hi, Option.bind_eq_bind, Option.bind_some, hval,
          Bool.false_eq_true, if_false, e]
  | assign x y =>
    obtain ⟨i, hi, -, -⟩ := h.it hl.2.1
    obtain ⟨s', L', e, hR⟩ := h.assignFrom hl hi
    refine ⟨s', L', ?_, hR.mono (Nat.le_succ _)⟩
    simp only [State.step, State.assign, hi, Option.bind_eq_bind, Option.bind_some, e]
  | assignMove x y =>
    obtain ⟨i, hi, -, -⟩ := h.it hl.2.1
    obtain ⟨s1, L1, e1, hR⟩ := h.assignFrom hl hi
    obtain ⟨t, htt⟩ := Option.ne_none_iff_exists'.1 hl.2.1
    have hty : upd σ.target x (some t) y = some t := by
      by_cases hxy : y = x
      · subst hxy; rw [upd_same]
      · rw [upd_ne _ _ hxy, htt]
    by_cases hv : ∃ b, y ∈ L b
    · obtain ⟨b, hb⟩ := hv
      obtain ⟨k, hk, htk⟩ := h.mem hb
      have hval : i.valid y = true := (h.inv.valid_iff hi).2 ⟨b, hb⟩
      rw [htt] at htk
      cases htk
      rw [htt] at hR
      obtain ⟨s', L', e2, hR2⟩ := hR.moveFrom (y := y) (k := k) hty
      refine ⟨s', L', ?_, ?_⟩
      rotate_left
      · simp only [Spec.step, htt]
        exact hR2
      · rw [hval] at e1
        simp only [State.step, State.assignMove, hi, Option.bind_eq_bind, Option.bind_some, hval, if_true, e1, e2]
    · have hval : i.valid y = false := by
        cases hc : i.valid y with
        | false => rfl
        | true => exact absurd ((h.inv.valid_iff hi).1 hc) hv
      have htm : t.moved = t := by
        cases t with
        | elem k =>
          obtain ⟨b, hb, -⟩ := (h.elem y k).1 htt
          exact absurd ⟨b, hb⟩ hv
        | _ => rfl
      refine ⟨s1, L1, ?_, ?_⟩
      · rw [hval] at e1
        simp only [State.step, State.assignMove, hi, Option.bind_eq_bind, Option.bind_some, hval, e1,
          Bool.false_eq_true, if_false]
      · have hup : upd (upd σ.target x (some t)) y (some t) = upd σ.target x (some t) := by
          funext z
          by_cases hz : z = y
          · subst hz; rw [upd_same, hty]
          · rw [upd_ne _ _ hz]
        simp only [Spec.step, htt, Option.map_some, htm, hup]
        rw [htt] at hR
        exact hR.mono (Nat.le_succ _)
  | assignKey x k =>
    obtain ⟨hx, hk⟩ := hl
    obtain ⟨b, hp0, hk0⟩ := h.find hk
    obtain ⟨j, hj, hjp, hjv⟩ := h.it hx
    by_cases hxv : ∃ b, x ∈ L b
    · obtain ⟨b', hb'⟩ := hxv
      have hjval : j.valid x = true := (h.inv.valid_iff hj).2 ⟨b', hb'⟩
      obtain ⟨k', -, htk⟩ := h.mem hb'
      obtain ⟨s1, L1, e1, hR⟩ := h.moveFrom htk
      obtain ⟨j1, hj1, hjp1, hjv1⟩ := hR.it (x := x) (by simp [upd_same])
      obtain ⟨s2, e2, r2, p2, t2, k2, l2⟩ := setPtr_obs hjp1 (some b)
      have hpl := hR.place k b
      have hk1 : s1.ky b = some k := by
        obtain ⟨b1, hb1, hkb1⟩ := hR.find (k := k) hk
        have : b1 = b := by
          obtain ⟨_, ee, _, mm, _⟩ := removeFromList_inv h.inv hb'
          rw [e1] at ee
          cases ee
          rw [mm.place, hp0] at hb1
          exact (Option.some.inj hb1).symm
        exact this ▸ hkb1
      obtain ⟨s', e, hR2⟩ := hR.attach (b := b) (k := k) (setPtr_inv hR.inv r2 p2 k2)
        (hR.not_mem (by intro k'; simp [upd_same])) k2 l2 t2 (fun z _ => by rw [p2]) hk1
      refine ⟨s', upd L1 b (x :: L1 b), ?_, ?_⟩
      rotate_left
      · simp only [Spec.step]
        rw [upd_upd] at hR2
        exact hR2
      · simp only [State.step, hp0, Option.bind_some, State.assignBucket, hj, Option.bind_eq_bind, hjval,
          if_true, e1, e2, e]
    · have hjval : j.valid x = false := by
        cases hc : j.valid x with
        | false => rfl
        | true => exact absurd ((h.inv.valid_iff hj).1 hc) hxv
      obtain ⟨s2, e2, r2, p2, t2, k2, l2⟩ := setPtr_obs hjp (some b)
      obtain ⟨s', e, hR2⟩ := h.attach (b := b) (k := k) (setPtr_inv h.inv r2 p2 k2)
        (fun b hb => hxv ⟨b, hb⟩) k2 l2 t2 (fun z _ => by rw [p2]) hk0
      refine ⟨s', _, ?_, hR2.mono (Nat.le_succ _)⟩
      simp only [State.step, hp0, Option.bind_some, State.assignBucket, hj, Option.bind_eq_bind, hjval,
        Bool.false_eq_true, if_false, e2, e]
  | destroy x =>
    obtain ⟨j, hj, hjp, hjv⟩ := h.it hl
    have key : ∀ (m : Nat) (s1 : State) (σ1 : Spec) (L1 : Nat → List Nat), R m s1 σ1 L1 → (∀ b, x ∉ L1 b) →
        R m { s1 with it := upd s1.it x none } { σ1 with target := upd σ1.target x none } L1 := by
      intro m s1 σ1 L1 h1 hx1
      have hpv : ∀ y, ({ s1 with it := upd s1.it x none } : State).pv y = if y = x then none else s1.pv y := by
        intro y
        by_cases hy : y = x <;> simp [State.pv, upd, hy]
      have hpt : ∀ y, y ≠ x → ({ s1 with it := upd s1.it x none } : State).pt y = s1.pt y := by
        intro y hy
        simp [State.pt, upd, hy]
      refine h1.update _ (dealloc_inv h1.inv hx1) rfl rfl ?_ ?_ ?_ ?_ ?_
      · intro y
        rw [hpv]
        by_cases hy : y = x
        · subst hy; simp [upd_same]
        · rw [upd_ne _ _ hy, if_neg hy, h1.alive]
      · intro y c hy
        rw [hpt y (by rintro rfl; exact hx1 c hy)]
        exact h1.ptr y c hy
      · intro y k
        by_cases hy : y = x
        · subst hy
          rw [upd_same]
          simp only [reduceCtorEq, false_iff]
          rintro ⟨c, hc, -⟩
          exact hx1 c hc
        · rw [upd_ne _ _ hy, h1.elem]
      · intro y hy
        by_cases hyx : y = x
        · subst hyx; simp [upd_same] at hy
        · rw [upd_ne _ _ hyx] at hy
          rw [hpt y hyx]
          exact h1.null y hy
      · obtain ⟨A, hA, hm⟩ := h1.bound
        refine ⟨A, hA, fun y hy => hm y ?_⟩
        rw [hpv] at hy
        split at hy
        · exact absurd rfl hy
        · exact hy
    by_cases hxv : ∃ b, x ∈ L b
    · obtain ⟨b, hb⟩ := hxv
      have hjval : j.valid x = true := (h.inv.valid_iff hj).2 ⟨b, hb⟩
      obtain ⟨k, -, htk⟩ := h.mem hb
      obtain ⟨s1, L1, e1, hR⟩ := h.moveFrom htk
      have hR2 := key _ _ _ _ hR (hR.not_mem (by intro k'; simp [upd_same]))
      refine ⟨{ s1 with it := upd s1.it x none }, L1, ?_, ?_⟩
      rotate_left
      · simp only [Spec.step]
        rw [upd_upd] at hR2
        exact hR2.mono (Nat.le_succ _)
      · simp only [State.step, State.destroy, hj, Option.bind_eq_bind, Option.bind_some, hjval, if_true, e1]
    · have hjval : j.valid x = false := by
        cases hc : j.valid x with
        | false => rfl
        | true => exact absurd ((h.inv.valid_iff hj).1 hc) hxv
      refine ⟨_, L, ?_, (key _ _ _ _ h (fun b hb => hxv ⟨b, hb⟩)).mono (Nat.le_add_right n 2)⟩
      simp only [State.step, State.destroy, hj, Option.bind_eq_bind, Option.bind_some, hjval,
        Bool.false_eq_true, if_false]

theorem R.run {n fuel : Nat} {s : State} {σ : Spec} {L : Nat → List Nat} (h : R n s σ L) (ops : List Op)
    (hl : LegalRun fuel s σ ops) (hf : n + 2 * ops.length ≤ fuel) :
    ∃ s' L', s.run fuel ops = some s' ∧ R fuel s' (σ.run ops) L' := by
  induction ops generalizing n s σ L with
  | nil => exact ⟨s, L, rfl, h.mono (by simpa using hf)⟩
  | cons o os ih =>
    simp only [List.length_cons] at hf
    obtain ⟨s1, L1, e1, h1⟩ := h.step (fuel := fuel) o hl.1 (by omega)
    obtain ⟨s2, L2, e2, h2⟩ := ih h1 (hl.2 s1 e1) (by omega)
    exact ⟨s2, L2, by simp only [State.run, e1, Option.bind_some, e2], h2⟩

/-! ## C30 -/

/-- What a user observes for an iterator: an iterator to an element in the container is valid and
dereferences to the element wherever its bucket is placed, other iterators are invalid. -/
def Observed (s : State) (x : Nat) : Option Target → Prop
  | none => s.it x = none
  | some (.elem k) => s.isValid x = some true ∧ s.deref x = some k
  | some _ => s.isValid x = some false

/-- **C30 (partial).** For every history of legal operations there is no undefined behaviour, each loop
finishes, each iterator refers to its element while the element is in the container and is invalid after
the element has been removed. What is missing: assignments to an iterator which refers to another element
and to an invalid iterator which remembers the same bucket, see `assign_other_fails` and `assign_stale_fails`, and copies of containers, see
`copy_container_fails`. -/
theorem persistent_history_partial (ops : List Op) (fuel : Nat) (hf : 2 * ops.length ≤ fuel)
    (hl : LegalRun fuel State.init Spec.init ops) :
    ∃ s, State.init.run fuel ops = some s ∧ ∀ x, Observed s x ((Spec.init.run ops).target x) := by
  obtain ⟨s, L, e, h⟩ := R.init.run ops hl (by omega)
  refine ⟨s, e, ?_⟩
  intro x
  cases ht : (Spec.init.run ops).target x with
  | none => exact pv_isSome.1 ((h.alive x).1 ht)
  | some t =>
    obtain ⟨i, hi, hip, -⟩ := h.it (x := x) (by rw [ht]; simp)
    have hinval : (∀ k, t ≠ .elem k) → s.isValid x = some false := by
      intro hne
      have : ∀ b, x ∉ L b := h.not_mem (by intro k; rw [ht]; simpa using hne k)
      have hv : i.valid x = false := by
        cases hc : i.valid x with
        | false => rfl
        | true =>
          obtain ⟨b, hb⟩ := (h.inv.valid_iff hi).1 hc
          exact absurd hb (this b)
      simp [State.isValid, hi, hv]
    cases t with
    | null => exact hinval (by simp)
    | stale => exact hinval (by simp)
    | elem k =>
      obtain ⟨b, hb, hkb⟩ := (h.elem x k).1 ht
      have hv : i.valid x = true := (h.inv.valid_iff hi).2 ⟨b, hb⟩
      have hib : i.ptr = some b := Option.some.inj (hip.symm.trans (h.ptr x b hb))
      simp only [State.ky, Option.map_eq_some_iff] at hkb
      obtain ⟨v, hvb, hvk⟩ := hkb
      exact ⟨by simp [State.isValid, hi, hv], by simp [State.deref, hi, hib, hvb, hvk]⟩

/-! ### Non-vacuity -/

/-- Two elements, a growing table, copies, moves, assignments and a removal. -/
def sample : List Op :=
  [.insert 1 10, .insert 2 20, .create 100 1, .copy 101 100, .create 102 2, .null 103, .assign 103 102,
   .grow 1 30, .grow 2 10, .move 104 103, .assignKey 102 1, .assign 103 100, .assignMove 103 101, .erase 1,
   .copy 105 100, .destroy 101, .insert 1 30, .assignKey 100 1]

instance (s : State) (σ : Spec) (x y : Nat) : Decidable (AssignOK s σ x y) :=
  decidable_of_iff (σ.target x ≠ none ∧ σ.target y ≠ none ∧
    (match σ.target y with
    | some (.elem k) => decide (σ.target x = some .null ∨ σ.target x = some (.elem k) ∨
      (σ.target x = some .stale ∧ (s.it x).map (·.ptr) ≠ (s.it y).map (·.ptr)))
    | _ => true) = true) (by
      unfold AssignOK
      refine and_congr_right fun _ => and_congr_right fun _ => ?_
      cases σ.target y with
      | none => simp
      | some t => cases t <;> simp)

instance (s : State) (σ : Spec) (o : Op) : Decidable (Legal s σ o) := by
  cases o <;> unfold Legal <;> infer_instance

instance decLegalRun (fuel : Nat) : ∀ s σ ops, Decidable (LegalRun fuel s σ ops)
  | _, _, [] => isTrue trivial
  | s, σ, o :: os =>
    have : ∀ s, Decidable (LegalRun fuel s (σ.step o) os) := fun s => decLegalRun fuel s _ os
    decidable_of_iff (Legal s σ o ∧
      (match s.step fuel o with
      | some s' => decide (LegalRun fuel s' (σ.step o) os)
      | none => true) = true) (by
        rw [LegalRun]
        cases s.step fuel o <;> simp)

example : LegalRun 36 State.init Spec.init sample := by decide +kernel

example : (Spec.init.run sample).target 100 = some (.elem 1) ∧ (Spec.init.run sample).target 103 = some .stale ∧
    (Spec.init.run sample).target 104 = some (.elem 2) ∧ (Spec.init.run sample).target 105 = some .stale ∧
    (Spec.init.run sample).target 101 = none := by decide +kernel

/-! ## Failures -/

/-- The loop of the destructor never finishes if the first iterator of the list is marked as invalid. -/
theorem drain_diverges (b k x : Nat) (p nx : Option Nat) (fuel : Nat) : ∀ s : State,
    s.bucket b = some ⟨k, some x⟩ → s.it x = some ⟨p, nx, .next x⟩ →
    (∀ y, nx = some y → y ≠ x ∧ s.it y ≠ none) → s.drain b fuel = none := by
  induction fuel with
  | zero => intro s hb _ _; simp [State.drain, hb]
  | succ fuel ih =>
    intro s hb hx hy
    rw [State.drain]
    simp only [hb]
    cases nx with
    | none =>
      let t : State := { s with it := upd (upd s.it x (some ⟨p, none, .next x⟩)) x (some ⟨p, none, .next x⟩) }
      have e : s.removeFromList x = some t := by
        simp [t, State.removeFromList, hx, State.write, upd, State.invalidate, State.setPrev]
      simp only [e]
      exact ih _ hb (by simp [t, upd]) (by simp)
    | some y =>
      obtain ⟨hyx, hya⟩ := hy y rfl
      obtain ⟨j, hj⟩ := Option.ne_none_iff_exists'.1 hya
      let it := upd (upd s.it x (some ⟨p, some y, .next x⟩)) y (some { j with prev := .next x })
      let t : State := { s with it := upd it x (some ⟨p, some y, .next x⟩) }
      have e : s.removeFromList x = some t := by
        simp [t, it, State.removeFromList, hx, State.write, upd, State.invalidate, State.setPrev, hyx, hj,
          Ne.symm hyx]
      simp only [e]
      refine ih _ hb (by simp [t, upd]) ?_
      intro z hz
      cases hz
      exact ⟨hyx, by simp [t, it, upd, hyx]⟩

/-- **C30 (negation).** An iterator to an element is assigned to an iterator to another element. The first
iterator stays in the list of its former element, so the removal of this element never finishes (whatever
number of iterations is allowed). Each operation of the history uses existing objects and keys in the
container. -/
theorem assign_other_fails :
    (∃ s, (∀ fuel, State.init.run fuel [.insert 1 10, .insert 2 20, .create 100 1, .create 101 2,
      .assign 100 101] = some s) ∧ s.isValid 100 = some true ∧ s.deref 100 = some 2 ∧ s.place 1 = some 10) ∧
    ∀ fuel, State.init.run fuel [.insert 1 10, .insert 2 20, .create 100 1, .create 101 2,
      .assign 100 101, .erase 1] = none := by
  refine ⟨⟨_, fun _ => rfl, by decide +kernel, by decide +kernel, by decide +kernel⟩, ?_⟩
  intro fuel
  cases fuel with
  | zero => decide +kernel
  | succ fuel =>
    change (Option.bind (Option.bind (State.drain _ 10 fuel) _) _).bind _ = none
    rw [drain_diverges 10 1 100 (some 20) (some 101) fuel _ (by rfl) (by rfl)]
    · rfl
    · intro y hy
      cases hy
      exact ⟨by decide, by simp +decide⟩

/-- **C30 (negation).** An iterator to an element is assigned to an invalid iterator which has been moved
from, so it remembers the same bucket. It stays invalid, although the assigned iterator is valid. -/
theorem assign_stale_fails (fuel : Nat) :
    ∃ s, State.init.run fuel [.insert 1 10, .create 100 1, .create 101 1, .move 102 100, .assign 100 101] = some s ∧
      s.isValid 101 = some true ∧ s.deref 101 = some 1 ∧ s.isValid 100 = some false :=
  ⟨_, rfl, by decide +kernel, by decide +kernel, by decide +kernel⟩

/-- **C30 (negation).** A copy of a container shares the list of iterators with the original. The
destruction of the copy invalidates an iterator to an element of the original and never finishes. -/
theorem copy_container_fails :
    (∃ s s', (∀ fuel, State.init.run fuel [.insert 1 10, .create 100 1] = some s) ∧ s.isValid 100 = some true ∧
      s.copyBucket 10 20 = some s' ∧ (∀ fuel, s'.kill fuel 20 = none) ∧
      ∃ s'', s'.removeFromList 100 = some s'' ∧ s''.isValid 100 = some false) := by
  refine ⟨_, _, fun _ => rfl, by decide +kernel, rfl, ?_, _, rfl, by decide +kernel⟩
  intro fuel
  cases fuel with
  | zero => decide +kernel
  | succ fuel =>
    change (State.drain _ 20 fuel).bind _ = none
    rw [drain_diverges 20 1 100 (some 10) none fuel _ (by rfl) (by rfl)]
    · rfl
    · intro y hy
      cases hy

end Persistent
end Tsar
