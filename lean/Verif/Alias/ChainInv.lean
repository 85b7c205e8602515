import Verif.Alias.Chain
import Mathlib.Data.List.Nodup
import Mathlib.Data.List.Perm.Subperm
import Mathlib.Data.List.Range

/-!
# Invariants of chains of estimate memory
-/

namespace Tsar
namespace Alias
namespace Chain

/-! ## Parents and children -/

/-- Lists of children agree with parents. -/
structure PC (h : Heap) : Prop where
  mem : ∀ m p, h.par m = some p ↔ m ∈ h.ch p
  nodup : ∀ p, (h.ch p).Nodup

theorem upd_same {α : Type} (f : Nat → α) (k : Nat) (v : α) : upd f k v k = v := by simp [upd]

theorem upd_other {α : Type} (f : Nat → α) (k : Nat) (v : α) {x : Nat} (h : x ≠ k) : upd f k v x = f x := by
  simp [upd, h]

theorem upd_upd {α : Type} (f : Nat → α) (k : Nat) (v w : α) : upd (upd f k v) k w = upd f k w := by
  funext x; by_cases h : x = k <;> simp [upd, h]

theorem upd_self {α : Type} (f : Nat → α) (k : Nat) : upd f k (f k) = f := by
  funext x; by_cases h : x = k <;> simp [upd, h]

theorem upd_comm {α : Type} (f : Nat → α) {k k' : Nat} (v w : α) (h : k ≠ k') :
    upd (upd f k v) k' w = upd (upd f k' w) k v := by
  funext x
  by_cases h1 : x = k
  · subst h1; simp [upd, h]
  · by_cases h2 : x = k'
    · subst h2; simp [upd, h1]
    · simp [upd, h1, h2]

@[simp] theorem detach_par (h : Heap) (p : Option Nat) (c : Nat) : (h.detach p c).par = h.par := by
  cases p <;> rfl
@[simp] theorem detach_base (h : Heap) (p : Option Nat) (c : Nat) : (h.detach p c).base = h.base := by
  cases p <;> rfl
@[simp] theorem detach_size (h : Heap) (p : Option Nat) (c : Nat) : (h.detach p c).size = h.size := by
  cases p <;> rfl
@[simp] theorem attach_par (h : Heap) (p : Option Nat) (c : Nat) : (h.attach p c).par = h.par := by
  cases p <;> rfl
@[simp] theorem attach_base (h : Heap) (p : Option Nat) (c : Nat) : (h.attach p c).base = h.base := by
  cases p <;> rfl
@[simp] theorem attach_size (h : Heap) (p : Option Nat) (c : Nat) : (h.attach p c).size = h.size := by
  cases p <;> rfl
@[simp] theorem setPar_par (h : Heap) (c : Nat) (p : Option Nat) : (h.setPar c p).par = upd h.par c p := rfl
@[simp] theorem setPar_base (h : Heap) (c : Nat) (p : Option Nat) : (h.setPar c p).base = h.base := rfl
@[simp] theorem setPar_size (h : Heap) (c : Nat) (p : Option Nat) : (h.setPar c p).size = h.size := rfl
@[simp] theorem setPar_ch (h : Heap) (c : Nat) (p : Option Nat) : (h.setPar c p).ch = h.ch := rfl

/-- Cut a node from its parent. -/
theorem PC.cut {h : Heap} (H : PC h) (c : Nat) : PC ((h.detach (h.par c) c).setPar c none) := by
  cases hp : h.par c with
  | none =>
    have e : (h.detach none c).setPar c none = h := by
      show Heap.mk (upd h.par c none) h.ch h.base h.size = h
      rw [show upd h.par c none = h.par from by rw [← hp]; exact upd_self _ _]
    rw [e]; exact H
  | some q =>
    refine ⟨fun m p => ?_, fun p => ?_⟩
    · show upd h.par c none m = some p ↔ m ∈ upd h.ch q ((h.ch q).erase c) p
      by_cases hm : m = c
      · subst hm
        rw [upd_same]
        by_cases hpq : p = q
        · subst hpq
          rw [upd_same]
          simp [(H.nodup p).mem_erase_iff]
        · rw [upd_other _ _ _ hpq, ← H.mem, hp]
          simp [Ne.symm hpq]
      · rw [upd_other _ _ _ hm, H.mem]
        by_cases hpq : p = q
        · subst hpq
          rw [upd_same, (H.nodup p).mem_erase_iff]
          simp [hm]
        · rw [upd_other _ _ _ hpq]
    · show (upd h.ch q ((h.ch q).erase c) p).Nodup
      by_cases hpq : p = q
      · subst hpq; rw [upd_same]; exact (H.nodup p).erase c
      · rw [upd_other _ _ _ hpq]; exact H.nodup p

/-- Link a node without a parent. -/
theorem PC.link {h : Heap} (H : PC h) (c : Nat) (p : Option Nat) (hc : h.par c = none) :
    PC ((h.attach p c).setPar c p) := by
  cases p with
  | none =>
    have e : (h.attach none c).setPar c none = h := by
      show Heap.mk (upd h.par c none) h.ch h.base h.size = h
      rw [show upd h.par c none = h.par from by rw [← hc]; exact upd_self _ _]
    rw [e]; exact H
  | some q =>
    refine ⟨fun m p => ?_, fun p => ?_⟩
    · show upd h.par c (some q) m = some p ↔ m ∈ upd h.ch q (h.ch q ++ [c]) p
      by_cases hm : m = c
      · subst hm
        rw [upd_same]
        by_cases hpq : p = q
        · subst hpq
          rw [upd_same]
          simp
        · rw [upd_other _ _ _ hpq, ← H.mem, hc]
          simp [Ne.symm hpq]
      · rw [upd_other _ _ _ hm, H.mem]
        by_cases hpq : p = q
        · subst hpq
          rw [upd_same]
          simp [hm]
        · rw [upd_other _ _ _ hpq]
    · show (upd h.ch q (h.ch q ++ [c]) p).Nodup
      by_cases hpq : p = q
      · subst hpq
        rw [upd_same]
        refine List.nodup_append.2 ⟨H.nodup p, by simp, ?_⟩
        intro x hx y hy hxy
        rw [List.mem_singleton.1 hy] at hxy
        subst hxy
        have := (H.mem x p).2 hx
        rw [hc] at this
        cases this
      · rw [upd_other _ _ _ hpq]; exact H.nodup p

theorem attach_setPar (h : Heap) (p : Option Nat) (c d : Nat) (q : Option Nat) :
    (h.setPar c q).attach p d = (h.attach p d).setPar c q := by cases p <;> rfl

theorem setPar_setPar (h : Heap) (c : Nat) (p q : Option Nat) : (h.setPar c p).setPar c q = h.setPar c q := by
  show Heap.mk (upd (upd h.par c p) c q) h.ch h.base h.size = _
  rw [upd_upd]; rfl

theorem setPar_comm (h : Heap) {c d : Nat} (p q : Option Nat) (hcd : c ≠ d) :
    (h.setPar c p).setPar d q = (h.setPar d q).setPar c p := by
  show Heap.mk (upd (upd h.par c p) d q) h.ch h.base h.size = _
  rw [upd_comm _ _ _ hcd]; rfl

theorem PC.mergeNext {h : Heap} (H : PC h) (c n : Nat) : PC (h.mergeNext c n) := by
  unfold Heap.mergeNext
  split
  · exact H
  · have := (H.cut c).link c (some n) (by simp [upd])
    rw [attach_setPar, setPar_setPar] at this
    exact this

theorem mergeNext_par (h : Heap) (c n : Nat) : (h.mergeNext c n).par = upd h.par c (some n) := by
  unfold Heap.mergeNext
  split
  · rename_i e; rw [← e, upd_self]
  · simp

@[simp] theorem mergeNext_base (h : Heap) (c n : Nat) : (h.mergeNext c n).base = h.base := by
  unfold Heap.mergeNext
  split <;> simp

@[simp] theorem mergeNext_size (h : Heap) (c n : Nat) : (h.mergeNext c n).size = h.size := by
  unfold Heap.mergeNext
  split <;> simp

/-- Insertion of an isolated node after `c`. -/
theorem spliceNext_eq {h : Heap} {c f : Nat} (hne : c ≠ f) (hf : h.par f = none) (hcf : h.par c ≠ some f) :
    h.spliceNext c f = ((((h.detach (h.par c) c).attach (h.par c) f).attach (some f) c).setPar f (h.par c)).setPar c
      (some f) := by
  unfold Heap.spliceNext
  rw [if_neg hcf]
  simp only [detach_par, hf]
  have e : ∀ x : Heap, x.detach none f = x := fun _ => rfl
  rw [e]
  simp only [detach_par, setPar_par, upd_other _ _ _ hne]
  rw [attach_setPar, attach_setPar]

theorem PC.spliceNext {h : Heap} (H : PC h) {c f : Nat} (hne : c ≠ f) (hf : h.par f = none)
    (hcf : h.par c ≠ some f) : PC (h.spliceNext c f) := by
  have h1 := H.cut c
  have h2 := h1.link f (h.par c) (by simp [upd, hne.symm, hf])
  have h3 := h2.link c (some f) (by simp [upd, hne])
  rw [spliceNext_eq hne hf hcf]
  rw [attach_setPar, attach_setPar, attach_setPar, setPar_comm _ _ _ hne, setPar_setPar] at h3
  rw [setPar_comm _ _ _ hne.symm] at h3 ⊢
  exact h3

theorem spliceNext_par {h : Heap} {c f : Nat} (hne : c ≠ f) (hf : h.par f = none) (hcf : h.par c ≠ some f) :
    (h.spliceNext c f).par = upd (upd h.par f (h.par c)) c (some f) := by
  rw [spliceNext_eq hne hf hcf]
  simp

@[simp] theorem spliceNext_base (h : Heap) (c n : Nat) : (h.spliceNext c n).base = h.base := by
  unfold Heap.spliceNext
  split <;> simp

@[simp] theorem spliceNext_size (h : Heap) (c n : Nat) : (h.spliceNext c n).size = h.size := by
  unfold Heap.spliceNext
  split <;> simp

theorem replaceFirst_some {h : Heap} {f : Nat} : ∀ {l l' : List Nat} {i : Nat}, l.Nodup → f ∉ l →
    replaceFirst h f l = some (l', i) → i ∈ l ∧ h.base i = h.base f ∧ l'.Nodup ∧
      ∀ x, x ∈ l' ↔ x = f ∨ (x ∈ l ∧ x ≠ i) := by
  intro l
  induction l with
  | nil => intro l' i _ _ hr; simp [replaceFirst] at hr
  | cons a l ih =>
    intro l' i hnd hf hr
    obtain ⟨ha, hnd'⟩ := List.nodup_cons.1 hnd
    have hfa : f ≠ a := fun e => hf (e ▸ List.mem_cons_self)
    have hfl : f ∉ l := fun e => hf (List.mem_cons_of_mem _ e)
    unfold replaceFirst at hr
    split at hr
    · rename_i hb
      simp only [Option.some.injEq, Prod.mk.injEq] at hr
      obtain ⟨rfl, rfl⟩ := hr
      refine ⟨List.mem_cons_self, hb, List.nodup_cons.2 ⟨hfl, hnd'⟩, fun x => ?_⟩
      simp only [List.mem_cons]
      constructor
      · rintro (rfl | hx)
        · exact .inl rfl
        · exact .inr ⟨.inr hx, fun e => ha (e ▸ hx)⟩
      · rintro (rfl | ⟨rfl | hx, hne⟩)
        · exact .inl rfl
        · exact absurd rfl hne
        · exact .inr hx
    · obtain ⟨⟨l1, j⟩, hr1, hr2⟩ := Option.map_eq_some_iff.1 hr
      simp only [Prod.mk.injEq] at hr2
      obtain ⟨rfl, rfl⟩ := hr2
      obtain ⟨h1, h2, h3, h4⟩ := ih hnd' hfl hr1
      have haj : a ≠ j := fun e => ha (e ▸ h1)
      refine ⟨List.mem_cons_of_mem _ h1, h2, List.nodup_cons.2 ⟨fun hx => ?_, h3⟩, fun x => ?_⟩
      · rcases (h4 a).1 hx with e | ⟨hx, -⟩
        · exact hfa e.symm
        · exact ha hx
      · simp only [List.mem_cons, h4]
        constructor
        · rintro (rfl | rfl | ⟨hx, hne⟩)
          · exact .inr ⟨.inl rfl, haj⟩
          · exact .inl rfl
          · exact .inr ⟨.inr hx, hne⟩
        · rintro (rfl | ⟨rfl | hx, hne⟩)
          · exact .inr (.inl rfl)
          · exact .inl rfl
          · exact .inr (.inr ⟨hx, hne⟩)

theorem replaceFirst_none {h : Heap} {f : Nat} : ∀ {l : List Nat}, replaceFirst h f l = none ↔
    ∀ x ∈ l, h.base x ≠ h.base f := by
  intro l
  induction l with
  | nil => simp [replaceFirst]
  | cons a l ih =>
    unfold replaceFirst
    split
    · rename_i hb
      simp only [reduceCtorEq, List.mem_cons, forall_eq_or_imp, false_iff, not_and]
      exact fun hc => absurd hb hc
    · rename_i hb
      simp only [Option.map_eq_none_iff, ih, List.mem_cons, forall_eq_or_imp]
      exact ⟨fun h => ⟨hb, h⟩, fun h => h.2⟩

theorem orphan_eq {h : Heap} {n : Nat} (hc : h.ch n = []) : h.orphan n = h := by
  have h1 : upd h.ch n [] = h.ch := by rw [← hc]; exact upd_self _ _
  unfold Heap.orphan
  rw [h1, hc]
  simp

/-- The node which follows the inserted one. -/
theorem splicePrev_spec {h : Heap} (H : PC h) {u f : Nat} (hne : u ≠ f) (hf : h.par f = none) (hfc : h.ch f = []) :
    PC (h.splicePrev u f) ∧ (h.splicePrev u f).base = h.base ∧ (h.splicePrev u f).size = h.size ∧
    (((∀ x, h.par x = some u → h.base x ≠ h.base f) ∧ (h.splicePrev u f).par = upd h.par f (some u)) ∨
      ∃ i, i ≠ f ∧ h.par i = some u ∧ h.base i = h.base f ∧
        (h.splicePrev u f).par = upd (upd h.par f (some u)) i (some f)) := by
  have hfu : f ∉ h.ch u := fun hc => by
    have := (H.mem f u).2 hc
    rw [hf] at this
    cases this
  unfold Heap.splicePrev
  rw [if_neg (by rw [hf]; simp)]
  simp only [hf]
  have ed : ∀ x : Heap, x.detach none f = x := fun _ => rfl
  rw [ed]
  rw [orphan_eq (h := h.setPar f (some u)) hfc]
  simp only [setPar_ch, setPar_par]
  cases hr : replaceFirst (h.setPar f (some u)) f (h.ch u) with
  | none =>
    have hnone := replaceFirst_none.1 hr
    refine ⟨?_, rfl, rfl, .inl ⟨fun x hx => hnone x ((H.mem x u).1 hx), rfl⟩⟩
    exact H.link f (some u) hf
  | some r =>
    obtain ⟨l, i⟩ := r
    obtain ⟨h1, h2, h3, h4⟩ := replaceFirst_some (H.nodup u) hfu hr
    have hif : i ≠ f := fun e => hfu (e ▸ h1)
    have hiu := (H.mem i u).2 h1
    refine ⟨⟨fun m p => ?_, fun p => ?_⟩, rfl, rfl, .inr ⟨i, hif, hiu, h2, rfl⟩⟩
    · show upd (upd h.par f (some u)) i (some f) m = some p ↔ m ∈ upd (upd h.ch u l) f [i] p
      by_cases hmi : m = i
      · subst hmi
        rw [upd_same]
        by_cases hpf : p = f
        · subst hpf; simp [upd_same]
        · rw [upd_other _ _ _ hpf]
          simp only [Option.some.injEq, Ne.symm hpf, false_iff]
          by_cases hpu : p = u
          · subst hpu
            rw [upd_same, h4]
            simp [hif]
          · rw [upd_other _ _ _ hpu, ← H.mem, hiu]
            simp [Ne.symm hpu]
      · rw [upd_other _ _ _ hmi]
        by_cases hmf : m = f
        · subst hmf
          rw [upd_same]
          by_cases hpf : p = m
          · subst hpf
            rw [upd_same]
            simp [hne, Ne.symm hif]
          · rw [upd_other _ _ _ hpf]
            by_cases hpu : p = u
            · subst hpu
              rw [upd_same, h4]
              simp
            · rw [upd_other _ _ _ hpu, ← H.mem, hf]
              simp [Ne.symm hpu]
        · rw [upd_other _ _ _ hmf, H.mem]
          by_cases hpf : p = f
          · subst hpf
            rw [upd_same, hfc]
            simp [hmi]
          · rw [upd_other _ _ _ hpf]
            by_cases hpu : p = u
            · subst hpu
              rw [upd_same, h4]
              simp [hmf, hmi]
            · rw [upd_other _ _ _ hpu]
    · show (upd (upd h.ch u l) f [i] p).Nodup
      by_cases hpf : p = f
      · subst hpf; rw [upd_same]; simp
      · rw [upd_other _ _ _ hpf]
        by_cases hpu : p = u
        · subst hpu; rw [upd_same]; exact h3
        · rw [upd_other _ _ _ hpu]; exact H.nodup p

end Chain
end Alias
end Tsar
