import Verif.DbgValue.Model
import Mathlib.Data.List.Perm.Subperm
/-!
# Lemmas on the search for variables which hold a value
-/
namespace Tsar.DbgValue

variable {F : Func}

/-! ## Fragments -/

theorem mayAlias_of_covers {a b : Expr} {bit : Nat} (ha : a.covers bit) (hb : b.covers bit) : mayAlias a b = true := by
  cases a <;> cases b <;> simp only [Expr.covers, mayAlias] at *
  rw [if_neg (by omega)]
  simp only [Bool.or_eq_true, beq_iff_eq, Bool.and_eq_true, decide_eq_true_eq]
  omega

theorem mayAlias_self {e : Expr} {bit : Nat} (h : e.covers bit) : mayAlias e e = true := mayAlias_of_covers h h

/-! ## Traces -/

theorem Trace.tail {p : Pos} {t : List Pos} (h : Trace F (p :: t)) (ht : t ≠ []) : Trace F t := by
  cases h with
  | start => exact absurd rfl ht
  | next h _ => exact h
  | jump h _ _ => exact h

theorem Trace.drop {x t : List Pos} {p : Pos} (h : Trace F (x ++ p :: t)) : Trace F (p :: t) := by
  induction x with
  | nil => exact h
  | cons q x ih => exact ih (h.tail (by simp))

theorem Trace.splice {x t s : List Pos} {p : Pos} (h : Trace F (x ++ p :: t)) (hs : Trace F (p :: s)) :
    Trace F (x ++ p :: s) := by
  induction x with
  | nil => exact hs
  | cons q x ih =>
    have h' : Trace F (x ++ p :: s) := ih (h.tail (by simp))
    cases x with
    | nil =>
      cases h with
      | next _ a => exact .next h' a
      | jump _ a b => exact .jump h' a b
    | cons r x =>
      cases h with
      | next _ a => exact .next h' a
      | jump _ a b => exact .jump h' a b

/-- The earliest occurrence of a position. -/
theorem exists_first {p : Pos} (t : List Pos) : ∃ y s, p :: t = y ++ p :: s ∧ p ∉ s := by
  induction t with
  | nil => exact ⟨[], [], rfl, by simp⟩
  | cons q t ih =>
    obtain ⟨y, s, h, hs⟩ := ih
    by_cases hq : p ∈ q :: t
    · obtain ⟨a, b, hab⟩ := List.append_of_mem hq
      cases y with
      | nil =>
        simp only [List.nil_append, List.cons.injEq, true_and] at h
        subst h
        rcases List.mem_cons.1 hq with rfl | hq
        · exact ⟨[p], t, rfl, hs⟩
        · exact absurd hq hs
      | cons r y =>
        simp only [List.cons_append, List.cons.injEq] at h
        exact ⟨p :: q :: y, s, by simp [h.2], hs⟩
    · exact ⟨[], q :: t, rfl, hq⟩

/-- The latest occurrence of a position with a property. -/
theorem exists_last {P : Pos → Prop} {t : List Pos} {d : Pos} (hd : d ∈ t) (hP : P d) :
    ∃ pre e post, t = pre ++ e :: post ∧ P e ∧ ∀ p ∈ pre, ¬ P p := by
  induction t with
  | nil => cases hd
  | cons q t ih =>
    by_cases hq : P q
    · exact ⟨[], q, t, rfl, hq, by simp⟩
    · rcases List.mem_cons.1 hd with rfl | h
      · exact absurd hP hq
      · obtain ⟨pre, e, post, h1, h2, h3⟩ := ih h
        refine ⟨q :: pre, e, post, by simp [h1], h2, ?_⟩
        intro p hp
        rcases List.mem_cons.1 hp with rfl | hp
        · exact hq
        · exact h3 p hp

/-- No definition of a register is executed after the last of `llvm.dbg.value`. -/
theorem not_dfn {V : Nat} (hssa : Ssa F V) {d u : Pos} {l : Loc} (hd : F.inst? d = some (.dbg V l)) (hdu : Dom F d u)
    {pre rest : List Pos} (ht : Trace F (u :: pre ++ rest)) (hpre : d ∉ pre) :
    ∀ p ∈ pre, F.inst? p ≠ some (.dfn V) := by
  intro p hp hdef
  obtain ⟨x, y, rfl⟩ := List.append_of_mem hp
  have ht' : Trace F ((u :: x) ++ p :: (y ++ rest)) := by simpa using ht
  obtain ⟨y', s, hs, hps⟩ := exists_first (p := p) (y ++ rest)
  have h1 : Trace F (p :: s) := by
    have := ht'.drop
    rw [hs] at this
    exact this.drop
  have h2 : d ∉ s := by
    intro hds
    obtain ⟨s1, s2, rfl⟩ := List.append_of_mem hds
    have h3 : Trace F (d :: s2) := by
      have : Trace F ((p :: s1) ++ d :: s2) := h1
      exact this.drop
    exact hps (by simp [(hssa p hdef).2 d l hd s2 h3])
  have h3 : d ∈ x ++ p :: s := hdu _ (by simpa using ht'.splice h1)
  rcases List.mem_append.1 h3 with h | h
  · exact hpre (by simp [h])
  · rcases List.mem_cons.1 h with rfl | h
    · rw [hd] at hdef; cases hdef
    · exact h2 h

/-! ## Where the last touch is -/

/-- An intrinsic changes bits of a location. -/
def Touch (F : Func) (l : Loc) (p : Pos) : Prop :=
  ∃ v l', F.inst? p = some (.dbg v l') ∧ l'.var = l.var ∧ ∃ bit, l'.expr.covers bit ∧ l.expr.covers bit

theorem Touch.lt {l : Loc} {p : Pos} (h : Touch F l p) : p.2 < (F.block p.1).length := by
  obtain ⟨_, _, h, _⟩ := h
  exact (List.getElem?_eq_some_iff.1 h).1

inductive Back (F : Func) (l : Loc) (e : Pos) : Pos → Prop where
  | here {q : Pos} : e.1 = q.1 → e.2 < q.2 → (∀ j, e.2 < j → j < q.2 → ¬ Touch F l (q.1, j)) → Back F l e q
  | prev {q : Pos} {b : Nat} : (∀ j, j < q.2 → ¬ Touch F l (q.1, j)) → b ∈ F.preds q.1 →
      Back F l e (b, (F.block b).length) → Back F l e q

theorem back_of_trace {l : Loc} {e : Pos} {post : List Pos} (he : Touch F l e) :
    ∀ (pre : List Pos) (q : Pos), Trace F (q :: (pre ++ e :: post)) → (∀ p ∈ pre, ¬ Touch F l p) → Back F l e q := by
  intro pre
  induction pre with
  | nil =>
    intro q ht _
    cases ht with
    | next h hl => exact .here rfl (Nat.lt_succ_self _) (fun j h1 h2 => by simp at h2; omega)
    | jump h hl hb => exact absurd he.lt (by omega)
  | cons p pre ih =>
    intro q ht hpre
    have hp := hpre p (by simp)
    cases ht with
    | next h hl =>
      have hb := ih p h (fun x hx => hpre x (by simp [hx]))
      cases hb with
      | here h1 h2 h3 =>
        refine .here h1 (by simp; omega) ?_
        intro j hj1 hj2
        rcases Nat.lt_succ_iff_lt_or_eq.1 hj2 with h | rfl
        · exact h3 j hj1 h
        · exact hp
      | prev h1 h2 h3 =>
        refine .prev ?_ h2 h3
        intro j hj
        rcases Nat.lt_succ_iff_lt_or_eq.1 hj with h | rfl
        · exact h1 j h
        · exact hp
    | jump h hl hb =>
      have hbk := ih p h (fun x hx => hpre x (by simp [hx]))
      refine .prev (by simp) hb ?_
      rw [← hl]
      exact hbk

/-- In a closed set of blocks the last touch is in a block which is not an alias. -/
theorem back_closed {l : Loc} {e : Pos} {isAlias isDom : Nat → Bool} {W : Nat → Prop}
    (hW : ∀ w, W w → ∀ p ∈ F.preds w, isAlias p = false ∧ (isDom p = true ∨ W p))
    (hdom : ∀ b, isDom b = true → ∃ k, Touch F l (b, k)) :
    ∀ q, Back F l e q → q.2 = (F.block q.1).length → isAlias q.1 = false → (isDom q.1 = true ∨ W q.1) →
      isAlias e.1 = false ∧ ∀ j, e.2 < j → ¬ Touch F l (e.1, j) := by
  intro q h
  induction h with
  | @here q h1 h2 h3 =>
    intro hq ha _
    rw [h1]
    refine ⟨ha, fun j hj ht => h3 j hj ?_ ht⟩
    rw [hq]; exact ht.lt
  | @prev q b h1 h2 h3 ih =>
    intro hq ha hw
    have hw : W q.1 := by
      rcases hw with hd | hw
      · obtain ⟨k, hk⟩ := hdom _ hd
        exact absurd hk (h1 k (by rw [hq]; exact hk.lt))
      · exact hw
    have := hW _ hw b h2
    exact ih rfl this.1 this.2

/-! ## The backward traversal -/

theorem visit_spec {isAlias isDom : Nat → Bool} : ∀ (ps wl vis : List Nat) (r : List Nat × List Nat),
    visit isAlias isDom ps wl vis = some r →
    ∃ new, r.1 = new ++ wl ∧ r.2 = new ++ vis ∧ (∀ p ∈ new, isAlias p = false ∧ p ∈ ps) ∧
      (∀ p ∈ ps, p ∈ r.2 ∨ (isAlias p = false ∧ isDom p = true)) ∧ (vis.Nodup → r.2.Nodup) := by
  intro ps
  induction ps with
  | nil =>
    intro wl vis r h
    simp only [visit, Option.some.injEq] at h
    subst h
    exact ⟨[], rfl, rfl, by simp, by simp, id⟩
  | cons p ps ih =>
    intro wl vis r h
    simp only [visit] at h
    split at h
    · next hv =>
      obtain ⟨new, h1, h2, h3, h4, h5⟩ := ih _ _ _ h
      refine ⟨new, h1, h2, fun q hq => ⟨(h3 q hq).1, by simp [(h3 q hq).2]⟩, ?_, h5⟩
      intro q hq
      rcases List.mem_cons.1 hq with rfl | hq
      · left; rw [h2]; simp; right; simpa using hv
      · exact h4 q hq
    · next hv =>
      split at h
      · cases h
      · next ha =>
        split at h
        · next hd =>
          obtain ⟨new, h1, h2, h3, h4, h5⟩ := ih _ _ _ h
          refine ⟨new, h1, h2, fun q hq => ⟨(h3 q hq).1, by simp [(h3 q hq).2]⟩, ?_, h5⟩
          intro q hq
          rcases List.mem_cons.1 hq with rfl | hq
          · right; exact ⟨by simpa using ha, hd⟩
          · exact h4 q hq
        · next hd =>
          obtain ⟨new, h1, h2, h3, h4, h5⟩ := ih _ _ _ h
          refine ⟨new ++ [p], by simp [h1], by simp [h2], ?_, ?_, ?_⟩
          · intro q hq
            rcases List.mem_append.1 hq with hq | hq
            · exact ⟨(h3 q hq).1, by simp [(h3 q hq).2]⟩
            · simp only [List.mem_singleton] at hq
              subst hq
              exact ⟨by simpa using ha, by simp⟩
          · intro q hq
            rcases List.mem_cons.1 hq with rfl | hq
            · left; rw [h2]; simp
            · exact h4 q hq
          · intro hn
            exact h5 (by simp only [List.nodup_cons]; exact ⟨by simpa using hv, hn⟩)

theorem search_closed {isAlias isDom : Nat → Bool} : ∀ (n : Nat) (wl vis P : List Nat),
    search F isAlias isDom n wl vis = some true →
    (∀ v ∈ vis, isAlias v = false ∧ (v ∈ P ∨ v ∈ wl)) →
    (∀ w ∈ P, ∀ p ∈ F.preds w, isAlias p = false ∧ (isDom p = true ∨ p ∈ vis)) →
    ∃ W : List Nat, (∀ w ∈ wl, w ∈ W) ∧ ∀ w ∈ W, ∀ p ∈ F.preds w, isAlias p = false ∧ (isDom p = true ∨ p ∈ W) := by
  intro n
  induction n with
  | zero =>
    intro wl vis P h hv hP
    cases wl with
    | nil => exact ⟨P, by simp, fun w hw p hp => ⟨(hP w hw p hp).1, (hP w hw p hp).2.imp id fun h => by simpa using (hv p h).2⟩⟩
    | cons w wl => simp [search] at h
  | succ n ih =>
    intro wl vis P h hv hP
    cases wl with
    | nil => exact ⟨P, by simp, fun w hw p hp => ⟨(hP w hw p hp).1, (hP w hw p hp).2.imp id fun h => by simpa using (hv p h).2⟩⟩
    | cons w wl =>
      rw [search] at h
      cases hr : visit isAlias isDom (F.preds w) wl vis with
      | none => simp [hr] at h
      | some r =>
        simp only [hr] at h
        obtain ⟨new, h1, h2, h3, h4, _⟩ := visit_spec _ _ _ _ hr
        have hvis : ∀ v ∈ r.2, isAlias v = false ∧ (v ∈ w :: P ∨ v ∈ r.1) := by
          intro v hvm
          rw [h2] at hvm
          rcases List.mem_append.1 hvm with hvm | hvm
          · exact ⟨(h3 v hvm).1, Or.inr (by rw [h1]; simp [hvm])⟩
          · refine ⟨(hv v hvm).1, ?_⟩
            rcases (hv v hvm).2 with h | h
            · left; simp [h]
            · rcases List.mem_cons.1 h with rfl | h
              · left; simp
              · right; rw [h1]; simp [h]
        have hPr : ∀ x ∈ w :: P, ∀ p ∈ F.preds x, isAlias p = false ∧ (isDom p = true ∨ p ∈ r.2) := by
          intro x hx p hp
          rcases List.mem_cons.1 hx with rfl | hx
          · rcases h4 p hp with h | h
            · exact ⟨(hvis p h).1, Or.inr h⟩
            · exact ⟨h.1, Or.inl h.2⟩
          · exact ⟨(hP x hx p hp).1, (hP x hx p hp).2.imp id fun h => by rw [h2]; simp [h]⟩
        have main := ih r.1 r.2 (w :: P) h hvis hPr
        -- blocks which have been processed are in the closed set as well
        obtain ⟨W, hW1, hW2⟩ := main
        refine ⟨w :: P ++ W, ?_, ?_⟩
        · intro x hx
          rcases List.mem_cons.1 hx with rfl | hx
          · simp
          · have : x ∈ W := hW1 x (by rw [h1]; simp [hx])
            simp [this]
        · intro x hx p hp
          rcases List.mem_append.1 hx with hx | hx
          · refine ⟨(hPr x hx p hp).1, (hPr x hx p hp).2.imp id fun h => ?_⟩
            rcases (hvis p h).2 with h | h
            · exact List.mem_append.2 (Or.inl h)
            · exact List.mem_append.2 (Or.inr (hW1 p h))
          · exact ⟨(hW2 x hx p hp).1, (hW2 x hx p hp).2.imp id fun h => List.mem_append.2 (Or.inr h)⟩

theorem search_some {isAlias isDom : Nat → Bool} (m : Nat) (hm : ∀ b, ∀ p ∈ F.preds b, p < m) :
    ∀ (n : Nat) (wl vis : List Nat), vis.Nodup → (∀ v ∈ vis, v < m) → wl.length + (m - vis.length) ≤ n →
      (search F isAlias isDom n wl vis).isSome := by
  intro n
  induction n with
  | zero =>
    intro wl vis _ _ hn
    cases wl with
    | nil => simp [search]
    | cons w wl => simp at hn
  | succ n ih =>
    intro wl vis hd hv hn
    cases wl with
    | nil => simp [search]
    | cons w wl =>
      rw [search]
      cases hr : visit isAlias isDom (F.preds w) wl vis with
      | none => simp
      | some r =>
        simp only
        obtain ⟨new, h1, h2, h3, _, h5⟩ := visit_spec _ _ _ _ hr
        have hlt : ∀ v ∈ r.2, v < m := by
          intro v hvm
          rw [h2] at hvm
          rcases List.mem_append.1 hvm with h | h
          · exact hm w v (h3 v h).2
          · exact hv v h
        have hlen : r.2.length ≤ m := by
          have : r.2 ⊆ List.range m := fun v h => List.mem_range.2 (hlt v h)
          simpa using (List.subperm_of_subset (h5 hd) this).length_le
        apply ih
        · exact h5 hd
        · exact hlt
        · simp only [h1, h2, List.length_append, List.length_cons] at hlen hn ⊢
          omega

end Tsar.DbgValue
