import Verif.Register.Model

/-!
# Registers of items: C29
-/

namespace Tsar
namespace Register

variable {T : Type} [DecidableEq T]

/-- An operation of a user. -/
inductive Op (T : Type) where
  | reg (x : T)
  | clear (first : BitVec 64)

/-- Effect of an operation on the register. -/
def Reg.step (r : Reg T) : Op T → Reg T
  | .reg x => (r.regItem x).1
  | .clear n => r.clear n

/-- The register after a history. -/
def Reg.run (first : BitVec 64) (ops : List (Op T)) : Reg T := ops.foldl Reg.step (Reg.init first)

/-! ## Specification: the first identifier and different items in the order of registration -/

/-- Effect of an operation. -/
def Spec.step (s : BitVec 64 × List T) : Op T → BitVec 64 × List T
  | .reg x => (s.1, if x ∈ s.2 then s.2 else s.2 ++ [x])
  | .clear n => (n, [])

/-- The state after a history. -/
def Spec.run (first : BitVec 64) (ops : List (Op T)) : BitVec 64 × List T :=
  ops.foldl Spec.step (first, [])

/-! ## Invariant -/

/-- The register for a list of different items. -/
def mk (first : BitVec 64) (l : List T) : Reg T :=
  ⟨first + BitVec.ofNat 64 l.length, l.zipIdx.map (fun p => (p.1, first + BitVec.ofNat 64 p.2))⟩

omit [DecidableEq T] in
theorem mk_append (first : BitVec 64) (l : List T) (x : T) :
    mk first (l ++ [x]) =
      ⟨(mk first l).idNum + 1, (mk first l).items ++ [(x, (mk first l).idNum)]⟩ := by
  unfold mk
  simp only [List.length_append, List.length_cons, List.length_nil, List.zipIdx_append, List.map_append,
    Reg.mk.injEq]
  constructor
  · rw [BitVec.add_assoc]
    congr 1
    apply BitVec.eq_of_toNat_eq
    simp
  · simp

omit [DecidableEq T] in
theorem find_zipIdx [DecidableEq T] (l : List T) (n : Nat) (f : Nat → BitVec 64) (x : T) :
    (((l.zipIdx n).map (fun p => (p.1, f p.2))).find? (·.1 = x)).map (·.2) =
      if x ∈ l then some (f (n + l.idxOf x)) else none := by
  induction l generalizing n with
  | nil => simp
  | cons y ys ih =>
    rw [List.zipIdx_cons, List.map_cons]
    by_cases h : y = x
    · subst h
      simp
    · rw [List.find?_cons_of_neg (by simpa using h), ih]
      have hx : x ≠ y := fun hc => h hc.symm
      simp only [List.mem_cons, hx, false_or]
      have hi : (y :: ys).idxOf x = ys.idxOf x + 1 := by
        rw [List.idxOf_cons, beq_false_of_ne h]; rfl
      rw [hi]
      split
      · congr 2; omega
      · rfl

theorem mk_find (first : BitVec 64) (l : List T) (x : T) :
    (mk first l).find x = if x ∈ l then some (first + BitVec.ofNat 64 (l.idxOf x)) else none := by
  unfold Reg.find mk
  rw [find_zipIdx l 0 (fun n => first + BitVec.ofNat 64 n) x]
  simp

theorem step_mk (first : BitVec 64) (l : List T) (o : Op T) :
    (mk first l).step o = mk (Spec.step (first, l) o).1 (Spec.step (first, l) o).2 := by
  cases o with
  | reg x =>
    simp only [Reg.step, Reg.regItem, Spec.step]
    rw [mk_find]
    by_cases h : x ∈ l
    · simp [h]
    · simp only [h, if_false]
      rw [mk_append]
  | clear n =>
    simp [Reg.step, Reg.clear, Spec.step, mk]

theorem run_mk (first : BitVec 64) (ops : List (Op T)) :
    Reg.run first ops = mk (Spec.run first ops).1 (Spec.run first ops).2 := by
  have : ∀ (f : BitVec 64) (l : List T),
      ops.foldl Reg.step (mk f l) = mk (ops.foldl Spec.step (f, l)).1 (ops.foldl Spec.step (f, l)).2 := by
    induction ops with
    | nil => intro f l; rfl
    | cons o os ih =>
      intro f l
      rw [List.foldl_cons, List.foldl_cons, step_mk]
      exact ih _ _
  have h := this first []
  have hi : (mk first [] : Reg T) = Reg.init first := by simp [mk, Reg.init]
  rw [hi] at h
  exact h

theorem spec_nodup (first : BitVec 64) (ops : List (Op T)) : (Spec.run first ops).2.Nodup := by
  have : ∀ s : BitVec 64 × List T, s.2.Nodup → (ops.foldl Spec.step s).2.Nodup := by
    induction ops with
    | nil => exact fun s h => h
    | cons o os ih =>
      intro s h
      refine ih _ ?_
      cases o with
      | reg x =>
        simp only [Spec.step]
        split
        · exact h
        · rw [List.nodup_append]
          refine ⟨h, by simp, ?_⟩
          rintro a ha b hb rfl
          exact (by assumption : ¬ x ∈ s.2) (List.mem_singleton.1 hb ▸ ha)
      | clear n => simp [Spec.step]
  exact this _ (by simp)

/-! ## C29 -/

/-- **C29.** After every history of registrations the item which was registered at the position `i`
(repeated registrations do not count) has the identifier `first + i`, other items have no
identifiers. -/
theorem register_ids (first : BitVec 64) (ops : List (Op T)) :
    (∀ i (h : i < (Spec.run first ops).2.length),
      (Reg.run first ops).find ((Spec.run first ops).2[i]) = some ((Spec.run first ops).1 + BitVec.ofNat 64 i)) ∧
    (∀ x, x ∉ (Spec.run first ops).2 → (Reg.run first ops).find x = none) := by
  rw [run_mk]
  constructor
  · intro i h
    rw [mk_find, if_pos (List.getElem_mem h), List.Nodup.idxOf_getElem (spec_nodup first ops)]
  · intro x hx
    rw [mk_find, if_neg hx]

/-- **C29.** Different items have different identifiers if there are at most 2^64 items. -/
theorem register_unique (first : BitVec 64) (ops : List (Op T)) (x y : T) (i : BitVec 64)
    (hn : (Spec.run first ops).2.length ≤ 2 ^ 64)
    (hx : (Reg.run first ops).find x = some i) (hy : (Reg.run first ops).find y = some i) : x = y := by
  rw [run_mk, mk_find] at hx hy
  split at hx
  · split at hy
    · rename_i h1 h2
      have h := hx.trans hy.symm
      rw [Option.some.injEq, BitVec.add_right_inj] at h
      have h := congrArg BitVec.toNat h
      have a1 := List.idxOf_lt_length_of_mem h1
      have a2 := List.idxOf_lt_length_of_mem h2
      simp only [BitVec.toNat_ofNat] at h
      rw [Nat.mod_eq_of_lt (by omega), Nat.mod_eq_of_lt (by omega)] at h
      rw [← List.getElem_idxOf a1, ← List.getElem_idxOf a2]
      simp only [h]
    · simp at hy
  · simp at hx

/-- **C29.** The result of a registration is the identifier of the item, which is stable, and the flag
is `true` if and only if the item has not been registered yet. -/
theorem register_result (first : BitVec 64) (ops : List (Op T)) (x : T) :
    let r := Reg.run first ops
    ((r.regItem x).2.2 = true ↔ x ∉ (Spec.run first ops).2) ∧
    (r.regItem x).1.find x = some (r.regItem x).2.1 ∧
    (∀ y i, r.find y = some i → (r.regItem x).1.find y = some i) := by
  intro r
  have hr : r = mk _ _ := run_mk first ops
  generalize (Spec.run first ops).1 = f at hr
  generalize (Spec.run first ops).2 = l at hr
  subst r
  rw [hr]
  unfold Reg.regItem
  rw [mk_find]
  by_cases h : x ∈ l
  · simp only [h, if_true, not_true]
    refine ⟨by simp, ?_, fun y i h => h⟩
    rw [mk_find, if_pos h]
  · simp only [h, if_false, not_false_iff]
    refine ⟨by simp, ?_, ?_⟩
    · rw [← mk_append, mk_find]
      simp [List.idxOf_append, h, mk]
    · intro y i hy
      rw [← mk_append, mk_find]
      rw [mk_find] at hy
      split at hy
      · rename_i hm
        rw [if_pos (List.mem_append_left _ hm), List.idxOf_append, if_pos hm]
        exact hy
      · simp at hy

/-- **C29.** If numbering starts from zero `numberOfIDs` is the number of registered items. -/
theorem register_count_partial (first : BitVec 64) (ops : List (Op T)) (h0 : (Spec.run first ops).1 = 0) :
    (Reg.run first ops).numberOfIDs = BitVec.ofNat 64 (Spec.run first ops).2.length := by
  rw [run_mk]
  simp [Reg.numberOfIDs, mk, h0]

/-- **C29.** The documentation of `numberOfIDs` ("number of items that have been registered") is wrong
if numbering does not start from zero. -/
theorem register_count_fails :
    (Reg.run 5 [Op.reg 'a']).numberOfIDs = 6 ∧ (Spec.run 5 [Op.reg 'a']).2.length = 1 := by
  decide +kernel

/-- A history with repeated items and items of two types. -/
def sample : List (Op (Nat ⊕ Bool)) := [.reg (.inl 7), .reg (.inr true), .reg (.inl 7), .reg (.inl 1)]

example : (Reg.run 10 sample).items = [(.inl 7, 10), (.inr true, 11), (.inl 1, 12)] := by decide +kernel

example : (Spec.run 10 sample) = (10, [.inl 7, .inr true, .inl 1]) := by decide +kernel

end Register
end Tsar
