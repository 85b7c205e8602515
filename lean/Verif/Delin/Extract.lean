import Verif.Delin.Props

/-!
# Subscripts which are taken from an address

Property C84.
-/

namespace Tsar
namespace Delin

section
variable {S : Type} (eval : S → Int)

/-! ## Specification -/

/-- A step which is made to calculate an address: a field of a structure at a specified offset, or an element. -/
inductive Move (S : Type) where
  | field (off : Nat)
  | elem (s : S) (t : Ty)

/-- Steps of a single instruction, the first index is applied first. -/
def Gep.moves (g : Gep S) : List (Move S) :=
  .elem g.first g.firstTy :: g.rest.map fun
    | .field n => .field n
    | .elem s t _ => .elem s t

/-- All steps from the base to the address. -/
def Ptr.moves : Ptr S → List (Move S)
  | .base => []
  | .gep g p => p.moves ++ g.moves
  | .cast p => p.moves

/-- An offset from the base. -/
def Move.off : Move S → Int
  | .field n => n
  | .elem s t => eval s * t.size

/-- Steps before the first field of a structure. -/
def beforeField : List (Move S) → List (Move S)
  | .elem s t :: l => .elem s t :: beforeField l
  | _ => []

/-- There are no casts between instructions. -/
def Ptr.Direct : Ptr S → Prop
  | .base => True
  | .gep _ p => p.Direct
  | .cast _ => False

/-- Only the last operations are casts. -/
def Ptr.NoInnerCast : Ptr S → Prop
  | .cast p => p.NoInnerCast
  | p => p.Direct

/-- An index with the mark of a zero has the value zero. -/
def Ptr.ZeroOk : Ptr S → Prop
  | .base => True
  | .gep g p => (g.firstZero = true → eval g.first = 0) ∧ p.ZeroOk
  | .cast p => p.ZeroOk

/-! ## Lemmas -/

variable {eval}

theorem beforeField_append (a b : List (Move S)) (h : ∀ m ∈ a, ∃ s t, m = .elem s t) :
    beforeField (a ++ b) = a ++ beforeField b := by
  induction a with
  | nil => rfl
  | cons m a ih =>
    obtain ⟨s, t, rfl⟩ := h m (by simp)
    simp only [List.cons_append, beforeField]
    rw [ih fun m hm => h m (by simp [hm])]

theorem beforeField_append_field (a b : List (Move S)) (h : ∃ n, .field n ∈ a) : beforeField (a ++ b) = beforeField a := by
  induction a with
  | nil => simp at h
  | cons m a ih =>
    cases m with
    | field n => rfl
    | elem s t =>
      simp only [List.cons_append, beforeField]
      rw [ih]
      obtain ⟨n, hn⟩ := h
      exact ⟨n, by simpa using hn⟩

/-- Steps of indexes. -/
def Idx.move : Idx S → Move S
  | .field n => .field n
  | .elem s t _ => .elem s t

theorem upToField_spec (l : List (Idx S)) :
    ((upToField l).1.map fun x => Move.elem x.1 x.2) = beforeField (l.map Idx.move) ∧
    ((upToField l).2 = true ↔ ∃ n, .field n ∈ l.map Idx.move) := by
  induction l with
  | nil => simp [upToField, beforeField]
  | cons i l ih =>
    cases i with
    | field n => simp [upToField, beforeField, Idx.move]
    | elem s t z =>
      simp only [upToField, List.map_cons, Idx.move, beforeField, ih.1, true_and]
      rw [ih.2]
      simp

theorem Gep.moves_eq (g : Gep S) : g.moves = .elem g.first g.firstTy :: g.rest.map Idx.move := by
  unfold Gep.moves
  congr 1

/-- The sum of offsets. -/
def total (eval : S → Int) (l : List (Move S)) : Int := (l.map (Move.off eval)).sum

theorem total_append (a b : List (Move S)) : total eval (a ++ b) = total eval a + total eval b := by
  simp [total]

theorem offset_total (l : List (S × Ty)) : offset eval l = total eval (l.map fun x => Move.elem x.1 x.2) := by
  simp only [offset, total, List.map_map]
  rfl

theorem offset_reverse (l : List (S × Ty)) : offset eval l.reverse = offset eval l := by
  simp only [offset, List.map_reverse, List.sum_reverse]

theorem indexes_spec (g : Gep S) (hz : g.firstZero = true → eval g.first = 0) :
    offset eval g.indexes.1 = total eval (beforeField g.moves) ∧
    (g.indexes.2 = true ↔ ∃ n, .field n ∈ g.moves) := by
  have hb : beforeField g.moves = .elem g.first g.firstTy :: beforeField (g.rest.map Idx.move) := by
    rw [Gep.moves_eq]; rfl
  rw [hb]
  unfold Gep.indexes
  split
  · rename_i hr
    rw [Gep.moves_eq, hr]
    simp [offset, total, beforeField, Move.off]
  · rename_i hr
    obtain ⟨u1, u2⟩ := upToField_spec g.rest
    simp only
    constructor
    · rw [offset_append, offset_reverse, offset_total, u1]
      simp only [total, List.map_cons, List.sum_cons, Move.off]
      split
      · rename_i h0
        rw [hz h0]
        simp [offset]
      · simp [offset, Int.add_comm]
    · rw [u2, Gep.moves_eq]
      simp

/-- Elements of steps before the first field. -/
theorem collect_spec : ∀ (p : Ptr S) (acc : List (S × Ty)) (rest : List (Move S)), p.Direct → p.ZeroOk eval →
    (offset eval acc = total eval (beforeField rest)) →
    offset eval (collect p.chain acc) = total eval (beforeField (p.moves ++ rest)) := by
  intro p
  induction p with
  | base =>
    intro acc rest _ _ h
    simpa [Ptr.chain, collect, Ptr.moves] using h
  | cast p _ => intro acc rest h; exact absurd h (by simp [Ptr.Direct])
  | gep g p ih =>
    intro acc rest hd hz h
    obtain ⟨i1, i2⟩ := indexes_spec g hz.1
    simp only [Ptr.chain, collect, Ptr.moves, List.append_assoc]
    refine ih _ (g.moves ++ rest) hd hz.2 ?_
    rw [offset_append, i1]
    by_cases hf : g.indexes.2 = true
    · rw [if_pos hf, beforeField_append_field _ _ (i2.1 hf)]
      simp [offset]
    · rw [if_neg hf, h]
      have hall : ∀ m ∈ g.moves, ∃ s t, m = .elem s t := by
        intro m hm
        cases m with
        | field n => exact absurd (i2.2 ⟨n, hm⟩) hf
        | elem s t => exact ⟨s, t, rfl⟩
      have hself : beforeField g.moves = g.moves := by
        have := beforeField_append g.moves [] hall
        simpa [beforeField] using this
      rw [beforeField_append _ _ hall, hself, total_append]
      ring

theorem geps_spec (p : Ptr S) (hc : p.NoInnerCast) (hz : p.ZeroOk eval) :
    offset eval (collect p.geps []) = total eval (beforeField p.moves) := by
  induction p with
  | base => simp [Ptr.geps, Ptr.chain, collect, Ptr.moves, offset, total, beforeField]
  | gep g p _ =>
    have := collect_spec (eval := eval) (.gep g p) [] [] hc hz (by simp [offset, total, beforeField])
    rw [List.append_nil] at this
    exact this
  | cast p ih =>
    simp only [Ptr.geps, Ptr.moves]
    exact ih hc hz

/-! ## Theorems -/

/-- C84 (partial). Subscripts of a range which are not truncated give the offset of the part of the path before the first
field of a structure. Missing: casts between instructions, see `extract_cast_fails`. -/
theorem mkRange_offset_partial (p : Ptr S) (numDims : Nat) (access known : Bool) (hc : p.NoInnerCast) (hz : p.ZeroOk eval)
    (hi : (mkRange p numDims access known).ignoreGep = false) :
    offset eval (mkRange p numDims access known).subs = total eval (beforeField p.moves) := by
  have h := geps_spec p hc hz
  unfold mkRange extract at *
  simp only at hi ⊢
  split
  · rename_i hlt
    rw [if_pos hlt] at hi
    simp at hi
  · rw [offset_reverse]
    exact h

/-- C84 (partial). If there are no structures, subscripts give the offset of the address. -/
theorem mkRange_address_partial (p : Ptr S) (numDims : Nat) (access known : Bool) (hc : p.NoInnerCast) (hz : p.ZeroOk eval)
    (hf : ∀ n, .field n ∉ p.moves) (hi : (mkRange p numDims access known).ignoreGep = false) :
    offset eval (mkRange p numDims access known).subs = total eval p.moves := by
  rw [mkRange_offset_partial p numDims access known hc hz hi]
  have := beforeField_append p.moves [] (by
    intro m hm
    cases m with
    | field n => exact absurd hm (hf n)
    | elem s t => exact ⟨s, t, rfl⟩)
  simp only [List.append_nil] at this
  rw [this]
  simp [beforeField]

/-- C84. The number of subscripts is not greater than the number of dimensions (if it is known), a range which does not use
all subscripts is marked, and an element with a smaller number of subscripts is marked. -/
theorem mkRange_count (p : Ptr S) (numDims : Nat) (access known : Bool) :
    (0 < numDims → (mkRange p numDims access known).subs.length ≤ numDims) ∧
    ((mkRange p numDims access known).ignoreGep = true ↔ 0 < numDims ∧ numDims < (collect p.geps []).length) ∧
    ((mkRange p numDims access known).needZero = true ↔ access = true ∧ (collect p.geps []).length < numDims) ∧
    (mkRange p numDims access known).isElement = access ∧ (mkRange p numDims access known).noGep = !known ∧
    (mkRange p numDims access known).subs <+: (collect p.geps []).reverse := by
  unfold mkRange extract
  simp only
  split
  · rename_i h
    simp only [List.length_reverse, gt_iff_lt] at h
    refine ⟨fun _ => by simp, by simpa using h, ?_, trivial, trivial, List.take_prefix _ _⟩
    simp only [Bool.and_eq_true, decide_eq_true_eq, List.length_take, List.length_reverse]
    constructor
    · intro ⟨h1, h2⟩; exact ⟨h1, by omega⟩
    · intro ⟨h1, h2⟩; exact ⟨h1, by omega⟩
  · rename_i h
    simp only [List.length_reverse, gt_iff_lt, not_and] at h
    refine ⟨fun h0 => by simp only [List.length_reverse]; have := h h0; omega, ?_, by simp, trivial, trivial, List.prefix_refl _⟩
    simp only [Bool.not_true, Bool.false_eq_true, false_iff, not_and]
    exact h

end

end Delin
end Tsar
