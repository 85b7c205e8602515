import Verif.Delin.Fill
import Verif.Delin.Extract
import Verif.Scev.Examples

/-!
# Examples and accesses which are delinearized incorrectly

Properties C82-C84.
-/

namespace Tsar
namespace Delin

open Scev

/-- A symbolic variable. -/
abbrev v (i : Nat) : X := .x 64 i

/-- An element (8 bytes). -/
abbrev dbl : Ty := .scalar 0 8

/-- A value of each variable is its number. -/
abbrev ev : X → Int := X.eval (fun i => i) fun _ => 0

theorem evSound : exSe.Sound ev fun _ => 0 := exSound _ _

theorem get2 {α : Type} {a b x : α} {i : Nat} (h : [a, b][i]? = some x) (hi : 1 ≤ i) : i = 1 ∧ x = b := by
  rcases i with _ | _ | i
  · omega
  · exact ⟨rfl, by simpa using h.symm⟩
  · simp at h

theorem get3 {α : Type} {a b c x : α} {i : Nat} (h : [a, b, c][i]? = some x) (hi : 1 ≤ i) : i = 1 ∧ x = b ∨ i = 2 ∧ x = c := by
  rcases i with _ | _ | _ | i
  · omega
  · exact .inl ⟨rfl, by simpa using h.symm⟩
  · exact .inr ⟨rfl, by simpa using h.symm⟩
  · simp at h

theorem get4 {α : Type} {a b c d x : α} {i : Nat} (h : [a, b, c, d][i]? = some x) (hi : 1 ≤ i) :
    i = 1 ∧ x = b ∨ i = 2 ∧ x = c ∨ i = 3 ∧ x = d := by
  rcases i with _ | _ | _ | _ | i
  · omega
  · exact .inl ⟨rfl, by simpa using h.symm⟩
  · exact .inr (.inl ⟨rfl, by simpa using h.symm⟩)
  · exact .inr (.inr ⟨rfl, by simpa using h.symm⟩)
  · simp at h

/-- `double A[][x1][10]`: the last size is constant. -/
abbrev dims3 : List (Option X) := [none, some (v 1), some (.c 64 10)]

theorem shape3 : Shape exSe ev 64 dims3 [0, 1, 10] (.arr 10 dbl) where
  len := rfl
  size := by
    intro i x hi h
    rcases get3 h hi with ⟨rfl, rfl⟩ | ⟨rfl, rfl⟩
    · exact ⟨v 1, rfl, rfl, Int.ModEq.refl _⟩
    · exact ⟨.c 64 10, rfl, rfl, Int.ModEq.refl _⟩
  tail := rfl

/-- `double A[][x1]`. -/
abbrev dims2 : List (Option X) := [none, some (v 1)]

theorem shape2 : Shape exSe ev 64 dims2 [0, 1] dbl where
  len := rfl
  size := by
    intro i x hi h
    obtain ⟨rfl, rfl⟩ := get2 h hi
    exact ⟨v 1, rfl, rfl, Int.ModEq.refl _⟩
  tail := rfl

/-- `double A[][x1][x2][x3]`. -/
abbrev dims4 : List (Option X) := [none, some (v 1), some (v 2), some (v 3)]

theorem shape4 : Shape exSe ev 64 dims4 [0, 1, 2, 3] dbl where
  len := rfl
  size := by
    intro i x hi h
    rcases get4 h hi with ⟨rfl, rfl⟩ | ⟨rfl, rfl⟩ | ⟨rfl, rfl⟩
    · exact ⟨v 1, rfl, rfl, Int.ModEq.refl _⟩
    · exact ⟨v 2, rfl, rfl, Int.ModEq.refl _⟩
    · exact ⟨v 3, rfl, rfl, Int.ModEq.refl _⟩
  tail := rfl

/-! ## Hypotheses of theorems are satisfiable -/

/-- `A[x5][x6][x7]`. -/
abbrev full3 : Rng X := { subs := [(.mul (v 5) (v 1), .arr 10 dbl), (v 6, .arr 10 dbl), (v 7, dbl)] }

example : clean exSe true 20 64 dims3 dbl full3 = some (some ([v 5, v 6, v 7], false)) := by rfl

example : rowMajor 8 [0, 1, 10] [5, 6, 7] ≡ offset ev full3.subs [ZMOD 2 ^ 64] :=
  (clean_complete_partial evSound 20 64 dims3 _ _ dbl full3 shape3 (by decide) rfl ⟨[], rfl⟩ [v 5, v 6, v 7] (by rfl)).2

/-- `A[0][x5]`, the first subscript is omitted. -/
abbrev zero2 : Rng X := { subs := [(v 5, dbl)], needZero := true }

example : rowMajor 8 [0, 1] [0, 5] ≡ offset ev zero2.subs [ZMOD 2 ^ 64] :=
  (clean_zero_partial evSound 20 64 dims2 _ 0 8 dbl zero2 shape2 (by decide) rfl rfl (by decide) [.c 64 0, v 5] (by rfl)).2

/-- `A[x5][x6][0]`, the last subscript is omitted. -/
abbrev tail3 : Rng X := { subs := [(.mul (v 5) (v 1), .arr 10 dbl), (v 6, .arr 10 dbl)], needZero := true }

theorem tail3_exact (i : Nat) (s : X × Ty) (hi : i + 1 < lastConst exSe dims3) (h : tail3.subs[i]? = some s) :
    Exact exSe 20 ((dims3.take (lastConst exSe dims3)).drop (i + 1)) s.1 := by
  have h2 : lastConst exSe dims3 = 2 := by rfl
  rw [h2] at hi ⊢
  have h0 : i = 0 := by omega
  subst h0
  simp only [List.getElem?_cons_zero, Option.some.injEq] at h
  subst h
  exact ⟨v 1, ⟨v 5, .c 64 0, true, false⟩, rfl, by rfl, by rfl, trivial⟩

example : ∃ new bad, clean exSe true 20 64 dims3 dbl tail3 = some (some (new, bad)) ∧ new.length = 3 ∧
    (bad = false → rowMajor 8 [0, 1, 10] (new.map ev) ≡ offset ev tail3.subs [ZMOD 2 ^ 64]) :=
  clean_tail_partial evSound 20 64 dims3 _ _ dbl tail3 shape3 (by decide) rfl rfl (by decide)
    (fun h => absurd h (by decide +kernel)) [] (by rfl) (List.nil_sublist _) tail3_exact

example : clean exSe true 20 64 dims3 dbl tail3 = some (some ([v 5, v 6, .c 64 0], false)) := by rfl

/-- All sizes are constant: `double A[10][20]`, `A[x5][0]`. -/
example : clean exSe true 20 64 [some (.c 64 10), some (.c 64 20)] (.arr 10 (.arr 20 dbl))
    { subs := [(v 5, .arr 20 dbl)], needZero := true } = some (some ([v 5, .c 64 0], false)) := by rfl

/-- `double A[10][20]`, `A[0][x5]`. -/
example : clean exSe true 20 64 [some (.c 64 10), some (.c 64 20)] (.arr 10 (.arr 20 dbl))
    { subs := [(v 5, dbl)], needZero := true } = some (some ([.c 64 0, v 5], false)) := by rfl

/-- Subscripts are kept. -/
example : [v 5].Sublist [.c 64 0, v 5] :=
  clean_keeps exSe true 20 64 [some (.c 64 10), some (.c 64 20)] (.arr 10 (.arr 20 dbl))
    { subs := [(v 5, dbl)], needZero := true } (by rfl) _ _ rfl

/-! ## Accesses which are delinearized incorrectly -/

/-- C82: subscripts of `A[0][0][x5][x6]` are 0, 0, x5*x3 and x6 if zeros are omitted: the loop over dimensions is finished
too early. -/
theorem clean_shift_fails : ¬ ∀ (E : Se) (eval : E.S → Int) (iter : Nat → Int), E.Sound eval iter → ∀ (f w : Nat)
    (dims : List (Option E.S)) (vs : List Int) (tail base : Ty) (r : Rng E.S), Shape E eval w dims vs tail →
    (∀ s ∈ r.subs, E.ty s.1 = w) → r.needZero = true → r.subs.length < dims.length →
    (r.subs.map (·.2)).Sublist (List.replicate (lastConst E dims) tail ++ tail.inner) → ∀ (new : List E.S),
    clean E true f w dims base r = some (some (new, false)) → new.length = dims.length →
    rowMajor tail.leaf vs (new.map eval) ≡ offset eval r.subs [ZMOD 2 ^ w] := by
  intro h
  have := h exSe ev (fun _ => 0) evSound 20 64 dims4 _ _ dbl
    { subs := [(.mul (v 5) (v 3), dbl), (v 6, dbl)], needZero := true } shape4 (by decide) rfl (by decide) (by decide +kernel)
    [.c 64 0, .c 64 0, .mul (v 5) (v 3), v 6] (by rfl) rfl
  revert this
  decide +kernel

/-- C82: the number of subscripts of `A[x5][0][x6]` is two if a zero is omitted, although this is an element of an array
with three dimensions. -/
theorem clean_tail_fails : ¬ ∀ (E : Se) (eval : E.S → Int) (iter : Nat → Int), E.Sound eval iter → ∀ (f w : Nat)
    (dims : List (Option E.S)) (vs : List Int) (tail base : Ty) (r : Rng E.S), Shape E eval w dims vs tail →
    (∀ s ∈ r.subs, E.ty s.1 = w) → r.needZero = true → r.subs.length < dims.length →
    (r.subs.map (·.2)).Sublist (List.replicate (lastConst E dims) tail ++ tail.inner) → ∀ (new : List E.S),
    clean E true f w dims base r = some (some (new, false)) → new.length = dims.length := by
  intro h
  have := h exSe ev (fun _ => 0) evSound 20 64 dims3 _ _ dbl
    { subs := [(.mul (v 5) (v 1), .arr 10 dbl), (v 6, dbl)], needZero := true } shape3 (by decide) rfl (by decide)
    (by decide +kernel) [v 5, v 6] (by rfl)
  revert this
  decide +kernel

/-- C82: types of subscripts are not checked. An access to a byte of an array of doubles is treated as an access to an
element. -/
theorem clean_type_fails : ¬ ∀ (E : Se) (eval : E.S → Int) (iter : Nat → Int), E.Sound eval iter → ∀ (f w : Nat)
    (dims : List (Option E.S)) (vs : List Int) (tail base : Ty) (r : Rng E.S), Shape E eval w dims vs tail →
    (∀ s ∈ r.subs, E.ty s.1 = w) → r.needZero = false → r.subs.length = dims.length → ∀ (new : List E.S),
    clean E true f w dims base r = some (some (new, false)) →
    rowMajor tail.leaf vs (new.map eval) ≡ offset eval r.subs [ZMOD 2 ^ w] := by
  intro h
  have := h exSe ev (fun _ => 0) evSound 20 64 [none] [0] dbl dbl { subs := [(v 5, .scalar 1 1)] }
    ⟨rfl, fun i x hi hx => by
      rcases i with _ | i
      · omega
      · simp at hx, rfl⟩ (by decide) rfl rfl [v 5] (by rfl)
  revert this
  decide +kernel

/-! ## Sizes of dimensions -/

/-- Accesses `A[x5][x6]` and `A[0][x7]` to an array with rows of x1 elements. -/
abbrev ranges2 : List (Rng X) :=
  [{ subs := [(.mul (v 1) (v 5), dbl), (v 6, dbl)] }, { subs := [(v 7, dbl)], needZero := true }]

example : (fill exSe id true 20 64 [] [none, none] ranges2).map (fun r => (r.dims, r.delin, r.bad, r.exact)) =
    some ([none, some (.mul (v 1) (v 5))], true, false, true) := by rfl

/-- Accesses `A[i*x1][..]` in a loop. -/
abbrev ranges2' : List (Rng X) := [{ subs := [(.mul (v 1) (.ar (v 5) (.c 64 1) 0), dbl), (v 6, dbl)] }]

/-- The result for the loop. -/
abbrev res2 : Filled X := ⟨[none, some (v 1)], ranges2', true, false, true⟩

theorem fill2 : fill exSe id true 20 64 [0] [none, none] ranges2' = some res2 := by rfl

example : (∀ i, 1 ≤ i → i < 2 → ∃ s, res2.dims[i]? = some (some s)) :=
  (fill_known_partial evSound exAffine id (fun _ _ => Iff.rfl) 20 64 [0] [none, none] ranges2' (by decide) (by simp) (by
    intro i s hi h
    obtain ⟨-, h⟩ := get2 h hi
    simp at h) res2 fill2 rfl rfl rfl).2.2.2.1

theorem fill2' : fill exSe id true 20 64 [0] [] ranges2' = some res2 := by rfl

example : 0 < res2.dims.length :=
  (fill_unknown_partial evSound exAffine id (fun _ _ => Iff.rfl) 20 64 [0] ranges2' (by decide) res2 fill2' rfl rfl rfl).1

/-- C83: a remainder is ignored, so a size of a dimension may be equal to zero, then a subscript is divided by zero: the
array `A[][?][x1]` and the access with subscripts 5, x6 and x7. -/
theorem fill_zero_fails : ∃ (dims : List (Option X)) (r : Rng X) (res : Filled X), Full r ∧ r.subs.length = dims.length ∧
    fill exSe id true 20 64 [] dims [r] = some res ∧ res.delin = true ∧
    (∃ s, res.dims[1]? = some (some s) ∧ ev s = 0) ∧ clean exSe true 20 64 res.dims dbl r = none :=
  ⟨[none, none, some (v 1)], { subs := [(.c 64 5, dbl), (v 6, dbl), (v 7, dbl)] },
    ⟨[none, some (.c 64 0), some (v 1)], [{ subs := [(.c 64 5, dbl), (v 6, dbl), (v 7, dbl)] }], true, false, false⟩,
    ⟨rfl, rfl⟩, rfl, by rfl, rfl, ⟨.c 64 0, rfl, rfl⟩, by rfl⟩

/-- C83: if sizes of dimensions are not available in metadata, types of subscripts are not taken into account: for
`double A[][10]` the size of the second dimension is x5 if the access is `A[x5][x6]`, and the address of the access with
delinearized subscripts is different. -/
theorem fill_type_fails : ∃ (r : Rng X) (res : Filled X) (new : List X), Full r ∧
    r.subs.map (·.2) = [.arr 10 dbl, dbl] ∧ fill exSe id true 20 64 [] [] [r] = some res ∧ res.delin = true ∧ res.bad = false ∧
    res.exact = true ∧ res.dims = [none, some (v 5)] ∧ clean exSe true 20 64 res.dims dbl r = some (some (new, false)) ∧
    ¬ rowMajor 8 [0, ev (v 5)] (new.map ev) ≡ offset ev r.subs [ZMOD 2 ^ 64] :=
  ⟨{ subs := [(v 5, .arr 10 dbl), (v 6, dbl)] },
    ⟨[none, some (v 5)], [{ subs := [(v 5, .arr 10 dbl), (v 6, dbl)] }], true, false, true⟩, [.c 64 1, v 6],
    ⟨rfl, rfl⟩, rfl, by rfl, rfl, rfl, rfl, rfl, by rfl, by decide +kernel⟩

/-! ## Subscripts which are taken from an address -/

/-- `S[i].A[j]`: a structure of 80 bytes, the array is a field at offset 8. -/
abbrev fieldPtr : Ptr X :=
  .cast (.gep ⟨.c 64 0, .arr 9 dbl, true, [.elem (v 6) dbl false]⟩
    (.gep ⟨v 5, .scalar 2 80, false, [.field 8]⟩ .base))

example : (mkRange fieldPtr 1 true true).subs = [(v 5, .scalar 2 80)] := by rfl

example : offset ev (mkRange fieldPtr 1 true true).subs = total ev (beforeField fieldPtr.moves) :=
  mkRange_offset_partial fieldPtr 1 true true trivial ⟨fun _ => rfl, fun h => by simp at h, trivial⟩ (by rfl)

/-- `A[x5][x6]` for `double A[10][20]`. -/
abbrev arrPtr : Ptr X :=
  .gep ⟨.c 64 0, .arr 20 dbl, true, [.elem (v 6) dbl false]⟩
    (.gep ⟨.c 64 0, .arr 10 (.arr 20 dbl), true, [.elem (v 5) (.arr 20 dbl) false]⟩ .base)

example : offset ev (mkRange arrPtr 2 true true).subs = 5 * 160 + 6 * 8 :=
  (mkRange_address_partial arrPtr 2 true true trivial ⟨fun _ => rfl, fun _ => rfl, trivial⟩ (by simp [Ptr.moves, Gep.moves])
    (by rfl)).trans rfl

/-- C84: instructions before a cast are ignored, but the range is not marked. -/
theorem extract_cast_fails : ∃ p : Ptr X, p.ZeroOk ev ∧ (∀ n, Move.field n ∉ p.moves) ∧
    (mkRange p 1 true true).ignoreGep = false ∧ (mkRange p 1 true true).needZero = false ∧
    offset ev (mkRange p 1 true true).subs ≠ total ev p.moves :=
  ⟨.gep ⟨v 6, dbl, false, []⟩ (.cast (.gep ⟨v 5, dbl, false, []⟩ .base)), ⟨fun h => by simp at h, fun h => by simp at h, trivial⟩,
    by simp [Ptr.moves, Gep.moves], by rfl, by rfl, by decide +kernel⟩

end Delin
end Tsar
