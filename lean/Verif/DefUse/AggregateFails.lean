import Verif.DefUse.Aggregate

/-!
# Aggregation of accesses to arrays: examples and disagreements (C88)
-/

namespace Tsar
namespace DefUse

open Tsar.Range Tsar.MemSet

/-! ## Examples -/

/-- `double A[10][20]`. -/
abbrev matrix (subs : List Sub) : Acc := { base := 0, elem := some 8, dims := [.const 10, .const 20], subs := subs }

/-- An element which is accessed by an instruction. -/
abbrev elem8 : Loc := ⟨some 1, some 0, some 8, [], Kind.default⟩

/-- The body of the loop 0 is executed 10 times, of the loop 1 20 times. -/
abbrev cnt2 (l : Nat) : Nat := if l = 0 then 10 else 20

/-- Headers of loops are executed once more. -/
abbrev nest : Ctx := { reg := .loop fun _ => true, trip := fun l => cnt2 l + 1 }

/-- `for (i = 0; i < 10; ++i) for (j = 19; j >= 0; --j) A[i][j]`. -/
abbrev whole : List Sub := [⟨.addRec 0 (some 1) 0, true⟩, ⟨.addRec 1 (some (-1)) 0, true⟩]

abbrev wholeValue : List Value := [fun it => it 0, fun it => 19 - it 1]

abbrev wholeRange : Loc := ⟨some 0, some 0, some 8, [⟨0, 1, 10, 10⟩, ⟨0, 1, 20, 20⟩], collapsed⟩

theorem whole_aggregate : aggregate nest (some (matrix whole)) elem8 = (wholeRange, true) := by rfl

theorem whole_regular : List.Forall₂ (fun s f => Regular nest cnt2 s.expr f) (matrix whole).subs wholeValue := by
  refine .cons ⟨0, fun it => by simp, rfl, rfl⟩ (.cons ⟨19, fun it => ?_, rfl, rfl⟩ .nil)
  show (19 : Int) - it 1 = 19 + -1 * it 1
  ring

/-- All elements and only they are accessed. -/
example (b : Nat) : MemSet.Reach wholeRange b ↔ Accessed [10, 20] 8 cnt2 wholeValue b :=
  ⟨aggregate_must_partial nest (matrix whole) elem8 rfl _ _ whole_aggregate rfl [10, 20]
    (.cons (fun _ h => (Sz.const.inj h).symm) .nil) cnt2 (fun l => by unfold cnt2; split <;> omega) _ whole_regular (by decide) 8 rfl b,
   fun h => (aggregate_may_partial nest (matrix whole) elem8 rfl _ _ whole_aggregate rfl [10, 20]
    (.cons (fun _ h => (Sz.const.inj h).symm) .nil) cnt2 _ whole_regular 8 rfl b h).2⟩

/-- The range belongs to the outer loop. -/
example : (fun _ : Nat => true) 1 = true :=
  aggregate_own nest (fun _ => true) rfl (matrix whole) elem8 rfl _ whole_aggregate rfl 1 (by decide)

/-- The range is not a part of the inner loop. -/
example : (aggregate { nest with reg := .loop fun l => l == 1 } (some (matrix whole)) elem8).1 = elem8 := by rfl

/-- A single access is not aggregated. -/
example : (aggregate { nest with reg := .null } (some (matrix whole)) elem8).1 = elem8 := by rfl

/-! ## Disagreements -/

/-- The meaning of subscripts which may be obtained from scalar evolution: a recurrence is a progression with a beginning which
may depend on other loops and variables, the lower bound is not necessarily reached. -/
def Means (n : Nat → Nat) : Expr → Value → Prop
  | .const c, f => ∀ it, f it = c
  | .addRec l (some s) m, f => ∃ start : Value, (∀ it it', (∀ k, k ≠ l → it k = it' k) → start it = start it') ∧
      (∀ it, f it = start it + s * it l) ∧ ∀ it, Run n it → m ≤ f it
  | _, _ => True

/-- Each accessed byte belongs to the range. -/
def May : Prop := ∀ (C : Ctx) (a : Acc) (loc : Loc) (res : Loc) (own : Bool), loc.kind = Kind.default →
  aggregate C (some a) loc = (res, own) → res.kind.collapsed = true → ∀ (sizes : List Nat), SizesOK a.dims sizes →
  ∀ (cnt : Nat → Nat), (∀ l, cnt l = C.trip l - 1) → (∀ l, 0 < cnt l) → ∀ (fs : List Value),
  List.Forall₂ (fun s f => Means cnt s.expr f) a.subs fs → ∀ e, a.elem = some e →
  ∀ b, Accessed sizes e cnt fs b → MemSet.Reach res b

/-- Each byte of the range is accessed. -/
def Must : Prop := ∀ (C : Ctx) (a : Acc) (loc : Loc) (res : Loc) (own : Bool), loc.kind = Kind.default →
  aggregate C (some a) loc = (res, own) → res.kind.collapsed = true → ∀ (sizes : List Nat), SizesOK a.dims sizes →
  ∀ (cnt : Nat → Nat), (∀ l, cnt l = C.trip l - 1) → (∀ l, 0 < cnt l) → ∀ (fs : List Value),
  List.Forall₂ (fun s f => Means cnt s.expr f) a.subs fs → ∀ e, a.elem = some e →
  ∀ b, MemSet.Reach res b → Accessed sizes e cnt fs b

/-- `double B[100]`. -/
abbrev vector (subs : List Sub) : Acc := { base := 0, elem := some 8, dims := [.const 100], subs := subs }

/-- Loops with 10 iterations. -/
abbrev ten : Ctx := { reg := .loop fun _ => true, trip := fun _ => 11 }

/-- `B[0:10]`. -/
abbrev first10 : Loc := ⟨some 0, some 0, some 8, [⟨0, 1, 10, 100⟩], collapsed⟩

theorem first10_reach {b : Nat} (h : MemSet.Reach first10 b) : b < 80 := by
  simp only [MemSet.Reach, collapsed, if_true, Loc.Byte] at h
  obtain ⟨v, hv, o, ho, rfl⟩ := h
  match v, hv with
  | [i], ⟨⟨k, hk, hi⟩, _⟩ =>
    simp only [linear, List.map_nil, List.prod_nil] at *
    omega
  | [], hv => simp [DimsMem] at hv
  | _ :: _ :: _, hv => simp [DimsMem] at hv

/-- C88: the beginning of a recurrence is a variable which is not negative (`for (i = n; i < n + 10; ++i) B[i]`). The range
begins from zero: accessed elements do not belong to the range (and `B[0]` belongs to it). -/
theorem aggregate_start_fails : ¬ May ∧ ¬ Must := by
  have hm : ∀ n : Int, 0 ≤ n → List.Forall₂ (fun s f => Means (fun _ => 10) (Sub.expr s) f)
      (vector [⟨.addRec 0 (some 1) 0, true⟩]).subs [fun it => n + it 0] := fun n hn =>
    .cons ⟨fun _ => n, fun _ _ _ => rfl, fun it => by simp, fun it _ => by show (0 : Int) ≤ n + it 0; omega⟩ .nil
  constructor
  · intro h
    have := h ten (vector [⟨.addRec 0 (some 1) 0, true⟩]) elem8 first10 true rfl (by rfl) rfl [100] .nil (fun _ => 10)
      (fun _ => rfl) (fun _ => by omega) [fun it => 50 + it 0] (hm 50 (by omega)) 8 rfl 400
      ⟨fun _ => 0, fun _ => by show 0 < 10; omega, 0, by omega, by simp [element]⟩
    have := first10_reach this
    omega
  · intro h
    obtain ⟨it, -, o, ho, hb⟩ := h ten (vector [⟨.addRec 0 (some 1) 0, true⟩]) elem8 first10 true rfl (by rfl) rfl [100] .nil
      (fun _ => 10) (fun _ => rfl) (fun _ => by omega) [fun it => 50 + it 0] (hm 50 (by omega)) 8 rfl 0 (by
        simp only [MemSet.Reach, collapsed, if_true, Loc.Byte]
        exact ⟨[0], ⟨⟨0, by simp, rfl⟩, trivial⟩, 0, by omega, rfl⟩)
    simp only [List.map_cons, List.map_nil, element, List.prod_nil] at hb
    push_cast at hb
    omega

/-- C88: a subscript which depends on two loops (`B[i + j]`): iterations of the outer loop are ignored. -/
theorem aggregate_nested_fails : ¬ May := by
  intro h
  have := h ten (vector [⟨.addRec 1 (some 1) 0, true⟩]) elem8 first10 true rfl (by rfl) rfl [100] .nil (fun _ => 10)
    (fun _ => rfl) (fun _ => by omega) [fun it => it 0 + it 1]
    (.cons ⟨fun it => it 0, fun it it' h => by simp [h 0 (by decide)], fun it => by simp, fun it _ => by
      show (0 : Int) ≤ it 0 + it 1; omega⟩ .nil) 8 rfl 144
    ⟨fun _ => 9, fun _ => by show 9 < 10; omega, 0, by omega, by simp [element]⟩
  have := first10_reach this
  omega

/-- C88: a loop with a condition at its end (`do B[i] = 0; while (++i < 11)`): the body and the header are executed the same number
of times, so the last iteration is lost even if subscripts are regular. -/
theorem aggregate_trip_fails : ¬ ∀ (C : Ctx) (a : Acc) (loc : Loc) (res : Loc) (own : Bool), loc.kind = Kind.default →
    aggregate C (some a) loc = (res, own) → res.kind.collapsed = true → ∀ (sizes : List Nat), SizesOK a.dims sizes →
    ∀ (cnt : Nat → Nat), (∀ l, cnt l = C.trip l) → ∀ (fs : List Value),
    List.Forall₂ (fun s f => ∃ (l : Nat) (c : Int), s.expr = .addRec l (some 1) c ∧ ∀ it, f it = c + (it l : Int)) a.subs fs → ∀ e, a.elem = some e →
    ∀ b, Accessed sizes e cnt fs b → MemSet.Reach res b := by
  intro h
  have := h ten (vector [⟨.addRec 0 (some 1) 0, true⟩]) elem8 first10 true rfl (by rfl) rfl [100] .nil (fun _ => 11)
    (fun _ => rfl) [fun it => it 0] (.cons ⟨0, 0, rfl, fun it => by simp⟩ .nil) 8 rfl 80
    ⟨fun _ => 10, fun _ => by show 10 < 11; omega, 0, by omega, by simp [element]⟩
  have := first10_reach this
  omega

/-- C88: the diagonal of a matrix (`for (i = 0; i < 10; ++i) A[i][i] = 0`): all elements are considered to be written even if
subscripts are regular. -/
theorem aggregate_diagonal_fails : ¬ ∀ (C : Ctx) (a : Acc) (loc : Loc) (res : Loc) (own : Bool), loc.kind = Kind.default →
    aggregate C (some a) loc = (res, own) → res.kind.collapsed = true → ∀ (sizes : List Nat), SizesOK a.dims sizes →
    ∀ (cnt : Nat → Nat), (∀ l, 0 < cnt l) → ∀ (fs : List Value),
    List.Forall₂ (fun s f => Regular C cnt s.expr f) a.subs fs → ∀ e, a.elem = some e →
    ∀ b, MemSet.Reach res b → Accessed sizes e cnt fs b := by
  intro h
  obtain ⟨it, hit, o, ho, hb⟩ := h ten (matrix [⟨.addRec 0 (some 1) 0, true⟩, ⟨.addRec 0 (some 1) 0, true⟩]) elem8
    ⟨some 0, some 0, some 8, [⟨0, 1, 10, 10⟩, ⟨0, 1, 10, 20⟩], collapsed⟩ true rfl (by rfl) rfl [10, 20]
    (.cons (fun _ h => (Sz.const.inj h).symm) .nil) (fun _ => 10) (fun _ => by omega) [fun it => it 0, fun it => it 0]
    (.cons ⟨0, fun it => by simp, rfl, rfl⟩ (.cons ⟨0, fun it => by simp, rfl, rfl⟩ .nil)) 8 rfl 8 (by
      simp only [MemSet.Reach, collapsed, if_true, Loc.Byte]
      exact ⟨[0, 1], ⟨⟨0, by simp, rfl⟩, ⟨1, by simp, rfl⟩, trivial⟩, 0, by omega, rfl⟩)
  simp only [List.map_cons, List.map_nil, element, List.prod_nil, List.prod_cons] at hb
  push_cast at hb
  omega

end DefUse
end Tsar
