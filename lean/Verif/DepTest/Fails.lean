import Verif.DepTest.Inst
/-!
# States in which the tests are wrong

Each theorem is a witness which violates soundness of a test.  All of them satisfy `SE.Laws`, hence
the mistake is in the test and not in the oracle, except for the last one which shows why overflows
are outside the model.
-/

namespace Tsar.DepTest

/-- Strong SIV: `A[s*i + 4]` and `A[s*j]` for `0 <= i, j <= 3` and `-1 <= s <= 3`.  The sign of `s` is
not known, the test takes `-s` for its absolute value and reports independence although for `s = 2`
iterations 0 and 2 access the same element. -/
theorem strongSIV_sign_fails :
    ∃ (se : SE (Fin 5 → Int) Unit (Fin 5)) (a c1 c2 : Fin 5 → Int) (e : Fin 5) (i j : Int),
      se.Laws ∧ se.Iter e () i ∧ se.Iter e () j ∧ se.val a e ≠ 0 ∧
      se.val c1 e + se.val a e * i = se.val c2 e + se.val a e * j ∧
      (strongSIV se a c1 c2 () (Dv.top _) true).indep = true := by
  refine ⟨perfect 4 fun _ => some fun _ => 3, fun e => (e.val : Int) - 1, fun _ => 4, fun _ => 0,
    3, 0, 2, perfect_laws .., ⟨by decide, ?_⟩, ⟨by decide, ?_⟩, by decide, by decide, by decide +kernel⟩ <;>
  · intro u hu; cases hu; decide

/-- Strong SIV: `A[s*i]` and `A[s*j]`; for `s = 0` iterations 0 and 1 access the same element, but
the only reported direction is `=`. -/
theorem strongSIV_zero_fails :
    ∃ (se : SE (Fin 2 → Int) Unit (Fin 2)) (a c1 c2 : Fin 2 → Int) (e : Fin 2) (i j : Int),
      se.Laws ∧ se.Iter e () i ∧ se.Iter e () j ∧
      se.val c1 e + se.val a e * i = se.val c2 e + se.val a e * j ∧ i < j ∧
      (strongSIV se a c1 c2 () (Dv.top _) true).dv.dir = .EQ := by
  refine ⟨perfect 1 fun _ => some fun _ => 3, fun e => (e.val : Int), fun _ => 0, fun _ => 0,
    0, 0, 1, perfect_laws .., ⟨by decide, ?_⟩, ⟨by decide, ?_⟩, by decide, by decide, by decide +kernel⟩ <;>
  · intro u hu; cases hu; decide

/-- Weak crossing SIV: `A[s*i]` and `A[-s*j]`, the same mistake. -/
theorem weakCrossing_zero_fails :
    ∃ (se : SE (Fin 2 → Int) Unit (Fin 2)) (a c1 c2 : Fin 2 → Int) (e : Fin 2) (i j : Int),
      se.Laws ∧ se.Iter e () i ∧ se.Iter e () j ∧
      se.val c1 e + se.val a e * i = se.val c2 e - se.val a e * j ∧ i < j ∧
      (weakCrossing se a c1 c2 () (Dv.top _)).dv.dir = .EQ := by
  refine ⟨perfect 1 fun _ => some fun _ => 3, fun e => (e.val : Int), fun _ => 0, fun _ => 0,
    0, 0, 1, perfect_laws .., ⟨by decide, ?_⟩, ⟨by decide, ?_⟩, by decide, by decide, by decide +kernel⟩ <;>
  · intro u hu; cases hu; decide

/-- Weak zero SIV: `A[s*i]` and `A[0]`; for `s = 0` iterations 2 and 1 access the same element, but
the reported directions are `<=` and it is promised that peeling of the first iteration breaks the
dependence. -/
theorem weakZeroDst_zero_fails :
    ∃ (se : SE (Fin 2 → Int) Unit (Fin 2)) (a c1 c2 : Fin 2 → Int) (e : Fin 2) (i j : Int),
      se.Laws ∧ se.Iter e () i ∧ se.Iter e () j ∧
      se.val c1 e + se.val a e * i = se.val c2 e ∧ j < i ∧ 0 < j ∧
      (weakZeroDst se a c1 c2 () true (Dv.top _)).dv.dir = .LE ∧
      (weakZeroDst se a c1 c2 () true (Dv.top _)).dv.peelFirst = true := by
  refine ⟨perfect 1 fun _ => some fun _ => 3, fun e => (e.val : Int), fun _ => 0, fun _ => 0,
    0, 2, 1, perfect_laws .., ⟨by decide, ?_⟩, ⟨by decide, ?_⟩, by decide, by decide, by decide, by decide +kernel,
    by decide +kernel⟩ <;>
  · intro u hu; cases hu; decide

/-- Exact SIV: `A[4*i]` and `A[2*j + 2]` for `0 <= i, j <= 1`.  The coefficients have a common
divisor, the bounds of directions are computed from coefficients which are not divided by it, and the
direction `=` is lost although iteration 1 accesses the same element twice. -/
theorem exactSIV_gcd_fails :
    ∃ (se : SE Int Unit Unit) (w : Nat) (a1 a2 c1 c2 : Int) (o : Out Int),
      se.Laws ∧ se.Iter () () 1 ∧ w = 63 ∧
      se.val c1 () + se.val a1 () * 1 = se.val c2 () + se.val a2 () * 1 ∧
      exactSIV se w a1 a2 c1 c2 () (Dv.top _) = some o ∧ o.dv.dir = .LT := by
  refine ⟨constSE (fun _ => some 1) fun _ _ => true, 63, 4, 2, 0, 2,
    (exactSIV (constSE (fun _ => some 1) fun _ _ => true) 63 4 2 0 2 () (Dv.top _)).get (by decide +kernel),
    constSE_laws .., ⟨by decide, ?_⟩, rfl, by decide, by simp, by decide +kernel⟩
  intro u hu; cases hu; decide

/-- Two accesses to an array of constant subscripts in one loop. -/
def ctx1 (ub : Int) : Ctx Int Unit Unit where
  se := constSE (fun _ => some ub) fun _ _ => true
  w := 63
  all := [()]
  common := [()]
  inNest _ _ := true
  inv _ _ := false

/-- The subscript `a*i + c`. -/
def sub1 (a c : Int) : Sub Int Unit := .addRec (.base c) a ()

/-- Subscripts of `A[i][4*i]` and `A[i][2*i + 2]`. -/
def pairs1 : Nat → Pair Int Unit
  | 0 => .linear (sub1 1 0) (sub1 1 0)
  | 1 => .linear (sub1 4 0) (sub1 2 2)
  | _ => .nonLinear

/-- The whole test: `A[i][4*i]` and `A[i][2*i + 2]` for `0 <= i <= 1`.  Independence is reported
although iteration 1 accesses `A[1][4]` twice. -/
theorem depends_gcd_fails :
    ∃ (c : Ctx Int Unit Unit) (n : Nat) (pairs : Nat → Pair Int Unit) (I J : Unit → Int),
      c.Ok () I J ∧ PairsOk c () I J pairs ∧ n = 2 ∧ (pairs 0).Linear ∧ (pairs 1).Linear ∧
      (c.depends n pairs true).res = .indep := by
  refine ⟨ctx1 1, 2, pairs1, fun _ => 1, fun _ => 1,
    ⟨constSE_laws .., constSE_sumLaws .., by decide, by simp [ctx1], ?_, ?_⟩, ?_, rfl, trivial, trivial, rfl⟩
  · intro l; exact ⟨by decide, fun u hu => by cases hu; decide⟩
  · intro l; exact ⟨by decide, fun u hu => by cases hu; decide⟩
  · intro k src dst hk
    rcases k with _ | _ | k
    · cases hk; constructor <;> decide
    · cases hk; constructor <;> decide
    · cases hk

/-- Two accesses in two nested loops; `nest` is what `isEnclosingNestAddRec` answers. -/
def ctx2 (nest : Int → Int → Bool) (inNest : Bool) : Ctx Int (Fin 2) Unit where
  se := constSE (fun _ => some 9) nest
  w := 63
  all := [0, 1]
  common := [0, 1]
  inNest _ _ := inNest
  inv x t := decide (t ∉ x.loops)

/-- The subscript `a*i + b*j + c`. -/
def sub2 (a b c : Int) : Sub Int (Fin 2) := .addRec (.addRec (.base c) a 0) b 1

/-- Subscripts of `A[i + 1][j + 7][i + j + 8]` and `A[i][j + 7][i + j + 7]`. -/
def pairs2 : Nat → Pair Int (Fin 2)
  | 0 => .linear (.addRec (.base 1) 1 0) (.addRec (.base 0) 1 0)
  | 1 => .linear (.addRec (.base 7) 1 1) (.addRec (.base 7) 1 1)
  | 2 => .linear (sub2 1 1 8) (sub2 1 1 7)
  | _ => .nonLinear

/-- The whole test: the test of the second subscript returns before it assigns a constraint, and the
constraint of the first subscript is used for the inner loop instead.  Independence is reported
although `A[i + 1][j + 7][i + j + 8]` of iteration `(0, 0)` is `A[i][j + 7][i + j + 7]` of iteration
`(1, 0)`. -/
theorem depends_stale_fails :
    ∃ (c : Ctx Int (Fin 2) Unit) (n : Nat) (pairs : Nat → Pair Int (Fin 2)) (I J : Fin 2 → Int),
      c.Ok () I J ∧ PairsOk c () I J pairs ∧ n = 3 ∧ (∀ k < 3, (pairs k).Linear) ∧
      (c.depends n pairs true).res = .indep := by
  refine ⟨ctx2 (fun x y => decide (x ≠ 7 ∨ y ≠ 7)) true, 3, pairs2, fun _ => 0,
    fun l => if l = 0 then 1 else 0,
    ⟨constSE_laws .., constSE_sumLaws .., by decide, by simp [ctx2], ?_, ?_⟩, ?_, rfl, ?_, rfl⟩
  · intro l; exact ⟨by decide, fun u hu => by cases hu; decide⟩
  · intro l
    refine ⟨?_, fun u hu => ?_⟩
    · revert l; decide
    · cases hu; revert l; decide
  · intro k src dst hk
    rcases k with _ | _ | _ | k
    · cases hk; constructor <;> decide
    · cases hk; constructor <;> decide
    · cases hk; constructor <;> decide
    · cases hk
  · intro k hk
    rcases k with _ | _ | _ | k
    · trivial
    · trivial
    · trivial
    · omega

/-- The whole test: if recurrences of a coupled subscript do not belong to loops of accesses then
the level of the constraint is not assigned before it is read. -/
theorem depends_level_fails :
    ∃ (c : Ctx Int (Fin 2) Unit) (n : Nat) (pairs : Nat → Pair Int (Fin 2)) (I J : Fin 2 → Int),
      c.Ok () I J ∧ PairsOk c () I J pairs ∧ n = 3 ∧ (∀ k < 3, (pairs k).Linear) ∧
      (c.depends n pairs true).res = .ub := by
  refine ⟨ctx2 (fun _ _ => true) false, 3, pairs2, fun _ => 0,
    fun l => if l = 0 then 1 else 0,
    ⟨constSE_laws .., constSE_sumLaws .., by decide, by simp [ctx2], ?_, ?_⟩, ?_, rfl, ?_, rfl⟩
  · intro l; exact ⟨by decide, fun u hu => by cases hu; decide⟩
  · intro l
    refine ⟨?_, fun u hu => ?_⟩
    · revert l; decide
    · cases hu; revert l; decide
  · intro k src dst hk
    rcases k with _ | _ | _ | k
    · cases hk; constructor <;> decide
    · cases hk; constructor <;> decide
    · cases hk; constructor <;> decide
    · cases hk
  · intro k hk
    rcases k with _ | _ | _ | k
    · trivial
    · trivial
    · trivial
    · omega

/-- Two accesses to an array in one loop, the oracle knows everything that holds in both states. -/
def ctxZ : Ctx (Fin 2 → Int) Unit (Fin 2) where
  se := perfect 1 fun _ => some fun _ => 9
  w := 63
  all := [()]
  common := [()]
  inNest _ _ := true
  inv _ _ := false

/-- Subscripts of `A[i + 1][s*i]` and `A[i][s*i]` where `s` is zero or one. -/
def pairsZ : Nat → Pair (Fin 2 → Int) Unit
  | 0 => .linear (.addRec (.base fun _ => 1) (fun _ => 1) ()) (.addRec (.base fun _ => 0) (fun _ => 1) ())
  | 1 => .linear (.addRec (.base fun _ => 0) (fun e => e.val) ())
      (.addRec (.base fun _ => 0) (fun e => e.val) ())
  | _ => .nonLinear

/-- The whole test: `A[i + 1][s*i]` and `A[i][s*i]`.  Independence is reported, but for `s = 0` an
iteration accesses the element which is accessed by the previous one. -/
theorem depends_zero_fails :
    ∃ (c : Ctx (Fin 2 → Int) Unit (Fin 2)) (n : Nat) (pairs : Nat → Pair (Fin 2 → Int) Unit)
      (e : Fin 2) (I J : Unit → Int),
      c.Ok e I J ∧ PairsOk c e I J pairs ∧ n = 2 ∧ (∀ k < 2, (pairs k).Linear) ∧ I () < J () ∧
      (c.depends n pairs true).res = .indep := by
  refine ⟨ctxZ, 2, pairsZ, 0, fun _ => 0, fun _ => 1,
    ⟨perfect_laws .., perfect_sumLaws .., by decide, by simp [ctxZ], ?_, ?_⟩, ?_, rfl, ?_, by decide,
    ?_⟩
  · intro l; exact ⟨by decide, fun u hu => by cases hu; decide⟩
  · intro l; exact ⟨by decide, fun u hu => by cases hu; decide⟩
  · intro k src dst hk
    rcases k with _ | _ | k
    · cases hk; constructor <;> decide
    · cases hk; constructor <;> decide
    · cases hk
  · intro k hk
    rcases k with _ | _ | k
    · trivial
    · trivial
    · omega
  · have h : (match (ctxZ.depends 2 pairsZ true).res with
        | .indep => true
        | _ => false) = true := by decide +kernel
    cases hr : (ctxZ.depends 2 pairsZ true).res <;> rw [hr] at h <;> first | rfl | cases h

/-! ### Overflows -/

/-- Expressions with 8 bits and two states, arithmetic wraps around. -/
def wrapSE : SE (Bool → BitVec 8) Unit Bool where
  val x e := (x e).toInt
  ofInt x := fun _ => BitVec.ofInt 8 x
  minus x y := fun e => x e - y e
  add x y := fun e => x e + y e
  mul x y := fun e => x e * y e
  neg x := fun e => -x e
  smax x y := fun e => if (x e).toInt ≤ (y e).toInt then y e else x e
  smin x y := fun e => if (x e).toInt ≤ (y e).toInt then x e else y e
  udiv x y := fun e => x e / y e
  const x := if x true = x false then some (x true).toInt else none
  sum _ := none
  product _ := none
  known p x y := decide (∀ e, p.eval (x e).toInt (y e).toInt = true)
  knownNeg x := decide (∀ e, (x e).toInt < 0)
  knownNonNeg x := decide (∀ e, 0 ≤ (x e).toInt)
  knownPos x := decide (∀ e, 0 < (x e).toInt)
  knownNonPos x := decide (∀ e, (x e).toInt ≤ 0)
  knownNonZero x := decide (∀ e, (x e).toInt ≠ 0)
  strip _ _ := none
  nest _ _ := true
  bound _ := none
  same x y := decide (∀ e, x e = y e)

/-- `isKnownPredicate` replaces a comparison with the sign of the difference.  With wrapping
arithmetic the answer may be wrong even if all answers of `ScalarEvolution` are right:
`x + 200 < x` is "known" for signed 8-bit integers, but it does not hold for `x = -100`. -/
theorem isKnown_wrap_fails :
    (∀ x e, wrapSE.knownNeg x = true → wrapSE.val x e < 0) ∧
    (∀ x y e, (wrapSE.minus x y) e = x e - y e) ∧
    ∃ x y e, wrapSE.isKnown .slt x y = true ∧ ¬ Pred.Holds .slt (wrapSE.val x e) (wrapSE.val y e) := by
  refine ⟨fun x e h => of_decide_eq_true h e, fun _ _ _ => rfl,
    fun e => (if e then 0 else BitVec.ofInt 8 (-100)) + 200, fun e => if e then 0 else BitVec.ofInt 8 (-100),
    false, by decide +kernel, ?_⟩
  simp only [Pred.Holds]
  decide +kernel

end Tsar.DepTest
