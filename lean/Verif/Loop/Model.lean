import Mathlib.Tactic.Linarith
import Mathlib.Data.List.Basic

/-!
# Canonical loop headers and their reversal

Models `parseIncrement`, `parseCondition`, `transformLoop` and the choice of loops made by
`traverseStmt` from `/repo/lib/Transform/Clang/LoopReversal.cpp`, the two functions `coherent`
and the assignment of the predicate from `/repo/lib/Analysis/Clang/CanonicalLoop.cpp`.

The source text of a header is represented by the values its parts have: the bound, the step and
the initial value are loop-invariant (this is what `isCanonical()` promises), so that each
sub-expression has one value.  Texts which the pass pastes together are taken to be parsed as the
author of the pass meant them (as if each pasted text were parenthesised); the text itself is not
modelled.
-/

namespace Tsar.Loop

/-- Integer type of the induction variable, the bound and the step (a simplification: the three
have the same type, so no conversion happens in the header): a signed type with `w` bits and a
sign bit (`int` is `signed 31`), or an unsigned type with `w` bits. -/
inductive Ty
  | signed (w : ℕ)
  | unsigned (w : ℕ)
  deriving DecidableEq, Repr

/-- Least value of a type. -/
def Ty.lo : Ty → ℤ
  | .signed w => -(2 : ℤ) ^ w
  | .unsigned _ => 0

/-- Greatest value of a type. -/
def Ty.hi : Ty → ℤ
  | .signed w => 2 ^ w - 1
  | .unsigned w => 2 ^ w - 1

/-- A value is representable. -/
def Ty.has (t : Ty) (x : ℤ) : Prop := t.lo ≤ x ∧ x ≤ t.hi

instance (t : Ty) (x : ℤ) : Decidable (t.has x) := by unfold Ty.has; infer_instance

/-- Two's complement truncation, the result of any operation of `llvm::APSInt`. -/
def Ty.wrap : Ty → ℤ → ℤ
  | .signed w, x => Int.bmod x (2 ^ (w + 1))
  | .unsigned w, x => x % 2 ^ w

/-- Result of an arithmetic operation of C: `none` is the undefined behaviour of a signed
overflow, the unsigned result is reduced modulo `2 ^ w`. -/
def Ty.arith : Ty → ℤ → Option ℤ
  | .signed w, x => if (Ty.signed w).has x then some x else none
  | .unsigned w, x => some (x % 2 ^ w)

/-- Division of C (`none` for a zero divisor), truncated towards zero. -/
def Ty.div (t : Ty) (x y : ℤ) : Option ℤ :=
  if y = 0 then none else t.arith (Int.tdiv x y)

/-- Comparison operators accepted in the condition of a canonical loop
(`CanonicalLoop.cpp:667-673`). -/
inductive Cmp
  | lt | le | gt | ge
  deriving DecidableEq, Repr

/-- Value of `x op y`. -/
def Cmp.holds : Cmp → ℤ → ℤ → Prop
  | .lt, x, y => x < y
  | .le, x, y => x ≤ y
  | .gt, x, y => x > y
  | .ge, x, y => x ≥ y

instance (c : Cmp) (x y : ℤ) : Decidable (c.holds x y) := by
  cases c <;> unfold Cmp.holds <;> infer_instance

/-- The increment of a canonical loop (`CanonicalLoop.cpp:612-660`): `++i`, `i++`, `--i`, `i--`;
`i += s`, `i -= s`; `i = i + s`, `i = s + i`; `i = i - s`.  The last two forms additionally carry
the sign pasted before the step by the reversal: `neg` stands for `-(s)`. -/
inductive Inc
  | unary (up : Bool)
  | compound (add : Bool) (s : ℤ)
  | assignAdd (neg : Bool) (s : ℤ)
  | assignSub (neg : Bool) (s : ℤ)
  deriving DecidableEq, Repr

/-- Header `for (i = init; cond; inc)`, where `cond` is `i op bound`, or `bound op i` if
`onRight`. -/
structure Header where
  ty : Ty
  init : ℤ
  op : Cmp
  onRight : Bool
  bound : ℤ
  inc : Inc
  deriving DecidableEq, Repr

/-- Value of the condition of a header. -/
def Header.test (h : Header) (i : ℤ) : Prop :=
  if h.onRight then h.op.holds h.bound i else h.op.holds i h.bound

instance (h : Header) (i : ℤ) : Decidable (h.test i) := by
  unfold Header.test; infer_instance

/-- Value of the step text `s` or `-(s)`. -/
def stepValue (t : Ty) (neg : Bool) (s : ℤ) : Option ℤ :=
  if neg then t.arith (-s) else some s

/-- Value of the induction variable after the increment; `none` is the undefined behaviour. -/
def Header.next (h : Header) (i : ℤ) : Option ℤ :=
  match h.inc with
  | .unary up => h.ty.arith (if up then i + 1 else i - 1)
  | .compound add s => h.ty.arith (if add then i + s else i - s)
  | .assignAdd neg s => (stepValue h.ty neg s).bind fun v => h.ty.arith (i + v)
  | .assignSub neg s => (stepValue h.ty neg s).bind fun v => h.ty.arith (i - v)

/-! ## Reversal -/

/-- `IncrementInfo` (`LoopReversal.cpp:178-186`): flags `Sub`, `Unary`, `Assign` and the value of
`ExprRange` (the step, absent for unary forms). -/
structure IncInfo where
  sub : Bool
  unary : Bool
  assign : Bool
  step : ℤ
  deriving DecidableEq, Repr

/-- `parseIncrement` (`LoopReversal.cpp:465-527`). -/
def parseIncrement : Inc → IncInfo
  | .compound true s => ⟨true, false, false, s⟩
  | .compound false s => ⟨false, false, false, s⟩
  | .assignAdd _ s => ⟨true, false, true, s⟩
  | .assignSub _ s => ⟨false, false, true, s⟩
  | .unary true => ⟨true, true, false, 1⟩
  | .unary false => ⟨false, true, false, 1⟩

/-- The increment after the texts were replaced (`LoopReversal.cpp:645-650`): for an assignment
`-(` and `)` are put around the step, for other forms the operator is exchanged. -/
def newIncrement : Inc → Inc
  | .compound add s => .compound (!add) s
  | .assignAdd _ s => .assignAdd true s
  | .assignSub _ s => .assignSub true s
  | .unary up => .unary (!up)

/-- `parseCondition` (`LoopReversal.cpp:529-564`): the new operator and the flag `Exclude`.  The
operands are not exchanged. -/
def parseCondition : Cmp → Cmp × Bool
  | .le => (.ge, false)
  | .lt => (.ge, true)
  | .ge => (.le, false)
  | .gt => (.le, true)

/-- Constants of the induction trait obtained from the analysis server
(`LoopReversal.cpp:427-431`), absent in the mode without strict checks or if not constant. -/
structure Consts where
  start : Option ℤ
  step : Option ℤ
  fin : Option ℤ
  deriving DecidableEq, Repr

/-- Value of the text of the new initial expression (`LoopReversal.cpp:614-644`); `none` is the
undefined behaviour in its evaluation.  `init` is the value of `InitStr`. -/
def newInit (t : Ty) (c : Consts) (init bound : ℤ) (exclude : Bool) (ie : IncInfo) : Option ℤ :=
  match c.fin, c.step with
  | some fin, some step => some (t.wrap (fin - step))
  | _, _ =>
    if ie.unary then
      if exclude then
        if ie.sub then t.arith (bound - 1) else t.arith (bound + 1)
      else some bound
    else if exclude then
      if ie.sub then
        -- Init+(Cond - 1 - (Init))/(Incr)*(Incr)
        (t.arith (bound - 1)).bind fun x => (t.arith (x - init)).bind fun y =>
          (t.div y ie.step).bind fun q => (t.arith (q * ie.step)).bind fun z => t.arith (init + z)
      else
        -- Init-(Init-(Cond+1))/(Incr)*(Incr)
        (t.arith (bound + 1)).bind fun x => (t.arith (init - x)).bind fun y =>
          (t.div y ie.step).bind fun q => (t.arith (q * ie.step)).bind fun z => t.arith (init - z)
    else
      if ie.sub then
        -- Init+(Cond-(Init))/(Incr)*(Incr)
        (t.arith (bound - init)).bind fun y =>
          (t.div y ie.step).bind fun q => (t.arith (q * ie.step)).bind fun z => t.arith (init + z)
      else
        -- Init-(Init-(Cond))/(Incr)*(Incr)
        (t.arith (init - bound)).bind fun y =>
          (t.div y ie.step).bind fun q => (t.arith (q * ie.step)).bind fun z => t.arith (init - z)

/-- `transformLoop` (`LoopReversal.cpp:566-655`) on values: the header which replaces `h`, `none`
if evaluation of the new initial expression is undefined.  The initial value is replaced by the
constant of the induction trait if it is known. -/
def transformLoop (h : Header) (c : Consts) : Option Header :=
  let ie := parseIncrement h.inc
  let ce := parseCondition h.op
  let init := c.start.getD h.init
  (newInit h.ty c init h.bound ce.2 ie).map fun v =>
    ⟨h.ty, v, ce.1, h.onRight, init, newIncrement h.inc⟩

/-! ## Choice of loops -/

/-- `SmallBitVector::resize(N, false)` followed by `push_back(true)`
(`LoopReversal.cpp:330-331, 337-338`). -/
def mark (bits : List Bool) (idx : ℕ) : List Bool :=
  (bits.take idx ++ List.replicate (idx - bits.length) false) ++ [true]

/-- Position of the first loop with a given name (`find_if`, `LoopReversal.cpp:321-324`). -/
def findName (loops : List String) (name : String) : Option ℕ := loops.findIdx? (· == name)

/-- Index named by an integer literal (`LoopReversal.cpp:335-336`): `getZExtValue() - 1` in
64 bits, accepted if it is less than the number of loops. -/
def findNumber (loops : List String) (n : ℕ) : Option ℕ :=
  let idx := (n + (2 ^ 64 - 1)) % 2 ^ 64
  if idx < loops.length then some idx else none

/-- The bits after all literals of the clause were processed (`LoopReversal.cpp:319-351`). -/
def toTransform (loops : List String) (names : List String) (numbers : List ℕ) : List Bool :=
  (names.filterMap (findName loops) ++ numbers.filterMap (findNumber loops)).foldl mark []

/-- `set_bits()` (`LoopReversal.cpp:352`). -/
def setBits (bits : List Bool) : List ℕ :=
  (List.range bits.length).filter fun k => bits.getD k false

/-! ## Coherence of the increment and the condition -/

/-- Opcode of the increment seen by `coherent`: the step is constant, or not. -/
inductive IncOp
  | unary (up : Bool)
  | binary (add : Bool) (step : Option ℤ)
  deriving DecidableEq, Repr

/-- The increment of a header as `coherent` sees it when the step is (not) a constant. -/
def Inc.toOp (isConst : Bool) : Inc → IncOp
  | .unary up => .unary up
  | .compound add s => .binary add (if isConst then some s else none)
  | .assignAdd _ s => .binary true (if isConst then some s else none)
  | .assignSub _ s => .binary false (if isConst then some s else none)

/-- The last check of both functions `coherent` (`CanonicalLoop.cpp:218-228, 258-268`). -/
def coherentDir (increment : Bool) (start fin : Option ℤ) (op : Cmp) (reversed : Bool) : Bool :=
  let less := op = .lt ∨ op = .le
  let rejected := match start, fin with
    | some s, some e => (increment && decide (s ≥ e)) || (!increment && decide (s ≤ e))
    | _, _ => false
  !rejected &&
    ((increment && decide less && !reversed) || (increment && !decide less && reversed) ||
      (!increment && !decide less && !reversed) || (!increment && decide less && reversed))

/-- `coherent` (`CanonicalLoop.cpp:211-228` and `244-268`). -/
def coherent (start fin : Option ℤ) (inc : IncOp) (op : Cmp) (reversed : Bool) : Bool :=
  match inc with
  | .unary up => coherentDir up start fin op reversed
  | .binary _ none => true
  | .binary add (some step) =>
    if step = 0 then false
    else coherentDir ((decide (0 < step) && add) || (decide (step < 0) && !add)) start fin op
      reversed

/-! ## The predicate of a canonical loop -/

/-- Predicates of integer comparison (`llvm::CmpInst::Predicate`). -/
inductive Pred
  | eq | ne | ugt | uge | ult | ule | sgt | sge | slt | sle
  deriving DecidableEq, Repr

/-- Value of `icmp p x, y`. -/
def Pred.holds {w : ℕ} (x y : BitVec w) : Pred → Prop
  | .eq => x = y
  | .ne => x ≠ y
  | .ugt => x.toNat > y.toNat
  | .uge => x.toNat ≥ y.toNat
  | .ult => x.toNat < y.toNat
  | .ule => x.toNat ≤ y.toNat
  | .sgt => x.toInt > y.toInt
  | .sge => x.toInt ≥ y.toInt
  | .slt => x.toInt < y.toInt
  | .sle => x.toInt ≤ y.toInt

instance {w : ℕ} (x y : BitVec w) (p : Pred) : Decidable (p.holds x y) := by
  cases p <;> unfold Pred.holds <;> infer_instance

/-- `CmpInst::getInversePredicate` of LLVM: the negation of the comparison. -/
def Pred.inverse : Pred → Pred
  | .eq => .ne | .ne => .eq
  | .ugt => .ule | .uge => .ult | .ult => .uge | .ule => .ugt
  | .sgt => .sle | .sge => .slt | .slt => .sge | .sle => .sgt

/-- The predicate stored for a loop (`CanonicalLoop.cpp:558-564`), where `endOnLeft` says that the
bound is the first operand of the comparison. -/
def reportedPredicate (p : Pred) (endOnLeft : Bool) : Pred :=
  if endOnLeft then p.inverse else p

end Tsar.Loop
