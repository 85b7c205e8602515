import Mathlib.Data.Int.ModEq
import Mathlib.Algebra.BigOperators.Group.List.Basic

/-!
# Symbolic expressions

Models `divide()`, `computeSCEVAddRec()` and `findGCD()` (`lib/Support/SCEVUtils.cpp`): properties C39-C41.
-/

namespace Tsar
namespace Scev

/-- The kind of an expression and its operands (`llvm::SCEV`). All expressions without special treatment (`udiv`, `min`,
`max`, `ptrtoint`) are `other`. -/
inductive View (S : Type) where
  | const (v : Int)
  | unknown
  | trunc (e : S)
  | zext (e : S)
  | sext (e : S)
  | add (l : List S)
  | mul (l : List S)
  | addRec (l : List S) (loop : Nat)
  | other
  deriving DecidableEq

/-- `llvm::ScalarEvolution`: expressions are unique, so equality of pointers is equality of expressions. Types are
integers of a specified width. Flags of recurrences are omitted. -/
structure Se where
  S : Type
  dec : DecidableEq S
  view : S → View S
  ty : S → Nat
  /-- `getConstant()`, `getZero()`, `getOne()` -/
  const : Nat → Int → S
  add : List S → S
  mul : List S → S
  addRec : S → S → Nat → S
  trunc : S → Nat → S
  zext : S → Nat → S
  sext : S → Nat → S
  minus : S → S → S
  /-- `SCEVParameterRewriter::rewrite()`: the expression, the replaced value and the new one -/
  subst : S → S → S → S
  /-- `isLoopInvariant()` -/
  inv : S → Nat → Bool
  /-- `SCEVAddRecExpr::getStepRecurrence()` -/
  step : S → S
  /-- the number of nodes (SCEVUtils.cpp:37-55) -/
  size : S → Nat

instance (E : Se) : DecidableEq E.S := E.dec

/-- `SCEV::isZero()`. -/
def Se.isZero (E : Se) (s : E.S) : Bool :=
  match E.view s with
  | .const v => v % 2 ^ E.ty s == 0
  | _ => false

/-- `SCEV::isOne()`. -/
def Se.isOne (E : Se) (s : E.S) : Bool :=
  match E.view s with
  | .const v => v % 2 ^ E.ty s == 1 % 2 ^ E.ty s
  | _ => false

/-- The operand of `SCEVCastExpr`. -/
def Se.cast (E : Se) (s : E.S) : Option E.S :=
  match E.view s with
  | .trunc e | .zext e | .sext e => some e
  | _ => none

/-- A loop which strips casts (SCEVUtils.cpp:423-429, 450-451); the number of casts is bounded by the first
argument. -/
def Se.strip (E : Se) : Nat → E.S → E.S
  | 0, s => s
  | f + 1, s =>
    match E.cast s with
    | some e => E.strip f e
    | none => s

/-! ## Division -/

/-- `SCEVDivisionResult` (SCEVUtils.h:37-41). `bad` is a ghost field: the quotient or the remainder has been obtained
by substitution of a value instead of the denominator and has not been checked. -/
structure Res (S : Type) where
  q : S
  r : S
  safe : Bool
  bad : Bool

/-- `cannotDivide()` (SCEVUtils.cpp:288-292). -/
def Se.cannot (E : Se) (n d : E.S) : Res E.S := ⟨E.const (E.ty d) 0, n, true, false⟩

/-- `isCannotDivide()` (SCEVUtils.cpp:294-297). -/
def Se.isCannot (E : Se) (n d : E.S) (t : Res E.S) : Bool :=
  decide (t.q = E.const (E.ty d) 0) && decide (t.r = n) && t.safe

/-- The signed value of a constant. -/
def sval (w : Nat) (v : Int) : Int := Int.bmod v (2 ^ w)

/-- `visitConstant()` (SCEVUtils.cpp:118-137). There is no result if a constant is divided by zero. -/
def Se.visitConst (E : Se) (n d : E.S) (v : Int) : Option (Res E.S) :=
  match E.view d with
  | .const u =>
    let w := max (E.ty n) (E.ty d)
    let a := sval (E.ty n) v
    let b := sval (E.ty d) u
    if b = 0 then none else some ⟨E.const w (a.tdiv b), E.const w (a.tmod b), true, false⟩
  | _ => some (E.cannot n d)

/-- `visitAddRecExpr()` (SCEVUtils.cpp:140-162). -/
def Se.visitAddRec (E : Se) (rec_ : E.S → E.S → Option (Res E.S)) (n d : E.S) (safe : Bool) (l : List E.S) (loop : Nat) :
    Option (Res E.S) :=
  match l with
  | [a, b] => do
    let s ← rec_ a d
    let t ← rec_ b d
    if E.ty s.q ≠ E.ty t.q ∨ E.ty s.r ≠ E.ty t.r then some (E.cannot n d)
    else if safe ∧ (E.ty d ≠ E.ty s.q ∨ E.ty d ≠ E.ty s.r) then some (E.cannot n d)
    else some ⟨E.addRec s.q t.q loop, E.addRec s.r t.r loop, s.safe && t.safe, s.bad || t.bad⟩
  | _ => some (E.cannot n d)

/-- The state of a loop over operands of an addition. -/
structure AddSt (S : Type) where
  qs : List S
  rs : List S
  safe : Bool
  bad : Bool

/-- Types of the first quotient and of the first remainder are compared with types of the new ones. -/
def Se.sameTypes (E : Se) (st : AddSt E.S) (t : Res E.S) : Bool :=
  match st.qs, st.rs with
  | q :: _, r :: _ => E.ty q == E.ty t.q && E.ty r == E.ty t.r
  | _, _ => true

/-- A loop over operands (SCEVUtils.cpp:165-193). There is no state if the division is rejected. -/
def Se.addOps (E : Se) (rec_ : E.S → E.S → Option (Res E.S)) (d : E.S) (safe : Bool) :
    List E.S → AddSt E.S → Option (Option (AddSt E.S))
  | [], st => some (some st)
  | op :: ops, st => do
    let t ← rec_ op d
    let differ := decide (E.ty d ≠ E.ty t.q ∨ E.ty d ≠ E.ty t.r)
    if differ && safe then some none
    else if !E.sameTypes st t then some none
    else E.addOps rec_ d safe ops ⟨st.qs ++ [t.q], st.rs ++ [t.r], st.safe && t.safe && !differ, st.bad || t.bad⟩

/-- `visitAddExpr()` (SCEVUtils.cpp:164-202). -/
def Se.visitAdd (E : Se) (rec_ : E.S → E.S → Option (Res E.S)) (n d : E.S) (safe : Bool) (l : List E.S) :
    Option (Res E.S) := do
  match ← E.addOps rec_ d safe l ⟨[], [], true, false⟩ with
  | none => some (E.cannot n d)
  | some ⟨[q], [r], s, b⟩ => some ⟨q, r, s, b⟩
  | some st => some ⟨E.add st.qs, E.add st.rs, st.safe, st.bad⟩

/-- The state of a loop over operands of a multiplication. -/
structure MulSt (S : Type) where
  qs : List S
  found : Bool
  safe : Bool
  bad : Bool

/-- The type of the first element is compared with the new one. -/
def Se.sameType (E : Se) (st : MulSt E.S) (q : E.S) : Bool :=
  match st.qs with
  | p :: _ => E.ty p == E.ty q
  | [] => true

/-- Append a factor if types are the same. -/
def Se.push (E : Se) (st : MulSt E.S) (q : E.S) (found safe bad : Bool) : Option (MulSt E.S) :=
  if E.sameType st q then some ⟨st.qs ++ [q], found, safe, bad⟩ else none

/-- A loop over operands (SCEVUtils.cpp:204-248). There is no state if the division is rejected. -/
def Se.mulOps (E : Se) (rec_ : E.S → E.S → Option (Res E.S)) (d : E.S) (safe : Bool) :
    List E.S → MulSt E.S → Option (Option (MulSt E.S))
  | [], st => some (some st)
  | op :: ops, st =>
    let differ := decide (E.ty d ≠ E.ty op)
    if differ && safe then some none
    else if st.found then
      match E.push st op true (st.safe && !differ) st.bad with
      | some st' => E.mulOps rec_ d safe ops st'
      | none => some none
    else
      match rec_ op d with
      | none => none
      | some t =>
        if !E.isZero t.r then
          match E.push st op false (st.safe && !differ) st.bad with
          | some st' => E.mulOps rec_ d safe ops st'
          | none => some none
        else
          let differQ := decide (E.ty d ≠ E.ty t.q)
          if differQ && safe then some none
          else
            match E.push st t.q true (st.safe && !differ && !differQ) (st.bad || t.bad) with
            | some st' => E.mulOps rec_ d safe ops st'
            | none => some none

/-- The product of factors (SCEVUtils.cpp:252-255). -/
def Se.product (E : Se) : List E.S → E.S
  | [q] => q
  | qs => E.mul qs

/-- Substitution of values instead of the denominator (SCEVUtils.cpp:258-282). -/
def Se.bySubst (E : Se) (rec_ : E.S → E.S → Option (Res E.S)) (n d : E.S) : Option (Res E.S) :=
  let zero := E.const (E.ty d) 0
  let r := E.subst n d zero
  if E.isZero r then some ⟨E.subst n d (E.const (E.ty d) 1), r, true, true⟩
  else if E.ty n ≠ E.ty r then some ⟨zero, r, true, true⟩
  else
    let diff := E.minus n r
    if E.size diff > E.size n then some ⟨zero, r, true, true⟩
    else do
      let t ← rec_ diff d
      if t.r ≠ zero then some ⟨zero, r, true, true⟩ else some ⟨t.q, r, t.safe, t.bad⟩

/-- `visitMulExpr()` (SCEVUtils.cpp:204-283). -/
def Se.visitMul (E : Se) (rec_ : E.S → E.S → Option (Res E.S)) (n d : E.S) (safe : Bool) (l : List E.S) :
    Option (Res E.S) := do
  match ← E.mulOps rec_ d safe l ⟨[], false, true, false⟩ with
  | none => some (E.cannot n d)
  | some st =>
    if st.found then some ⟨E.product st.qs, E.const (E.ty d) 0, st.safe, st.bad⟩
    else
      match E.view d with
      | .unknown => E.bySubst rec_ n d
      | _ => some (E.cannot n d)

/-- `visitTruncateExpr()`, `visitZeroExtendExpr()`, `visitSignExtendExpr()` (SCEVUtils.cpp:72-116). A quotient and a
remainder are converted by `conv`. -/
def Se.visitCast (E : Se) (rec_ : E.S → E.S → Option (Res E.S)) (conv : E.S → E.S) (n d : E.S) (safe : Bool) (e : E.S) :
    Option (Res E.S) :=
  if safe then some (E.cannot n d)
  else do
    let t ← rec_ e d
    if E.isCannot e d t then some (E.cannot n d) else some ⟨conv t.q, conv t.r, false, t.bad⟩

/-- `SCEVVisitor::visit()`. -/
def Se.visit (E : Se) (rec_ : E.S → E.S → Option (Res E.S)) (n d : E.S) (safe : Bool) : Option (Res E.S) :=
  match E.view n with
  | .const v => E.visitConst n d v
  | .addRec l loop => E.visitAddRec rec_ n d safe l loop
  | .add l => E.visitAdd rec_ n d safe l
  | .mul l => E.visitMul rec_ n d safe l
  | .trunc e => E.visitCast rec_ (fun s => E.trunc s (E.ty n)) n d safe e
  | .zext e => E.visitCast rec_ (fun s => if E.ty s < E.ty n then E.zext s (E.ty n) else s) n d safe e
  | .sext e => E.visitCast rec_ (fun s => if E.ty s < E.ty n then E.sext s (E.ty n) else s) n d safe e
  | .unknown | .other => some (E.cannot n d)

/-- Division by factors of a denominator (SCEVUtils.cpp:455-468). -/
def Se.byProduct (E : Se) (rec_ : E.S → E.S → Option (Res E.S)) (n d : E.S) :
    List E.S → E.S → Bool → Bool → Option (Res E.S)
  | [], q, s, b => some ⟨q, E.const (E.ty d) 0, s, b⟩
  | op :: ops, q, s, b => do
    let t ← rec_ q op
    if !E.isZero t.r then some (E.cannot n d)
    else E.byProduct rec_ n d ops t.q (s && t.safe) (b || t.bad)

/-- `divide()` (SCEVUtils.cpp:433-472). Casts of the denominator are stripped, but only to find out whether it is a
product. The first argument bounds the depth of recursion, there is no result if the bound is reached. -/
def Se.divide (E : Se) (safe : Bool) : Nat → E.S → E.S → Option (Res E.S)
  | 0, _, _ => none
  | f + 1, n, d =>
    if n = d then some ⟨E.const (E.ty d) 1, E.const (E.ty d) 0, true, false⟩
    else if E.isZero n then some ⟨E.const (E.ty d) 0, E.const (E.ty d) 0, true, false⟩
    else if E.isOne d then some ⟨n, E.const (E.ty d) 0, true, false⟩
    else
      match E.view (if safe then d else E.strip f d) with
      | .mul ops => E.byProduct (E.divide safe f) n d ops n true false
      | _ => E.visit (E.divide safe f) n d safe

/-! ## Linear form -/

/-- `SCEVBionmialSearch` (SCEVUtils.cpp:310-320). -/
structure St (S : Type) where
  coef : Option S := none
  free : Option S := none
  loop : Option Nat := none
  safe : Bool := true

/-- A loop over operands until a recurrence is found (SCEVUtils.cpp:360-365, 382-387): the state, visited operands and
the rest of them. -/
def Se.searchOps (E : Se) (visit : E.S → St E.S → Option (St E.S)) :
    List E.S → List E.S → St E.S → Option (St E.S × List E.S × List E.S)
  | [], seen, st => some (st, seen, [])
  | op :: ops, seen, st => do
    let st' ← visit op st
    if st'.loop.isSome then some (st', seen, ops) else E.searchOps visit ops (seen ++ [op]) st'

/-- Conversion of the found terms. -/
def St.convert {S : Type} (st : St S) (conv : S → S) : St S :=
  { st with coef := st.coef.map conv, free := st.free.map conv }

/-- `visit()` of `SCEVBionmialSearch` (SCEVUtils.cpp:322-419). -/
def Se.search (E : Se) : Nat → E.S → St E.S → Option (St E.S)
  | 0, _, _ => none
  | f + 1, s, st =>
    match E.view s with
    | .trunc e => (E.search f e { st with safe := false }).map fun st => st.convert fun x => E.trunc x (E.ty s)
    | .zext e => (E.search f e { st with safe := false }).map fun st => st.convert fun x => E.zext x (E.ty s)
    | .sext e => (E.search f e { st with safe := false }).map fun st => st.convert fun x => E.sext x (E.ty s)
    | .addRec (a :: _) loop => some { st with loop := some loop, coef := some (E.step s), free := some a }
    | .mul l => do
      let (st', seen, ops) ← E.searchOps (E.search f) l [] st
      match st'.loop, st'.coef, st'.free with
      | some _, some c, some t =>
        some { st' with free := some (E.mul (seen ++ ops ++ [t])), coef := some (E.mul (seen ++ ops ++ [c])) }
      | some _, _, _ => none
      | none, _, _ => some { st' with free := some s }
    | .add l => do
      let (st', seen, ops) ← E.searchOps (E.search f) l [] st
      match st'.loop, st'.free with
      | some _, some t => some { st' with free := some (E.add (seen ++ ops ++ [t])) }
      | some _, none => none
      | none, _ => some { st' with free := some s }
    | _ => some { st with free := some s }

/-- `computeSCEVAddRec()` (SCEVUtils.cpp:474-486). -/
def Se.addRecOf (E : Se) (f : Nat) (s : E.S) : Option (E.S × Bool) := do
  let st ← E.search f s {}
  match st.loop, st.coef, st.free with
  | some l, some c, some t =>
    if E.inv c l && E.inv t l then some (E.addRec t c l, st.safe) else some (s, true)
  | _, _, _ => some (s, true)

/-! ## The greatest common divisor -/

/-- Terms of expressions (SCEVUtils.cpp:492-508). The result of `stripCastIfNot()` is not used in the code. -/
def Se.terms (E : Se) (f : Nat) (safe : Bool) : List E.S → Option (List E.S)
  | [] => some []
  | s :: l => do
    let info ← E.addRecOf f s
    let ts ← E.terms f safe l
    match E.view info.1 with
    | .addRec (a :: _) _ => if info.2 || !safe then some (a :: E.step info.1 :: ts) else some (s :: ts)
    | _ => some (s :: ts)

/-- A loop over dividers for a term (SCEVUtils.cpp:545-551): dividers which are left and the ghost field of
divisions. -/
def Se.dividers (E : Se) (f : Nat) (safe : Bool) : E.S → List E.S → Option (List E.S × Bool)
  | _, [] => some ([], false)
  | t, d :: ds => do
    let r ← E.divide safe f t d
    if !E.isZero r.r then E.dividers f safe t ds
    else
      let (ds', b) ← E.dividers f safe r.q ds
      some (d :: ds', r.bad || b)

/-- A loop over terms (SCEVUtils.cpp:542-556). The inner option is absent if there is no common divider. -/
def Se.common (E : Se) (f : Nat) (safe : Bool) : List E.S → List E.S → Bool → Option (Option (List E.S) × Bool)
  | [], ds, b => some (some ds, b)
  | t :: ts, ds, b => do
    let (ds', b') ← E.dividers f safe t ds
    if ds'.isEmpty then some (none, false)
    else E.common f safe ts (if ds.length ≠ ds'.length then ds' else ds) (b || b')

/-- `findGCD()` (SCEVUtils.cpp:488-560). The order of terms which is obtained by sorting and removal of duplicates is a
parameter. The result is absent if it could not be computed, otherwise, this is a list of factors. -/
def Se.gcdFactors (E : Se) (order : List E.S → List E.S) (f : Nat) (safe : Bool) (l : List E.S) :
    Option (Option (List E.S) × Bool) := do
  let ts ← E.terms f safe l
  match (order ts).filter fun s => !E.isZero s with
  | [] => some (none, false)
  | [t] => some (some [t], false)
  | t :: ts =>
    match E.view (if safe then t else E.strip f t) with
    | .mul ops => E.common f safe ts ops false
    | _ => E.common f safe ts [t] false

/-- The returned expression (SCEVUtils.cpp:557-559) and the ghost field. -/
def Se.gcd (E : Se) (order : List E.S → List E.S) (f : Nat) (safe : Bool) (l : List E.S) : Option (Option E.S × Bool) :=
  (E.gcdFactors order f safe l).map fun r => (r.1.map E.product, r.2)

end Scev
end Tsar
