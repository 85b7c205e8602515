import Verif.Scev.Model

/-!
# Delinearization of accesses to arrays

Models `lib/Analysis/Memory/Delinearization.cpp`: subscripts of addresses, sizes of dimensions, delinearized subscripts.
-/

namespace Tsar
namespace Delin

open Scev

/-- `llvm::Type`. Types are unique, so equality of pointers is equality of types. A type which is not an array has an
identifier and a size (in bytes). -/
inductive Ty where
  | scalar (id size : Nat)
  | arr (n : Nat) (t : Ty)
  deriving DecidableEq, Repr

/-- The number of bytes which is allocated for a value of the type (`DataLayout::getTypeAllocSize()`). -/
def Ty.size : Ty → Nat
  | .scalar _ s => s
  | .arr n t => n * t.size

/-! ## Subscripts of an address -/

/-- An index of `getelementptr` together with the indexed type: a field of a structure or an element. `zero` means that
the index is the constant zero. -/
inductive Idx (S : Type) where
  | field (n : Nat)
  | elem (s : S) (t : Ty) (zero : Bool)

/-- `llvm::GEPOperator`: the first index and the rest of them. The first index is never a field of a structure. -/
structure Gep (S : Type) where
  first : S
  firstTy : Ty
  firstZero : Bool
  rest : List (Idx S)

/-- Indexes before the first field of a structure and a mark that there is a field (Delinearization.cpp:106-114). -/
def upToField {S : Type} : List (Idx S) → List (S × Ty) × Bool
  | [] => ([], false)
  | .field _ :: _ => ([], true)
  | .elem s t _ :: l => let (r, b) := upToField l; ((s, t) :: r, b)

/-- Indexes which are taken from a single instruction (Delinearization.cpp:101-125), in the reverse order, and a mark
that indexes which have already been found are dropped. `Types` always contains the first index, so it is not empty. -/
def Gep.indexes {S : Type} (g : Gep S) : List (S × Ty) × Bool :=
  match g.rest with
  | [] => ([(g.first, g.firstTy)], false)
  | l =>
    let (r, b) := upToField l
    (r.reverse ++ (if g.firstZero then [] else [(g.first, g.firstTy)]), b)

/-- The loop over instructions (Delinearization.cpp:100-126), the last `getelementptr` is the first in the list. -/
def collect {S : Type} : List (Gep S) → List (S × Ty) → List (S × Ty)
  | [], acc => acc
  | g :: gs, acc =>
    let (r, drop) := g.indexes
    collect gs ((if drop then [] else acc) ++ r)

/-- `extractSubscriptsFromGEPs()` (Delinearization.cpp:93-134): subscripts and `true` if all of them are used. -/
def extract {S : Type} (gs : List (Gep S)) (numDims : Nat) : List (S × Ty) × Bool :=
  let l := (collect gs []).reverse
  if numDims > 0 ∧ l.length > numDims then (l.take numDims, false) else (l, true)

/-! ## An address -/

/-- A pointer operand (Delinearization.cpp:621-634): `getelementptr`, a cast of a pointer, or something else. -/
inductive Ptr (S : Type) where
  | base
  | gep (g : Gep S) (p : Ptr S)
  | cast (p : Ptr S)

/-- A chain of instructions without casts between them (Delinearization.cpp:631-634). -/
def Ptr.chain {S : Type} : Ptr S → List (Gep S)
  | .gep g p => g :: p.chain
  | _ => []

/-- Casts are stripped until `getelementptr` is found (Delinearization.cpp:622-630), then the chain is
collected. -/
def Ptr.geps {S : Type} : Ptr S → List (Gep S)
  | .cast p => p.geps
  | p => p.chain

/-! ## A range of an array -/

/-- `Array::Range` (Delinearization.h:63-120). Subscripts are stored together with types. -/
structure Rng (S : Type) where
  subs : List (S × Ty)
  isElement : Bool := true
  needZero : Bool := false
  ignoreGep : Bool := false
  noGep : Bool := false

/-- A new range (Delinearization.cpp:635-664) for an array with a specified number of dimensions. `access` is true for
loads, stores and atomic instructions; `known` is true if the address is a `getelementptr`, or the base address
itself. -/
def mkRange {S : Type} (p : Ptr S) (numDims : Nat) (access known : Bool) : Rng S :=
  let (l, all) := extract p.geps numDims
  { subs := l
    isElement := access
    needZero := access && decide (l.length < numDims)
    ignoreGep := !all
    noGep := !known }

/-! ## Sizes of dimensions -/

/-- `isa<SCEVConstant>` (there is no value if the size is not known). -/
def isConst (E : Se) : Option E.S → Bool
  | some s => match E.view s with | .const _ => true | _ => false
  | none => false

/-- The number of dimensions without the last ones with constant sizes (Delinearization.cpp:250-253). -/
def lastConst (E : Se) (dims : List (Option E.S)) : Nat := (dims.reverse.dropWhile (isConst E)).length

/-! ## Delinearized subscripts -/

/-- Division by sizes of dimensions (Delinearization.cpp:305-323): the quotient is absent if some remainder is not zero.
The last component is a ghost field of divisions. The division by unknown size is undefined. -/
def divAll (E : Se) (safe : Bool) (f : Nat) : List (Option E.S) → E.S → Bool → Option (Option E.S × Bool)
  | [], s, b => some (some s, b)
  | d :: ds, s, b => do
    let d ← d
    let t ← E.divide safe f s d
    if E.isZero t.r then divAll E safe f ds t.q (b || t.bad) else some (none, b)

/-- The state of a loop over dimensions: subscripts which are not processed yet (they are preceded by `idx` other
ones), the number of zeros which should be added, new subscripts and a ghost field. -/
structure St (S : Type) where
  idx : Nat
  extra : Nat
  new : List S
  bad : Bool

/-- The loop over dimensions (Delinearization.cpp:298-330). The first argument is the number of iterations, `ds` are
sizes of dimensions after the current one. There is no inner result if the access could not be delinearized. -/
def dimLoop (E : Se) (safe : Bool) (f w : Nat) (subs : List (E.S × Ty)) :
    Nat → List (Option E.S) → St E.S → Option (Option (St E.S))
  | 0, _, st => some (some st)
  | k + 1, ds, st => do
    let s ← subs[st.idx]?
    let (q, b) ← divAll E safe f ds s.1 st.bad
    match q with
    | some q => dimLoop E safe f w subs k ds.tail ⟨st.idx + 1, st.extra, st.new ++ [q], b⟩
    | none =>
      if st.extra > 0 then dimLoop E safe f w subs k ds.tail ⟨st.idx, st.extra - 1, st.new ++ [E.const w 0], b⟩
      else some none

/-- The loop of `addExtraConstZero()` (Delinearization.cpp:231-248), `zero` is a zero subscript. New subscripts are
changed even if the function returns `false`. -/
def walk {S : Type} (zero : S) : Ty → List (S × Ty) → Nat → List S → Bool × List S
  | .scalar _ _, subs, _, new => (subs.isEmpty, new)
  | .arr _ _, [], extra, new => (true, new ++ List.replicate extra zero)
  | .arr _ t, (s, ty) :: subs, extra, new =>
    if t = ty then walk zero t subs extra (new ++ [s])
    else if extra > 0 then walk zero t ((s, ty) :: subs) (extra - 1) (new ++ [zero])
    else (false, new)

/-- `addExtraConstZero()` (Delinearization.cpp:224-249): `subs` are subscripts starting with a specified index. -/
def addExtra {S : Type} (zero : S) (t : Ty) (subs : List (S × Ty)) (extra : Nat) (new : List S) : Bool × List S :=
  match t with
  | .scalar _ _ => (false, new)
  | .arr n t => walk zero (.arr n t) subs extra new

/-- Completion of subscripts (Delinearization.cpp:331-356). -/
def complete {S : Type} (zero : S) (subs : List (S × Ty)) (st : St S) : Option (List S) :=
  if st.extra > 0 then
    match subs[st.idx]? with
    | some s =>
      let (ok, new) := addExtra zero s.2 (subs.drop (st.idx + 1)) st.extra (st.new ++ [s.1])
      if ok then some new
      else if st.idx = 0 then none
      else
        match subs[st.idx - 1]? with
        | some p =>
          let (ok, new) := addExtra zero p.2 (subs.drop st.idx) st.extra new.dropLast
          if ok then some new else none
        | none => none
    | none => some (st.new ++ List.replicate st.extra zero)
  else some (st.new ++ (subs.drop st.idx).map (·.1))

/-- `cleanSubscripts()` for a single range of an array (Delinearization.cpp:219-362): new subscripts and a ghost field,
if the range is marked as delinearized. The outer option is absent if the behaviour is undefined. `base` is a type of the
base (`scalar` if this is neither a global variable nor `alloca`), `w` is a width of an index. -/
def clean (E : Se) (safe : Bool) (f w : Nat) (dims : List (Option E.S)) (base : Ty) (r : Rng E.S) :
    Option (Option (List E.S × Bool)) :=
  let zero := E.const w 0
  let extra := if r.needZero then dims.length - r.subs.length else 0
  let last := lastConst E dims
  if last = 0 then
    if extra > 0 then
      let (ok, new) := addExtra zero base r.subs extra []
      some (if ok then some (new, false) else none)
    else some (some (r.subs.map (·.1), false))
  else if r.noGep then some none
  else do
    let st ← dimLoop E safe f w r.subs (min (last - 1) r.subs.length) (dims.take last).tail ⟨0, extra, [], false⟩
    match st with
    | none => some none
    | some st => some ((complete zero r.subs st).map fun l => (l, st.bad))

/-! ## Sizes of dimensions which are not known -/

/-- `getTruncateOrZeroExtend()`. -/
def conv (E : Se) (w : Nat) (s : E.S) : E.S :=
  if E.ty s > w then E.trunc s w else if E.ty s < w then E.zext s w else s

/-- Factors of an expression which are invariant in all loops (Delinearization.cpp:468-479). -/
def invFactors (E : Se) (loops : List Nat) (g : E.S) : List E.S :=
  match E.view g with
  | .mul ops => ops.filter fun s => loops.all fun l => E.inv s l
  | _ => if loops.all fun l => E.inv g l then [g] else []

/-- Factors which are not invariant are excluded (Delinearization.cpp:467-487). There is no result if there are no
invariant factors. -/
def invariant (E : Se) (loops : List Nat) (g : E.S) : Option E.S :=
  if loops.isEmpty then some g
  else if (invFactors E loops g).isEmpty then none
  else some (E.mul (invFactors E loops g))

/-- Expressions which are used to compute a size of a dimension (Delinearization.cpp:429-440). The number of subscripts of
each of these ranges is the number of dimensions (it is asserted in the code). -/
def outer {S : Type} (ranges : List (Rng S)) (dim : Nat) : List S :=
  (ranges.filter fun r => r.isElement && !r.needZero).flatMap fun r => ((r.subs.take dim).map (·.1)).reverse

/-- The state of the loop: sizes of dimensions, the product of known sizes of inner dimensions (dimensions with constant
sizes at the end are not included) and ghost fields: an unchecked substitution has been used in a division; all remainders
are zero. -/
structure Fill (S : Type) where
  dims : List (Option S)
  prev : S
  bad : Bool
  exact : Bool

/-- The loop over dimensions (Delinearization.cpp:417-504), the last dimension to process is `d`. The result is `true` if
all sizes (except of the first one) are known. A divisor and a list of loops which contain accesses to the array are
parameters, `order` is a parameter of `findGCD()`. -/
def fillLoop (E : Se) (order : List E.S → List E.S) (safe : Bool) (f w : Nat) (loops : List Nat) (ranges : List (Rng E.S)) :
    Nat → Fill E.S → Option (Fill E.S × Bool)
  | 0, st => some (st, true)
  | d + 1, st =>
    let unknown : Fill E.S := { st with dims := st.dims.set (d + 1) none }
    match st.dims[d + 1]? with
    | none => none
    | some (some s) =>
      if E.isZero s then some (unknown, false)
      else fillLoop E order safe f w loops ranges d { st with prev := E.mul [st.prev, conv E w s] }
    | some none =>
      match outer ranges (d + 1) with
      | [] => some (unknown, false)
      | l => do
        let (g, b) ← E.gcd order f safe l
        match g with
        | none => some (unknown, false)
        | some g =>
          match invariant E loops g with
          | none => some (unknown, false)
          | some g =>
            let t ← E.divide safe f g st.prev
            fillLoop E order safe f w loops ranges d
              ⟨st.dims.set (d + 1) (some t.q), E.mul [st.prev, conv E w t.q], st.bad || b || t.bad, st.exact && E.isZero t.r⟩

/-- A result of `fillArrayDimensionsSizes()`: sizes of dimensions, ranges, `isDelinearized()` and ghost fields. -/
structure Filled (S : Type) where
  dims : List (Option S)
  ranges : List (Rng S)
  delin : Bool
  bad : Bool
  exact : Bool

/-- `fillArrayDimensionsSizes()` (Delinearization.cpp:364-506). -/
def fill (E : Se) (order : List E.S → List E.S) (safe : Bool) (f w : Nat) (loops : List Nat) (dims : List (Option E.S))
    (ranges : List (Rng E.S)) : Option (Filled E.S) :=
  let run := fun (dims : List (Option E.S)) (ranges : List (Rng E.S)) (last : Nat) =>
    (fillLoop E order safe f w loops ranges last ⟨dims, E.const w 1, false, true⟩).map fun (st, b) =>
      Filled.mk st.dims ranges b st.bad st.exact
  if dims.length = 0 then
    let n := (ranges.map fun r => r.subs.length).foldl max 0
    if n = 0 then some ⟨dims, ranges, false, false, true⟩
    else
      run (List.replicate n none)
        (ranges.map fun r => if r.isElement && decide (n > r.subs.length) then { r with needZero := true } else r) (n - 1)
  else
    let last := lastConst E dims
    if last = 0 then some ⟨dims, ranges, true, false, true⟩ else run dims ranges (last - 1)

end Delin
end Tsar
