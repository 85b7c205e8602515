/-!
# Model of `MemoryLocationRange` and of the intersection of memory ranges

Models `include/tsar/Analysis/Memory/MemoryLocationRange.h` and
`lib/Analysis/Memory/MemoryLocationRange.cpp`.

Simplifications (for all definitions in the file):
* `uint64_t`/`int64_t` values are unbounded `Nat`/`Int` (no wrap-around). Where a `Nat`
  subtraction could be negative in the code, the precondition that rules it out is an
  explicit hypothesis of the theorems.
* `AATags` are not modelled (they are copied only and never inspected by this code).
* `LocationSize` is `Option Nat` (`hasValue` = `isSome`).
-/

namespace Tsar.Range

/-- `MemoryLocationRange::Dimension`, MemoryLocationRange.h:53-63. -/
structure Dim where
  start : Nat
  step : Nat
  trip : Nat
  size : Nat
deriving DecidableEq, Repr, Inhabited

/-- Bit mask `LocKind`, MemoryLocationRange.h:45-51 (one Boolean per bit). -/
structure Kind where
  nonCollapsable : Bool
  collapsed : Bool
  hint : Bool
deriving DecidableEq, Repr, Inhabited

/-- `LocKind::Default`, MemoryLocationRange.h:46. -/
def Kind.default : Kind := ⟨false, false, false⟩

/-- `MemoryLocationRange`, MemoryLocationRange.h:43-188. `ptr = none` is the null pointer. -/
structure Loc where
  ptr : Option Nat
  lower : Option Nat
  upper : Option Nat
  dims : List Dim
  kind : Kind
deriving DecidableEq, Repr, Inhabited

/-- The default constructed location, MemoryLocationRange.h:133-138:
`Ptr == nullptr`, lower bound 0, upper bound `UnknownSize`. -/
def Loc.null : Loc := ⟨none, some 0, none, [], Kind.default⟩

/-- Last index of a dimension: `Start + Step * (TripCount - 1)`,
MemoryLocationRange.cpp:63-64, 270-271. -/
def Dim.last (d : Dim) : Nat := d.start + d.step * (d.trip - 1)

/-- `difference`, MemoryLocationRange.cpp:54-86. `none` = the function returns `false`
(threshold exceeded); otherwise the list of the dimensions which are added to `Res`,
in order. -/
def difference (d i : Dim) (threshold : Nat) : Option (List Dim) :=
  let left : List Dim :=
    if d.start < i.start then
      [⟨d.start, d.step, (i.start - d.start) / d.step, d.size⟩] else []
  let dEnd := d.last
  let iEnd := i.last
  let right : List Dim :=
    if dEnd > iEnd then
      [⟨iEnd + d.step, d.step, (dEnd - iEnd) / d.step, d.size⟩] else []
  if i.trip > 1 then
    let repeatNumber := i.step / d.step - 1
    if repeatNumber > threshold then none
    else
      let center := (List.range repeatNumber).map fun j =>
        (⟨i.start + d.step * (j + 1), i.step, i.trip - 1, d.size⟩ : Dim)
      some (left ++ right ++ center)
  else some (left ++ right)

/-- The external solver `milp::BinomialSystem::solve` (bcl library, not in the repository)
applied to `K1 * X - K2 * Y = c`, MemoryLocationRange.cpp:282-293.
`none`: no solutions. `some (A, B, C, D)`: the general solution `X = A + B*t`,
`Y = C + D*t`. -/
abbrev Solver := Int → Int → Int → Option (Int × Int × Int × Int)

/-- Outcome of processing of a single dimension. `ub` = an assertion fails. -/
inductive DimRes where
  | ub
  | empty
  | unknown
  | ok (d : Dim)
deriving DecidableEq, Repr

/-- `std::ceil(a / double(b))`, MemoryLocationRange.cpp:295, 298; exact division
(the rounding of `double` is studied separately in `Verif/Range/FloatDiv.lean`). -/
def ceilDiv (a b : Int) : Int := -((-a) / b)

/-- `std::floor(a / double(b))`, MemoryLocationRange.cpp:296, 299; exact division. -/
def floorDiv (a b : Int) : Int := a / b

/-- Intersection of two dimensions: body of the loop of `intersect`,
MemoryLocationRange.cpp:266-316. The assertions of lines 276-278 are checked first. -/
def dimIntersect (S : Solver) (l r : Dim) : DimRes :=
  if l.size ≠ r.size then .unknown else
  if l.step = 0 ∨ r.step = 0 ∨ l.trip = 0 ∨ r.trip = 0 then .ub else
  if l.last < r.start ∨ r.last < l.start then .empty else
  let L1 : Int := l.start; let K1 : Int := l.step
  let L2 : Int := r.start; let K2 : Int := r.step
  match S K1 K2 (L2 - L1) with
  | none => .empty
  | some (A, B, C, D) =>
    if B ≤ 0 ∨ D ≤ 0 then .ub else
    let txMin := ceilDiv (0 - A) B
    let txMax := floorDiv ((l.trip : Int) - 1 - A) B
    let tyMin := ceilDiv (0 - C) D
    let tyMax := floorDiv ((r.trip : Int) - 1 - C) D
    let tMin := max txMin tyMin
    let tMax := min txMax tyMax
    if tMax < tMin then .empty else
    let step := K1 * B
    let start := (K1 * A + L1) + step * tMin
    if start < 0 ∨ step ≤ 0 ∨ tMax - tMin + 1 ≤ 0 then .ub else
    .ok ⟨start.toNat, step.toNat, (tMax - tMin + 1).toNat, l.size⟩

/-- Result of the intersection of two lists of dimensions. -/
inductive DimsRes where
  | ub
  | empty
  | unknown
  | ok (ds : List Dim)
deriving DecidableEq, Repr

/-- Complement of a dimension if it was requested, MemoryLocationRange.cpp:317-334. -/
def compl (want : Bool) (d i : Dim) (threshold : Nat) : Option (List Dim) :=
  if want then difference d i threshold else some []

/-- Loop over dimensions, MemoryLocationRange.cpp:265-335. `preL`, `preR` are dimensions
of `LHS` and `RHS` which precede the current one (so `preL ++ c :: ls` is `LHS` with
`DimList[I] = c`), `int` are the already computed dimensions of `Int`, `lc`, `rc` are
the lists of dimensions pushed to `*LC` and `*RC` so far; `wantL`, `wantR` tell whether
`LC`, `RC` are not null. -/
def intersectDimsFrom (S : Solver) (wantL wantR : Bool) (threshold : Nat) :
    (preL preR : List Dim) → (ls rs : List Dim) → (int : List Dim) →
    (lc rc : List (List Dim)) → DimsRes × List (List Dim) × List (List Dim)
  | preL, preR, l :: ls, r :: rs, int, lc, rc =>
    match dimIntersect S l r with
    | .ub => (.ub, lc, rc)
    | .empty => (.empty, lc, rc)
    | .unknown => (.unknown, lc, rc)
    | .ok d =>
      match compl wantL l d threshold with
      | none => (.unknown, lc, rc)
      | some cl =>
        let lc := lc ++ cl.map fun c => preL ++ c :: ls
        match compl wantR r d threshold with
        | none => (.unknown, lc, rc)
        | some cr =>
          let rc := rc ++ cr.map fun c => preR ++ c :: rs
          intersectDimsFrom S wantL wantR threshold
            (preL ++ [l]) (preR ++ [r]) ls rs (int ++ [d]) lc rc
  | _, _, _, _, int, lc, rc => (.ok int, lc, rc)

/-- Result of `intersect`. `none` is `llvm::None`, `unknown` is a location with a null
pointer, `ub` is a failed assertion. -/
inductive Res where
  | ub
  | none
  | unknown
  | exact (l : Loc)
deriving DecidableEq, Repr

/-- `A.hasValue() && B.hasValue() && A.getValue() <= B.getValue()`,
MemoryLocationRange.cpp:190-193. -/
def boundLe : Option Nat → Option Nat → Bool
  | some u, some w => decide (u ≤ w)
  | _, _ => false

/-- `intersectScalar`, MemoryLocationRange.cpp:177-219 (result, pushed to LC, pushed to
RC). Pieces are computed as if `LC` and `RC` were not null. -/
def intersectScalar (l r : Loc) : Res × List Loc × List Loc :=
  if l.ptr ≠ r.ptr then (.none, [], []) else
  if l.kind.collapsed ∨ r.kind.collapsed then (.ub, [], []) else
  match l.lower, l.upper, r.lower, r.upper with
  | some ll, some lu, some rl, some ru =>
    if lu > rl ∧ ll < ru then
      let il := max ll rl
      let iu := min lu ru
      let lc := (if ll < il then [{ l with upper := some il }] else []) ++
                (if lu > iu then [{ l with lower := some iu }] else [])
      let rc := (if rl < il then [{ r with upper := some il }] else []) ++
                (if ru > iu then [{ r with lower := some iu }] else [])
      (.exact { l with lower := some il, upper := some iu }, lc, rc)
    else (.none, [], [])
  | ll, lu, rl, ru =>
    if boundLe lu rl || boundLe ru ll then
      (.none, [], [])
    else (.unknown, [], [])

/-- `SizesInBytes`, MemoryLocationRange.cpp:134-144: entry `k` is the size in bytes of the
subarray with dimensions `k, k+1, ...`; the last entry is the element size. -/
def sizesInBytes (elem : Nat) : List Dim → List Nat
  | [] => [elem]
  | d :: ds =>
    let rest := sizesInBytes elem ds
    d.size * rest.headD elem :: rest

/-- `LowerIdx[I]` / `UpperIdx[I]`, MemoryLocationRange.cpp:145-152:
`CurrSize > 0 ? (x % CurrSize) / NextSize : x / NextSize`. -/
def idxAt (x curr next : Nat) : Nat :=
  if curr > 0 then (x % curr) / next else x / next

/-- Vector of indexes of the element at a byte offset, MemoryLocationRange.cpp:145-152. -/
def idxs (elem x : Nat) : List Dim → List Nat
  | [] => []
  | d :: ds =>
    let next := (sizesInBytes elem ds).headD elem
    idxAt x (d.size * next) next :: idxs elem x ds

/-- Loop of MemoryLocationRange.cpp:154-170 from the innermost dimension outwards.
Returns `none` if the function returns early (line 161), otherwise
(HasPartialCoverage, new dimensions). `TripCount` is computed modulo `2^64`: the
subtraction `UpperIdx - LowerIdx + 1` is written so that a negative value wraps. -/
def buildDims : List Dim → List Nat → List Nat → Option (Bool × List Dim)
  | d :: ds, lo :: los, up :: ups =>
    match buildDims ds los ups with
    | none => none
    | some (hasPartial, rest) =>
      if hasPartial then
        if lo ≠ up then none
        else some (true, ⟨lo, 1, 1, d.size⟩ :: rest)
      else
        some (decide (lo ≠ 0 ∨ up + 1 ≠ d.size),
          ⟨lo, 1, (up + 2 ^ 64 - lo + 1) % 2 ^ 64, d.size⟩ :: rest)
  | _, _, _ => some (false, [])

/-- `delinearize(From, What)`, MemoryLocationRange.cpp:114-175; returns the new value of
`What`. `none` = an assertion fails or a remainder by zero is computed. -/
def delinearize (from_ what : Loc) : Option Loc :=
  if what.kind.collapsed then none else
  if what.kind.nonCollapsable ∨ ¬ from_.kind.collapsed then some what else
  match what.lower, what.upper with
  | some lower, some upper =>
    if lower ≥ upper then some what else
    if from_.dims.length = 0 then some what else
    match from_.upper, from_.lower with
    | some elem, some 0 =>
      if elem = 0 then none else
      if lower % elem ≠ 0 ∨ upper % elem ≠ 0 then some what else
      if (from_.dims.tail.any fun d => d.size = 0) then none else
      match buildDims from_.dims (idxs elem lower from_.dims)
          (idxs elem (upper - elem) from_.dims) with
      | none => some what
      | some (_, ds) =>
        some { what with lower := some 0, upper := some elem, dims := ds,
                         kind := ⟨false, true, what.kind.hint⟩ }
    | _, _ => none
  | _, _ => some what

/-- `intersect`, MemoryLocationRange.cpp:223-338. Returns the result and the locations
pushed to `*LC` and `*RC`. `wantL`, `wantR`: whether `LC`, `RC` are not null (they only
influence array locations, for scalars the pieces are always shown). -/
def intersect (S : Solver) (wantL wantR : Bool) (threshold : Nat) (l0 r0 : Loc) :
    Res × List Loc × List Loc :=
  if l0.ptr = none ∨ r0.ptr = none then (.ub, [], []) else
  if l0.ptr ≠ r0.ptr then (.none, [], []) else
  let l' := if ¬ l0.kind.collapsed ∧ ¬ l0.kind.nonCollapsable ∧ r0.kind.collapsed
            then delinearize r0 l0 else some l0
  match l' with
  | none => (.ub, [], [])
  | some l =>
  let r' := if ¬ r0.kind.collapsed ∧ ¬ r0.kind.nonCollapsable ∧ l.kind.collapsed
            then delinearize l r0 else some r0
  match r' with
  | none => (.ub, [], [])
  | some r =>
  if ¬ l.kind.collapsed ∧ ¬ r.kind.collapsed then intersectScalar l r else
  if ¬ l.kind.collapsed ∨ ¬ r.kind.collapsed then (.unknown, [], []) else
  if l.dims.length ≠ r.dims.length then (.unknown, [], []) else
  if l.lower = r.lower ∧ l.upper = r.upper ∧ l.dims = r.dims then (.exact l, [], []) else
  match intersectDimsFrom S wantL wantR threshold [] [] l.dims r.dims [] [] [] with
  | (res, lc, rc) =>
    let lcL := lc.map fun ds => { l with dims := ds }
    let rcL := rc.map fun ds => { r with dims := ds }
    match res with
    | .ub => (.ub, lcL, rcL)
    | .empty => (.none, lcL, rcL)
    | .unknown => (.unknown, lcL, rcL)
    | .ok ds => (.exact { l with dims := ds }, lcL, rcL)

end Tsar.Range
