import Mathlib.Data.List.Basic
import Mathlib.Algebra.Order.Group.Int

/-!
# Ordered loops (C103)

Models construction of `ordered` directives in `/repo/lib/Transform/Clang/OpenMPAutoPar.cpp`: `OMPOrderedDirective`
(lines 105-149), `makeOrderedRange` (255-290), `addOrUpdateOrderedIfNeed` (453-496), the part of `exploitParallelism`
which extends a nest of loops (498-587) and `buildOrederedSink` (598-644).

Distances are unbounded integers (`llvm::APSInt`: width and signedness are not modelled). `none` as a result of a function
is an undefined behaviour: an index which is out of range or a value of an empty `Optional`.
-/

namespace Tsar
namespace Ordered

/-- A range of distances in a directive: both bounds are known or both are not known (`DistanceRange`). -/
abbrev Range := Option (Int × Int)

/-- Distances of a dependence in `ASTRegionTraitInfo` (ASTDependenceAnalysis.cpp:217-230): ranges for the loop and for
inner loops. Only known ranges are stored (`getKnownLevel`, DIMemoryTrait.h:83-89). An absent dependence has an empty
list. -/
structure Dep where
  flow : List (Int × Int)
  anti : List (Int × Int)

/-- A step of the inner loop of `update` (OpenMPAutoPar.cpp:271-276). -/
def widen (d v : Int × Int) : Int × Int :=
  (if d.1 < v.1 then d.1 else v.1, if d.2 > v.2 then d.2 else v.2)

/-- `update` (OpenMPAutoPar.cpp:264-279). The list describes `DV` without the first `EnclosingPNestSize` ranges, the
longer list is cut. -/
def update (dv dist : List (Int × Int)) : List (Int × Int) :=
  if dist.isEmpty then dv else List.zipWith widen dist dv

/-- `makeOrderedRange` (OpenMPAutoPar.cpp:255-290). The first dependence is dereferenced by a caller only if the list
is not empty. -/
def makeRange (deps : List Dep) (size : Nat) : Option (List Range) :=
  match deps with
  | [] => none
  | f :: _ =>
    let init := if f.flow.isEmpty then f.anti else f.flow
    let dv := deps.foldl (fun dv d => update (update dv d.flow) d.anti) init
    match dv with
    | [] => none
    | r :: l => some (List.replicate size none ++ some (-r.1, -r.2) :: l.map some)

/-- `OMPOrderedDirective` (OpenMPAutoPar.cpp:105-149). -/
structure Directive where
  sink : List (List Range)
  depth : Nat

/-- A new directive (OpenMPAutoPar.cpp:114-117, 148). -/
def Directive.new : Directive := ⟨[], 0⟩

/-- `push_back` (OpenMPAutoPar.cpp:128-138). -/
def Directive.push (o : Directive) (dv : List Range) : Directive :=
  ⟨o.sink ++ [dv], if dv.length < o.depth then dv.length else o.depth⟩

/-- `reduce_depth` (OpenMPAutoPar.cpp:121-126); `resize` may only shorten a list which is long enough, an added range
is empty. -/
def Directive.reduce (o : Directive) (n : Nat) : Directive :=
  ⟨if n < o.depth then o.sink.map fun s => s.take n ++ List.replicate (n - s.length) none else o.sink, n⟩

/-- What is known about a loop of a nest: dependences, are clauses the same as for the outer loops
(OpenMPAutoPar.cpp:559-562), may the nest be extended further (a perfect loop with an inner loop, 583). -/
structure Level where
  deps : List Dep
  same : Bool
  perfect : Bool

/-- Extension of a nest (OpenMPAutoPar.cpp:498-587): `size` loops are in the nest, the result is the directive, if it
exists, and a number of loops in the nest. Each loop in the list is the single inner loop of the previous one. -/
def extend : List Level → Option Directive → Nat → Option (Option Directive × Nat)
  | [], o, size => some (o, size)
  | l :: ls, o, size =>
    if size ≠ 0 && !l.same then some (o, size)
    else if l.deps.isEmpty then some (o, size + 1)
    else
      match makeRange l.deps size with
      | none => none
      | some dv =>
        let o := (o.getD .new).push dv
        if decide (o.depth = size + 1) || !l.perfect then some (some o, size + 1)
        else extend ls (some o) (size + 1)

/-- The directive after `finalize` (OpenMPAutoPar.cpp:151-156). -/
def build (ls : List Level) : Option (Option Directive × Nat) :=
  (extend ls none 0).map fun r => (r.1.map (·.reduce r.2), r.2)

/-- Integers `a, a + 1, …`, `n` values. -/
def count (a : Int) : Nat → List Int
  | 0 => []
  | n + 1 => a :: count (a + 1) n

/-- The loop `for (; Dist <= MaxDist; ++Dist)` after `swap` (OpenMPAutoPar.cpp:632-638). -/
def values (r : Int × Int) : List Int :=
  let lo := if r.1 > r.2 then r.2 else r.1
  let hi := if r.1 > r.2 then r.1 else r.2
  count lo (hi - lo + 1).toNat

/-- `buildOrederedSink` (OpenMPAutoPar.cpp:598-644): a list of vectors of the clauses `depend(sink: …)`. The first
argument is a number of remaining dimensions. -/
def buildSink : Nat → List Range → Option (List (List Int))
  | 0, _ => some [[]]
  | _ + 1, [] => none
  | n + 1, r :: l =>
    match buildSink n l with
    | none => none
    | some t =>
      match r with
      | none => some (t.map (0 :: ·))
      | some v => some ((values v).flatMap fun d => t.map (d :: ·))

/-- Clauses of all sinks (OpenMPAutoPar.cpp:717-719). -/
def buildSinks (n : Nat) : List (List Range) → Option (List (List Int))
  | [] => some []
  | s :: l =>
    match buildSink n s, buildSinks n l with
    | some a, some b => some (a ++ b)
    | _, _ => none

/-- Vectors of sinks which are inserted for a nest and a number of loops in the nest. There are no vectors if an ordered directive is
not inserted. -/
def sinks (ls : List Level) : Option (List (List Int) × Nat) :=
  match build ls with
  | none => none
  | some (none, n) => some ([], n)
  | some (some o, n) => (buildSinks o.depth o.sink).map fun s => (s, n)

end Ordered
end Tsar
