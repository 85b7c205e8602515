/-!
# Regular dependencies in DVMH parallel loops

Model of
* `tsar::dvmh::processRegularDependencies()` (lib/Transform/Clang/DVMHDirecitves.cpp:55-137),
* `ClangDVMHSMParallelization::processRegularDependencies()` and a part of `exploitParallelism()` which determines a size of
  a parallel nest (lib/Transform/Clang/DVMHSMAutoPar.cpp:120-322),
* a part of `ClangDependenceAnalyzer::evaluateDependency()` which collects distances
  (lib/Analysis/Clang/ASTDependenceAnalysis.cpp:215-258).

Simplifications.
* Distances are integers: `APSInt` arithmetic does not overflow, and distances have the same width. All collected distances
  are known (ASTDependenceAnalysis.cpp:221-226, `DIDependence::getKnownLevel()`).
* A variable and its memory are represented by a number.
-/

namespace Tsar.DvmhAcross

/-- `DistanceRange`: the lowest and the highest distances. -/
structure Range where
  lo : Int
  hi : Int
  deriving DecidableEq, Repr

/-- An element of the list of dependencies: distances for each loop in a nest. -/
structure Dep where
  array : Nat
  flow : List Range
  anti : List Range
  deriving DecidableEq, Repr

/-- A subscript (`DIArraySubscript`): a dimension and columns (loops) of monoms if the subscript is affine. -/
structure Sub where
  dim : Nat
  cols : Option (List Nat)
  deriving DecidableEq, Repr

/-- An access to an array in a loop. A subscript may be unknown (a null pointer). -/
structure Access where
  array : Nat
  subs : List (Option Sub)
  deriving DecidableEq, Repr

/-- Process monoms of a subscript (DVMHDirecitves.cpp:101-114), `another` means that `AnotherColumn` is not null. The result is
`none` if the function returns 0. -/
def scanCols (loop dim : Nat) : List Nat → Bool → Option Nat → Option (Option Nat)
  | [], _, dd => some dd
  | c :: cs, another, dd =>
    if c = loop then
      if another || (dd.isSome && dd != some dim) then none else scanCols loop dim cs another (some dim)
    else
      if dd = some dim then none else scanCols loop dim cs true dd

/-- Process subscripts of an access (DVMHDirecitves.cpp:96-115). -/
def scanSubs (loop : Nat) : List (Option Sub) → Option Nat → Option (Option Nat)
  | [], dd => some dd
  | none :: _, _ => none
  | some s :: ss, dd =>
    match s.cols with
    | none => none
    | some cs =>
      match scanCols loop s.dim cs false dd with
      | none => none
      | some dd => scanSubs loop ss dd

/-- Process all accesses to an array (DVMHDirecitves.cpp:93-116): the result is `DependentDim`. -/
def scanAll (loop : Nat) : List Access → Option Nat → Option (Option Nat)
  | [], dd => some dd
  | a :: as, dd =>
    match scanSubs loop a.subs dd with
    | none => none
    | some dd => scanAll loop as dd

/-- The loop in `updatePAD` (DVMHDirecitves.cpp:72-80) after the first distance. -/
def padRest (minDepth : Int) : List Range → Nat
  | [] => 0
  | r :: rs => if r.lo < 0 && -r.lo ≥ minDepth then 0 else 1 + padRest minDepth rs

/-- `updatePAD` (DVMHDirecitves.cpp:68-83). -/
def updatePAD (pad : Nat) : List Range → Nat
  | [] => pad
  | r :: rs => min pad (1 + padRest r.lo rs)

/-- Widths of a dependence in each dimension of an array: to the left and to the right. -/
abbrev Widths := List (Option Int × Option Int)

/-- `SmallVector::resize()`. -/
def resize (n : Nat) (w : Widths) : Widths := w.take n ++ List.replicate (n - w.length) (none, none)

/-- Widths for a dimension (DVMHDirecitves.cpp:122-134). -/
def widths (stepNegative : Bool) (d : Dep) : Option Int × Option Int :=
  let flow := d.flow.head?.map Range.hi
  let anti := d.anti.head?.map Range.hi
  if stepNegative then (anti, flow) else (flow, anti)

/-- The loop over dependencies (DVMHDirecitves.cpp:84-135). -/
def processDeps (loop : Nat) (stepNegative : Bool) (accs : List Access) :
    List Dep → Nat → (Nat → Widths) → Nat × (Nat → Widths)
  | [], pad, info => (pad, info)
  | d :: ds, pad, info =>
    let as := accs.filter fun a => a.array = d.array
    if as.isEmpty then (0, info) else
    match scanAll loop as none with
    | none => (0, info)
    | some none => (0, info)
    | some (some dim) =>
      let pad := updatePAD (updatePAD pad d.flow) d.anti
      let n := (as.map fun a => a.subs.length).foldl max 0
      let w := (resize n (info d.array)).set dim (widths stepNegative d)
      processDeps loop stepNegative accs ds pad (fun a => if a = d.array then w else info a)

/-- `tsar::dvmh::processRegularDependencies()` (DVMHDirecitves.cpp:55-137). -/
def processRegular (loop : Nat) (stepNegative : Bool) (accs : List Access) (deps : List Dep) (info : Nat → Widths) :
    Nat × (Nat → Widths) :=
  match deps with
  | [] => (0, info)
  | d :: ds =>
    processDeps loop stepNegative accs (d :: ds) (if d.flow.isEmpty then d.anti.length else d.flow.length) info

/-! ### A size of a parallel nest -/

/-- A loop in a nest: there are no dependencies (`none`) or a result of `processRegularDependencies()`; whether the next
loop is perfectly nested. -/
structure Level where
  depth : Option Nat
  perfect : Bool
  deriving DecidableEq, Repr

/-- A directive: a number of loops in the nest, `getPossibleAcrossDepth()` (0 means that it is not set), `isFinal()`. -/
structure Nest where
  size : Nat := 0
  depth : Nat := 0
  final : Bool := false
  deriving DecidableEq, Repr

/-- Update `PossibleAcrossDepth` (DVMHSMAutoPar.cpp:149-157). -/
def updateDepth (n : Nest) (d : Nat) : Nat := if n.depth = 0 then d + n.size else min n.depth (d + n.size)

/-- Add a loop to a nest (DVMHSMAutoPar.cpp:120-158, 311-320). -/
def addLoop (n : Nest) (l : Level) : Nest :=
  if n.final then n else
  match l.depth with
  | some 0 => { n with final := true }
  | some d =>
    let depth := updateDepth n d
    { size := n.size + 1, depth, final := !l.perfect || (depth != 0 && n.size + 1 == depth) }
  | none =>
    { n with size := n.size + 1, final := !l.perfect || (n.depth != 0 && n.size + 1 == n.depth) }

/-- Process loops of a nest from the outermost one. -/
def buildNest (ls : List Level) : Nest := ls.foldl addLoop {}

/-! ### Collection of distances -/

/-- A trait of a memory location in a set of traits of an alias node: flow and anti dependencies if they exist, `none` in a
list means that a distance is unknown. -/
structure Trait where
  memory : Nat
  flow : Option (Option (List Range))
  anti : Option (Option (List Range))
  deriving DecidableEq, Repr

/-- `setIf` (ASTDependenceAnalysis.cpp:219-229): `none` is `false`. -/
def distances : Option (Option (List Range)) → Option (List Range)
  | none => some []
  | some none => none
  | some (some l) => some l

/-- `emplace()` does not change an existing element. -/
def emplace (deps : List Dep) (d : Dep) : List Dep := if deps.any (·.array == d.array) then deps else deps ++ [d]

/-- The loop over traits (ASTDependenceAnalysis.cpp:217-258): dependencies and whether there is a memory location
without a variable. A trait with an unknown distance is ignored. `declOf` is a variable for the memory of the first trait (lines 231-232). -/
def collect (declOf : Nat → Option Nat) (first : Nat) : List Trait → List Dep × Bool → List Dep × Bool
  | [], r => r
  | t :: ts, (deps, bad) =>
    match distances t.flow, distances t.anti with
    | some f, some a =>
      match declOf first with
      | some v => collect declOf first ts (emplace deps ⟨v, f, a⟩, bad)
      | none => collect declOf first ts (deps, true)
    | _, _ => collect declOf first ts (deps, bad)

/-- Process traits of an alias node. -/
def collectNode (declOf : Nat → Option Nat) (ts : List Trait) (deps : List Dep) : List Dep × Bool :=
  match ts with
  | [] => (deps, false)
  | t :: ts => collect declOf t.memory (t :: ts) (deps, false)

end Tsar.DvmhAcross
