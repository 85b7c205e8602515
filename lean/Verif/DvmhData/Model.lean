import Mathlib.Data.List.Basic
import Mathlib.Tactic.SplitIfs

/-!
# Model of selection of directives which transfer data between a host and a device

Models a part of `ClangDVMHWriter::runOnModule` (lib/Transform/Clang/DVMHWriter.cpp:818-894, 985-1004, 1528-1706).

Directives `actual`/`get_actual` form a replacement graph: a directive may be omitted if all its children are used instead
of it. Roots are directives without parents: they surround regions and are always sufficient.

Simplifications.
* A directive is a number. Parents of a directive are directives which have it as a child, pointers to parents are
  represented by a predicate `orphan`.
* A location to insert a directive is represented by flags: a directive cannot be inserted (it is `invalid` before the
  selection, DVMHWriter.cpp:985-1004), variables of a directive are not visible there (`hidden`, 1580-1602).
* Diagnostics are not modelled, except of an error: the selection fails and sources are not changed.
* A depth of recursion is bounded by a fuel. It is sufficient if the graph has no cycles, see Props.
-/

namespace Tsar.DvmhData

/-- A replacement graph. `root` is a stub `IPORoot` (DVMHDirecitves.h:427), it is not inserted into sources. -/
structure Graph where
  children : Nat → List Nat
  orphan : Nat → Bool
  root : Nat
  final : Nat → Bool
  required : Nat → Bool
  /-- There are variables in a directive. -/
  memory : Nat → Bool
  /-- There is a location, but none of variables is visible at any location (DVMHWriter.cpp:1577-1602). -/
  hidden : Nat → Bool

/-- Flags `Skipped` and `Invalid` (DVMHDirecitves.h:189-216). -/
structure Flags where
  skipped : Nat → Bool
  invalid : Nat → Bool

/-- A state of traversal: flags, visited directives and directives in post order (the last one is the first). -/
structure St where
  flags : Flags
  visited : List Nat := []
  po : List Nat := []

/-- `PragmaData::skip()` (DVMHDirecitves.h:214). -/
def Flags.skip (f : Flags) (v : Nat) : Flags := { f with skipped := fun u => if u = v then true else f.skipped u }

/-- `PragmaData::actualize()` (DVMHDirecitves.h:215). -/
def Flags.actualize (f : Flags) (v : Nat) : Flags := { f with skipped := fun u => if u = v then false else f.skipped u }

/-- `PragmaData::invalidate()` (DVMHDirecitves.h:216). -/
def Flags.invalidate (f : Flags) (v : Nat) : Flags := { f with invalid := fun u => if u = v then true else f.invalid u }

/-- All replacements are available (DVMHWriter.cpp:1550-1554). -/
def redundant (g : Graph) (f : Flags) (v : Nat) : Bool :=
  !(g.children v).isEmpty && (g.children v).all fun c => !f.invalid c || f.skipped c

/-- Process a directive after its children (DVMHWriter.cpp:1543-1602). -/
def process (g : Graph) (f : Flags) (v : Nat) : Flags :=
  if f.skipped v then f else
  if redundant g f v && !g.final v && !g.required v then f.skip v else
  if v = g.root then (if (g.children v).isEmpty then f.skip v else f.invalidate v) else
  if !g.memory v then f.skip v else
  if g.hidden v then f.skip v else f

/-- Post-ordered traversal from a directive (DVMHWriter.cpp:873-884). -/
def dfs (g : Graph) : Nat → Nat → St → St
  | 0, _, s => s
  | n + 1, v, s =>
    if v ∈ s.visited then s else
    let s' := (g.children v).foldl (fun s c => dfs g n c s) { s with visited := v :: s.visited }
    { s' with flags := process g s'.flags v, po := v :: s'.po }

/-- Post-ordered traversal from all roots (DVMHWriter.cpp:886-894). -/
def traverse (g : Graph) (fuel : Nat) (roots : List Nat) (f : Flags) : St :=
  roots.foldl (fun s r => dfs g fuel r s) { flags := f }

/-- A root which is not optimized (DVMHWriter.cpp:1609-1611). -/
def notOptimized (g : Graph) (f : Flags) (r : Nat) : Bool := !f.skipped r && !(g.children r).isEmpty

/-- Disable optimization (DVMHWriter.cpp:1684-1696), the list is in reverse post order. -/
def disable (g : Graph) : List Nat → Flags → Flags
  | [], f => f
  | v :: vs, f => disable g vs (if g.orphan v then f.actualize v else if !f.skipped v then f.skip v else f)

/-- Selection of directives: `none` is an error (DVMHWriter.cpp:1539-1696). -/
def select (g : Graph) (fuel : Nat) (roots : List Nat) (f : Flags) : Option Flags :=
  let s := traverse g fuel roots f
  let bad := roots.filter (notOptimized g s.flags)
  if bad.any s.flags.invalid then none else
  if bad.isEmpty then some s.flags else some (disable g s.po s.flags)

/-- A directive is written to sources (DVMHWriter.cpp:1112, 1157). -/
def inserted (g : Graph) (f : Flags) (v : Nat) : Bool :=
  v != g.root && g.memory v && !f.invalid v && !f.skipped v

end Tsar.DvmhData
