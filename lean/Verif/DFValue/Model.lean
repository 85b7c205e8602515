import Verif.MemSet.Model

/-!
# Model of data-flow values formed by sets of locations

Models `include/tsar/Analysis/Memory/DFMemoryLocation.h` and
`lib/Analysis/Memory/DFMemoryLocation.cpp`. The kind `INVALID_KIND` is the state of a destroyed
object, it is not modelled. The stored set of a value with the kind `KIND_FULL` is not read.
-/

namespace Tsar.DFValue

open Tsar.Range Tsar.MemSet

/-- `LocationDFValue`, DFMemoryLocation.h:43-60, 271-273: `full` is `KIND_FULL`, `mask s` is
`KIND_MASK` with `mLocations = s`. -/
inductive Val where
  | full
  | mask (s : MSet)
  deriving DecidableEq, Repr

/-- `emptyValue`, DFMemoryLocation.h:69-71. -/
def Val.empty : Val := .mask []

/-- Copy constructor and copy assignment, MemorySet.h:129, 141-147 and
DFMemoryLocation.h:134-142: locations are inserted to the empty set one by one. -/
def Val.copy (v : Val) : Val :=
  match v with
  | .full => .full
  | .mask s => .mask (MemSet.insertAll [] (allLocs s)).1

section
variable (S : Solver)

/-- `contain`, DFMemoryLocation.h:149-152. -/
def Val.contain (v : Val) (loc : Loc) : Bool :=
  match v with
  | .full => true
  | .mask s => MemSet.contain S s loc

/-- `overlap`, DFMemoryLocation.h:156-159. -/
def Val.overlap (v : Val) (loc : Loc) : Bool :=
  match v with
  | .full => true
  | .mask s => MemSet.overlap S s loc

/-- `subtractFrom`, DFMemoryLocation.h:163-169: the result and the new value of `Compl` (`none`:
`Compl` is not changed). -/
def Val.subtractFrom (v : Val) (loc : Loc) : Bool × Option (List Loc) :=
  match v with
  | .full => (false, none)
  | .mask s => MemSet.subtractFrom S s loc

/-- `cover`, DFMemoryLocation.h:173-176. -/
def Val.cover (v : Val) (loc : Loc) : Bool :=
  match v with
  | .full => false
  | .mask s => MemSet.cover S s loc

/-- `findCoveredBy`, DFMemoryLocation.h:180-187: locations appended to `Locs`. -/
def Val.findCoveredBy (v : Val) (loc : Loc) : List Loc :=
  match v with
  | .full => [loc]
  | .mask s => MemSet.coveredBy S s loc

/-- `difference`, DFMemoryLocation.h:91-103: locations passed to `Result.insert`, in this order;
if the value is empty then the range is inserted and after that each location again. -/
def Val.difference (v : Val) (ls : List Loc) : List Loc :=
  match v with
  | .full => []
  | .mask s => (if s = [] then ls else []) ++ ls.filter fun l => !MemSet.overlap S s l

/-- `LocationDFValue::intersect`, DFMemoryLocation.cpp:35-45: the new value and the result. -/
def Val.intersect (v w : Val) : Val × Bool :=
  match v, w with
  | v, .full => (v, false)
  | .full, w => (w.copy, true)
  | .mask s, .mask t => let r := MemSet.intersectSet S s t; (.mask r.1, r.2)

end

/-- `empty`, DFMemoryLocation.h:190-193. -/
def Val.isEmpty (v : Val) : Bool :=
  match v with
  | .full => false
  | .mask s => decide (s = [])

/-- `clear`, DFMemoryLocation.h:196-200. -/
def Val.clear (_ : Val) : Val := .mask []

/-- `insert(Loc)`, DFMemoryLocation.h:207-212. -/
def Val.insert (v : Val) (loc : Loc) : Val × Bool :=
  match v with
  | .full => (.full, true)
  | .mask s => let r := MemSet.insert s loc; (.mask r.1, r.2)

/-- `insert(LocBegin, LocEnd)`, DFMemoryLocation.h:216-223. -/
def Val.insertAll (v : Val) (ls : List Loc) : Val × Bool :=
  match v with
  | .full => (.full, false)
  | .mask s => let r := MemSet.insertAll s ls; (.mask r.1, r.2)

/-- `LocationDFValue::merge`, DFMemoryLocation.cpp:47-58. -/
def Val.merge (v w : Val) : Val × Bool :=
  match v, w with
  | .full, _ => (.full, false)
  | .mask _, .full => (.full, true)
  | .mask s, .mask t => let r := MemSet.merge s t; (.mask r.1, r.2)

/-- `operator==` for different objects, DFMemoryLocation.h:232-240. -/
def Val.eq (v w : Val) : Bool :=
  match v, w with
  | .full, .full => true
  | .mask s, .mask t => MemSet.eqSet s t
  | _, _ => false

end Tsar.DFValue
