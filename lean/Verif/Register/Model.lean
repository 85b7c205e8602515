/-!
# Model of `tsar::ItemRegister` (include/tsar/ADT/ItemRegister.h)

Items of all types share a numbering. An item of the type with the index `t` is an element `⟨t, x⟩` of
the sum of item types, hence a tuple of hash maps is one map with keys in the sum.
-/

namespace Tsar
namespace Register

/-- `ItemRegister` (ItemRegister.h:138-140). Identifiers are unsigned 64-bit integers. -/
structure Reg (T : Type) where
  idNum : BitVec 64
  items : List (T × BitVec 64)

variable {T : Type} [DecidableEq T]

/-- The constructor (ItemRegister.h:90). -/
def Reg.init (first : BitVec 64) : Reg T := ⟨first, []⟩

/-- `findItem()` (ItemRegister.h:115-118) and `getID()` (ItemRegister.h:121-125), `none` is `end()`. -/
def Reg.find (r : Reg T) (x : T) : Option (BitVec 64) := (r.items.find? (·.1 = x)).map (·.2)

/-- `regItem()` (ItemRegister.h:95-102). -/
def Reg.regItem (r : Reg T) (x : T) : Reg T × BitVec 64 × Bool :=
  match r.find x with
  | some i => (r, i, false)
  | none => (⟨r.idNum + 1, r.items ++ [(x, r.idNum)]⟩, r.idNum, true)

/-- `numberOfIDs()` (ItemRegister.h:105). -/
def Reg.numberOfIDs (r : Reg T) : BitVec 64 := r.idNum

/-- `clear()` (ItemRegister.h:132-135). -/
def Reg.clear (_ : Reg T) (first : BitVec 64) : Reg T := ⟨first, []⟩

end Register
end Tsar
