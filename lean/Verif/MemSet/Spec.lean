import Verif.MemSet.Model
import Verif.Range.Spec

/-!
# Specification of sets of memory locations

The meaning of a location is the set of its bytes (counted from the base pointer), the meaning
of a set is the union of meanings of its locations.
-/

namespace Tsar.MemSet

open Tsar.Range

/-- Byte `b` may belong to the location. An unknown upper bound means that the location is not
bounded from above. -/
def Reach (l : Loc) (b : Nat) : Prop :=
  if l.kind.collapsed then l.Byte b
  else (∃ lo, l.lower = some lo ∧ lo ≤ b) ∧ ∀ up, l.upper = some up → b < up

/-- An object in memory: an array with elements of `elem` bytes and with `sizes` elements in
each dimension (the first size is zero if it is unknown); no sizes if there are no array
accesses to the object. -/
structure Obj where
  elem : Nat
  sizes : List Nat

/-- A byte range with the upper bound `up` lies inside of the object (if it is accessed as an
array) and sizes are representable in 64 bits. -/
def Obj.Fits (o : Obj) (up : Nat) : Prop :=
  o.sizes = [] ∨
  (up < 2 ^ 64 ∧ o.sizes.tail.prod < 2 ^ 64 ∧ o.sizes.prod < 2 ^ 64 ∧
    (o.sizes.head? = some 0 ∨ up ≤ o.sizes.prod * o.elem))

/-- A location which describes a part of the object: a byte range with a known lower bound or a
well-formed array range with the sizes of the object. -/
def WfLoc (o : Obj) (l : Loc) : Prop :=
  l.ptr ≠ none ∧
  ((l.kind.collapsed = false ∧ l.dims = [] ∧ (∃ lo, l.lower = some lo) ∧
      ∀ up, l.upper = some up → o.Fits up) ∨
    (l.IsArray o.elem ∧ l.dims.map Dim.size = o.sizes))

/-- A well-formed set: a map from pointers to non-empty lists of locations with this pointer;
`ob` gives the object for each pointer. -/
def SetWf (ob : Option Nat → Obj) (s : MSet) : Prop :=
  (s.map Prod.fst).Nodup ∧
  ∀ e ∈ s, e.2 ≠ [] ∧ ∀ l ∈ e.2, l.ptr = e.1 ∧ WfLoc (ob l.ptr) l

/-- Byte `b` of the object with the pointer `p` belongs to the set. -/
def SetByte (s : MSet) (p : Option Nat) (b : Nat) : Prop :=
  ∃ e ∈ s, ∃ l ∈ e.2, l.ptr = p ∧ Reach l b

/-- Byte `b` of the object with the pointer `p` belongs to some of the locations. -/
def ListByte (ls : List Loc) (p : Option Nat) (b : Nat) : Prop :=
  ∃ l ∈ ls, l.ptr = p ∧ Reach l b

end Tsar.MemSet
