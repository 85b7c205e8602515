/-!
# Model of bidirectional maps

`tsar::Bimap` (include/tsar/ADT/Bimap.h) and `tsar::ListBimap` (include/tsar/ADT/ListBimap.h).

A node is identified by a number (its address), addresses are not reused. The list `coll` owns nodes,
so a node is alive if and only if it is in `coll`. An access to a node which has been deleted is
undefined behaviour, it is modelled by `none`.
-/

namespace Tsar
namespace Bimap

variable {F S : Type} [DecidableEq F] [DecidableEq S]

/-- `Bimap` (Bimap.h:558-560): the main list and two hash sets of pointers to nodes. -/
structure Bimap (F S : Type) where
  coll : List (Nat × F × S)
  first : List Nat
  second : List Nat
  next : Nat

/-- The default constructor (Bimap.h:242). -/
def Bimap.init : Bimap F S := ⟨[], [], [], 0⟩

/-- A value of a node by its address. -/
def Bimap.deref (m : Bimap F S) (i : Nat) : Option (F × S) := (m.coll.find? (·.1 = i)).map (·.2)

/-- `DenseSet::find_as(Key)`: keys of nodes are compared with the specified key
(`BimapInfoBase::isEqual()`, Bimap.h:79-83), a key is read through a pointer. A probe of a hash table
examines elements in an order which is not specified. -/
def search (deref : Nat → Option (F × S)) (p : F × S → Bool) : List Nat → Option (Option Nat)
  | [] => some none
  | i :: is =>
    match deref i with
    | none => none
    | some v => if p v then some (some i) else search deref p is

/-- `find_first()` (Bimap.h:430-433), `none` inside is `end()`. -/
def Bimap.findFirst (m : Bimap F S) (k : F) : Option (Option Nat) :=
  search m.deref (fun v => v.1 = k) m.first

/-- `find_second()` (Bimap.h:436-439). -/
def Bimap.findSecond (m : Bimap F S) (k : S) : Option (Option Nat) :=
  search m.deref (fun v => v.2 = k) m.second

/-- `lookup()` (Bimap.h:519-527). -/
def Bimap.lookup (m : Bimap F S) (v : F × S) : Option (Option Nat) :=
  match m.findFirst v.1 with
  | none => none
  | some (some i) => some (some i)
  | some none => m.findSecond v.2

/-- `insertNode()` (Bimap.h:531-536) for a new node. -/
def Bimap.insertNode (m : Bimap F S) (i : Nat) (v : F × S) : Bimap F S :=
  { m with coll := m.coll ++ [(i, v)], first := m.first ++ [i], second := m.second ++ [i] }

/-- `insert()` (Bimap.h:395-403): the result is a node and a flag. -/
def Bimap.insert (m : Bimap F S) (v : F × S) : Option (Bimap F S × Nat × Bool) :=
  match m.lookup v with
  | none => none
  | some (some i) => some (m, i, false)
  | some none => some ({ m with next := m.next + 1 }.insertNode m.next v, m.next, true)

/-- `emplace()` (Bimap.h:419-427): a node is created before the search. -/
def Bimap.emplace (m : Bimap F S) (v : F × S) : Option (Bimap F S × Nat × Bool) :=
  let i := m.next
  let m := { m with next := m.next + 1 }
  match m.lookup v with
  | none => none
  | some (some j) => some (m, j, false)
  | some none => some (m.insertNode i v, i, true)

/-- `erase(iterator)` (Bimap.h:454-460): the iterator refers to the node `i`. The key is read through
the pointer to compute its hash. -/
def Bimap.erase (m : Bimap F S) (i : Nat) : Option (Bimap F S) :=
  match m.deref i with
  | none => none
  | some _ =>
    some { m with
      first := m.first.filter (· ≠ i)
      second := m.second.filter (· ≠ i)
      coll := m.coll.filter (·.1 ≠ i) }

/-- `clear()` (Bimap.h:363-367). -/
def Bimap.clear (m : Bimap F S) : Bimap F S := { m with coll := [], first := [], second := [] }

/-- `++I` (Bimap.h:222): the next node, `none` inside is `end()`. The link is read from the node `i`. -/
def Bimap.succ (m : Bimap F S) (i : Nat) : Option (Option Nat) :=
  match m.deref i with
  | none => none
  | some _ => some ((m.coll.dropWhile (·.1 ≠ i)).tail.head?.map (·.1))

/-- `erase(iterator I, iterator EI)` (Bimap.h:466-470): `none` is `end()`; `fuel` bounds the number of
iterations (the number of elements is enough). -/
def Bimap.eraseRange (m : Bimap F S) (ei : Option Nat) : (fuel : Nat) → (i : Option Nat) → Option (Bimap F S)
  | 0, i => if i = ei then some m else none
  | fuel + 1, i =>
    if i = ei then some m
    else
      match i with
      | none => none
      | some j =>
        match m.erase j with
        | none => none
        | some m' =>
          match m'.succ j with
          | none => none
          | some i' => m'.eraseRange ei fuel i'

/-- `erase_first()` (Bimap.h:476-484). -/
def Bimap.eraseFirst (m : Bimap F S) (k : F) : Option (Bimap F S × Bool) :=
  match m.findFirst k with
  | none => none
  | some none => some (m, false)
  | some (some i) =>
    some ({ m with first := m.first.filter (· ≠ i), coll := m.coll.filter (·.1 ≠ i) }, true)

/-- `erase_second()` (Bimap.h:490-498). -/
def Bimap.eraseSecond (m : Bimap F S) (k : S) : Option (Bimap F S × Bool) :=
  match m.findSecond k with
  | none => none
  | some none => some (m, false)
  | some (some i) =>
    some ({ m with second := m.second.filter (· ≠ i), coll := m.coll.filter (·.1 ≠ i) }, true)

/-! ### ListBimap -/

/-- `ListBimap` (ListBimap.h:509-511): the main list and two hash maps from keys to nodes. -/
structure ListBimap (F S : Type) where
  coll : List (Nat × List F × List S)
  first : List (F × Nat)
  second : List (S × Nat)
  next : Nat

/-- The default constructor (ListBimap.h:185). -/
def ListBimap.init : ListBimap F S := ⟨[], [], [], 0⟩

/-- `DenseMap::find()`. -/
def mapFind {K : Type} [DecidableEq K] (m : List (K × Nat)) (k : K) : Option Nat :=
  (m.find? (·.1 = k)).map (·.2)

/-- `DenseMap::try_emplace()`. -/
def mapPut {K : Type} [DecidableEq K] (m : List (K × Nat)) (k : K) (i : Nat) : List (K × Nat) :=
  if (mapFind m k).isSome then m else m ++ [(k, i)]

/-- `DenseMap::erase(Key)`. -/
def mapErase {K : Type} [DecidableEq K] (m : List (K × Nat)) (k : K) : List (K × Nat) :=
  m.filter (·.1 ≠ k)

/-- `find_first()` (ListBimap.h:373-376). -/
def ListBimap.findFirst (m : ListBimap F S) (k : F) : Option Nat := mapFind m.first k

/-- `find_second()` (ListBimap.h:379-382). -/
def ListBimap.findSecond (m : ListBimap F S) (k : S) : Option Nat := mapFind m.second k

/-- A value of a node by its address. -/
def ListBimap.deref (m : ListBimap F S) (i : Nat) : Option (List F × List S) :=
  (m.coll.find? (·.1 = i)).map (·.2)

/-- `lookup()` (ListBimap.h:464-476). -/
def ListBimap.lookup (m : ListBimap F S) (v : List F × List S) : Option Nat :=
  (v.1.findSome? m.findFirst).or (v.2.findSome? m.findSecond)

/-- `insertNode()` (ListBimap.h:480-487). -/
def ListBimap.insertNode (m : ListBimap F S) (i : Nat) (v : List F × List S) : ListBimap F S :=
  { m with
    coll := m.coll ++ [(i, v)]
    first := v.1.foldl (fun t k => mapPut t k i) m.first
    second := v.2.foldl (fun t k => mapPut t k i) m.second }

/-- `insert()` (ListBimap.h:338-346), `emplace()` (ListBimap.h:362-370) differs by construction of the node only. -/
def ListBimap.insert (m : ListBimap F S) (v : List F × List S) : ListBimap F S × Nat × Bool :=
  match m.lookup v with
  | some i => (m, i, false)
  | none => ({ m with next := m.next + 1 }.insertNode m.next v, m.next, true)

/-- `erase(iterator)` (ListBimap.h:397-405). -/
def ListBimap.erase (m : ListBimap F S) (i : Nat) : Option (ListBimap F S) :=
  match m.deref i with
  | none => none
  | some v =>
    some { m with
      first := v.1.foldl mapErase m.first
      second := v.2.foldl mapErase m.second
      coll := m.coll.filter (·.1 ≠ i) }

end Bimap
end Tsar
