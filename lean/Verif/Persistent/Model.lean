/-!
# Model of persistent iterators (include/tsar/ADT/PersistentIterator.h)

Buckets of a container and persistent iterators are objects with addresses (numbers). Iterators to
a bucket form an intrusive doubly linked list. A link is stored in a cell: the head of the list in
a bucket (`mPersistentList`) or `mNext` of an iterator; `mPrev` is the address of a cell. An access to a
cell of an object which does not exist is undefined behaviour (`none`).

The container is `llvm::DenseMap`: a bucket with a key is constructed at a free place, a growing table
moves buckets, a removal of a key destroys its bucket.
-/

namespace Tsar
namespace Persistent

/-- An address of a link. -/
inductive Cell where
  | head (b : Nat)
  | next (x : Nat)
  deriving DecidableEq, Repr

/-- Fields of `PersistentIteratorC` (PersistentIterator.h:241, 268-269). -/
structure It where
  ptr : Option Nat
  next : Option Nat
  prev : Cell
  deriving DecidableEq

/-- Fields of a bucket: a key (the value of an element is determined by the key) and the head of the list
(PersistentIterator.h:377). -/
structure Bucket where
  key : Nat
  head : Option Nat
  deriving DecidableEq

/-- Memory: existing buckets and iterators. The hash table finds a bucket by its key. -/
structure State where
  place : Nat → Option Nat
  bucket : Nat → Option Bucket
  it : Nat → Option It

/-- Memory without objects. -/
def State.init : State := ⟨fun _ => none, fun _ => none, fun _ => none⟩

/-- An update of a function. -/
def upd {α : Type} (f : Nat → α) (i : Nat) (v : α) : Nat → α := fun j => if j = i then v else f j

/-- A read of a link. -/
def State.read (s : State) : Cell → Option (Option Nat)
  | .head b => (s.bucket b).map (·.head)
  | .next x => (s.it x).map (·.next)

/-- A write of a link. -/
def State.write (s : State) (c : Cell) (v : Option Nat) : Option State :=
  match c with
  | .head b => (s.bucket b).map (fun k => { s with bucket := upd s.bucket b (some { k with head := v }) })
  | .next x => (s.it x).map (fun i => { s with it := upd s.it x (some { i with next := v }) })

/-- A write of `mPrev`. -/
def State.setPrev (s : State) (x : Nat) (c : Cell) : Option State :=
  (s.it x).map (fun i => { s with it := upd s.it x (some { i with prev := c }) })

/-- A write of `mPtr`. -/
def State.setPtr (s : State) (x : Nat) (p : Option Nat) : Option State :=
  (s.it x).map (fun i => { s with it := upd s.it x (some { i with ptr := p }) })

/-- `isValid()` (PersistentIterator.h:237). -/
def It.valid (x : Nat) (i : It) : Bool := i.prev ≠ .next x

/-- `isValid()` for an existing iterator. -/
def State.isValid (s : State) (x : Nat) : Option Bool := (s.it x).map (It.valid x)

/-- `operator*` (PersistentIterator.h:222-225): the key of the bucket. -/
def State.deref (s : State) (x : Nat) : Option Nat := do
  let i ← s.it x
  let b ← i.ptr
  let k ← s.bucket b
  some k.key

/-- `invalidate()` (PersistentIterator.h:244). -/
def State.invalidate (s : State) (x : Nat) : Option State := s.setPrev x (.next x)

/-- `addToList()` (PersistentIterator.h:246-256). -/
def State.addToList (s : State) (x : Nat) : Option State := do
  let i ← s.it x
  let b ← i.ptr
  let h ← s.read (.head b)
  let s ← s.write (.next x) h
  let s ← s.write (.head b) (some x)
  let s ← s.setPrev x (.head b)
  match h with
  | some y => s.setPrev y (.next x)
  | none => some s

/-- `removeFromList()` (PersistentIterator.h:258-266). -/
def State.removeFromList (s : State) (x : Nat) : Option State := do
  let i ← s.it x
  let s ← s.write i.prev i.next
  let i' ← s.it x
  match i'.next with
  | some y =>
    let s ← s.setPrev y i'.prev
    s.invalidate x
  | none => s.invalidate x

/-- A constructor of an iterator allocates an object with the specified pointer; other fields are set
below. -/
def State.alloc (s : State) (x : Nat) (p : Option Nat) : State :=
  { s with it := upd s.it x (some ⟨p, none, .next x⟩) }

/-- The constructor from a general iterator (PersistentIterator.h:166-171). -/
def State.create (s : State) (x b : Nat) : Option State := (s.alloc x (some b)).addToList x

/-- The copy constructor (PersistentIterator.h:147-153). -/
def State.copy (s : State) (x y : Nat) : Option State := do
  let i ← s.it y
  let s := s.alloc x i.ptr
  if i.valid y then s.addToList x else s.invalidate x

/-- The move constructor (PersistentIterator.h:155-162). -/
def State.move (s : State) (x y : Nat) : Option State := do
  let i ← s.it y
  let s := s.alloc x i.ptr
  if i.valid y then do
    let s ← s.addToList x
    s.removeFromList y
  else s.invalidate x

/-- The destructor (PersistentIterator.h:137-145). -/
def State.destroy (s : State) (x : Nat) : Option State := do
  let i ← s.it x
  let s ← if i.valid x then s.removeFromList x else some s
  some { s with it := upd s.it x none }

/-- A common part of assignments (PersistentIterator.h:174-187, 192-206): an iterator `i` with the
address `y` is assigned to the iterator with the address `x`. -/
def State.assignFrom (s : State) (x : Nat) (yvalid : Bool) (yptr : Option Nat) : Option State := do
  let i ← s.it x
  if yvalid then
    if i.ptr ≠ yptr then do
      let s ← s.setPtr x yptr
      s.addToList x
    else some s
  else do
    let s ← s.setPtr x yptr
    if i.valid x then s.removeFromList x else s.invalidate x

/-- The copy assignment (PersistentIterator.h:173-189). -/
def State.assign (s : State) (x y : Nat) : Option State := do
  let i ← s.it y
  s.assignFrom x (i.valid y) i.ptr

/-- The move assignment (PersistentIterator.h:191-208). -/
def State.assignMove (s : State) (x y : Nat) : Option State := do
  let i ← s.it y
  let s ← s.assignFrom x (i.valid y) i.ptr
  if i.valid y then s.removeFromList y else some s

/-- The assignment of a general iterator (PersistentIterator.h:212-220). -/
def State.assignBucket (s : State) (x b : Nat) : Option State := do
  let i ← s.it x
  let s ← if i.valid x then s.removeFromList x else some s
  let s ← s.setPtr x (some b)
  s.addToList x

/-- A new bucket (`DenseMap::try_emplace()`, the default constructor of the wrapper,
PersistentIterator.h:327). -/
def State.newBucket (s : State) (b k : Nat) : State :=
  { s with bucket := upd s.bucket b (some ⟨k, none⟩), place := upd s.place k (some b) }

/-- The loop of the destructor of the wrapper (PersistentIterator.h:330-333), `fuel` bounds the number
of iterations: `none` is also a loop which is not finished. -/
def State.drain (s : State) (b : Nat) : Nat → Option State
  | 0 =>
    match s.bucket b with
    | some ⟨_, none⟩ => some s
    | _ => none
  | fuel + 1 =>
    match s.bucket b with
    | none => none
    | some ⟨_, none⟩ => some s
    | some ⟨_, some x⟩ =>
      match s.removeFromList x with
      | none => none
      | some s => s.drain b fuel

/-- Destruction of a bucket (`DenseMap` calls the destructor of the wrapper). -/
def State.kill (s : State) (fuel b : Nat) : Option State := do
  let s ← s.drain b fuel
  some { s with bucket := upd s.bucket b none }

/-- A removal of a key (`DenseMap::erase()`). -/
def State.erase (s : State) (fuel k : Nat) : Option State := do
  let b ← s.place k
  let s ← s.kill fuel b
  some { s with place := upd s.place k none }

/-- The loop which updates pointers in a moved list (PersistentIterator.h:348-350). -/
def State.retarget (s : State) (b : Nat) : Nat → Option Nat → Option State
  | _, none => some s
  | 0, some _ => none
  | fuel + 1, some x => do
    let s ← s.setPtr x (some b)
    let i ← s.it x
    s.retarget b fuel i.next

/-- A bucket is moved when a table grows: the move constructor of the wrapper
(PersistentIterator.h:342-351), then the source is destroyed (its list is empty). -/
def State.moveBucket (s : State) (fuel k b' : Nat) : Option State := do
  let b ← s.place k
  let v ← s.bucket b
  let s := { s with bucket := upd s.bucket b' (some v) }
  let s ← s.write (.head b) none
  let s ← match v.head with
    | none => some s
    | some x => do
      let s ← s.setPrev x (.head b')
      s.retarget b' fuel (some x)
  let s ← s.kill fuel b
  some { s with place := upd s.place k (some b') }

/-- A bucket is copied together with a table: the copy constructor of the wrapper
(PersistentIterator.h:339) copies the head of the list. -/
def State.copyBucket (s : State) (b b' : Nat) : Option State := do
  let v ← s.bucket b
  some { s with bucket := upd s.bucket b' (some v) }

/-! ### Operations of a user -/

/-- An operation: on a container (`insert k b` places a bucket with the key `k` at the free address `b`,
`grow k b` moves the bucket of `k` to the free address `b` when a table is reallocated) or on persistent
iterators. -/
inductive Op where
  | insert (k b : Nat)
  | grow (k b : Nat)
  | erase (k : Nat)
  | null (x : Nat)
  | create (x k : Nat)
  | copy (x y : Nat)
  | move (x y : Nat)
  | assign (x y : Nat)
  | assignMove (x y : Nat)
  | assignKey (x k : Nat)
  | destroy (x : Nat)

/-- Effect of an operation. A general iterator is a result of `find(k)` which is not `end()`.
`null x` is the default constructor (PersistentIterator.h:131-135). -/
def State.step (fuel : Nat) (s : State) : Op → Option State
  | .insert k b => some (s.newBucket b k)
  | .grow k b => s.moveBucket fuel k b
  | .erase k => s.erase fuel k
  | .null x => some (s.alloc x none)
  | .create x k => (s.place k).bind (s.create x)
  | .copy x y => s.copy x y
  | .move x y => s.move x y
  | .assign x y => s.assign x y
  | .assignMove x y => s.assignMove x y
  | .assignKey x k => (s.place k).bind (s.assignBucket x)
  | .destroy x => s.destroy x

/-- A history of operations. -/
def State.run (fuel : Nat) (s : State) : List Op → Option State
  | [] => some s
  | o :: os => (s.step fuel o).bind (·.run fuel os)

end Persistent
end Tsar
