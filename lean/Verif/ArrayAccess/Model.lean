/-!
# Collection of array accesses

Model of `DIArrayAccessInfo` (include/tsar/Analysis/Memory/DIArrayAccess.h:300-626, lib/Analysis/Memory/DIArrayAccess.cpp:
83-267): a list of accesses which is ordered in such a way that accesses in each scope are consecutive, each scope refers to
the first access and to an access after the last one.

Simplifications.
* An access, a scope and an array are numbers. Scopes which contain an access (the innermost is the first one) and an array
  are functions of an access. References to parent scopes, which `add()` stores, are represented by these lists of scopes.
* An iterator is an access it points to, `none` is the end of the list.
* The second list, which is sorted by arrays, is not modelled.
* `erase()` reads an array of an access before it checks for the end of a range (DIArrayAccess.cpp:231). It may read a
  sentinel of the list, the value is not used.
-/

namespace Tsar.ArrayAccess

/-- Description of accesses. -/
structure Prog where
  nest : Nat → List Nat
  arr : Nat → Nat

/-- A scope in `mScopeToAccesses`: `Begin` and `End`. -/
structure Entry where
  scope : Nat
  first : Nat
  last : Option Nat
  deriving DecidableEq, Repr

/-- `mAccesses` and `mScopeToAccesses`. -/
structure Info where
  accs : List Nat
  entries : List Entry
  deriving DecidableEq, Repr

/-- Accesses in a range. -/
def range (accs : List Nat) (b : Nat) (e : Option Nat) : List Nat :=
  (accs.dropWhile fun a => a != b).takeWhile fun a => some a != e

/-- `mScopeToAccesses.find()`. -/
def Info.find (i : Info) (s : Nat) : Option Entry := i.entries.find? fun e => e.scope == s

/-- `scope_accesses()` (DIArrayAccess.h:380-386). -/
def Info.accesses (i : Info) (s : Nat) : List Nat :=
  match i.find s with
  | none => []
  | some e => range i.accs e.first e.last

/-- Insert an access before an iterator: `ilist::insert()`. -/
def insertBefore (x : Nat) (e : Option Nat) (accs : List Nat) : List Nat :=
  accs.takeWhile (fun a => some a != e) ++ x :: accs.dropWhile (fun a => some a != e)

/-- Search for the innermost known scope, the first component is a list of unknown scopes (DIArrayAccess.cpp:91-99). -/
def known (i : Info) : List Nat → Option (List Nat × Entry)
  | [] => none
  | s :: ss =>
    match i.find s with
    | some e => some ([], e)
    | none => (known i ss).map fun (ns, e) => (s :: ns, e)

/-- Exclude a new access from a scope (DIArrayAccess.cpp:200-201). -/
def exclude (x : Nat) (e : Option Nat) (es : List Entry) (t : Nat) : List Entry :=
  es.map fun c => if c.scope = t ∧ c.last = e then { c with last := some x } else c

/-- Exclude a new access from scopes which are contained in the updated scope (DIArrayAccess.cpp:195-204). -/
def excludeAll (p : Prog) (x : Nat) (c : Entry) (as : List Nat) (es : List Entry) : List Entry :=
  as.foldl (fun es a => ((p.nest a).takeWhile fun t => t != c.scope).foldl (exclude x c.last) es) es

/-- `add()` (DIArrayAccess.cpp:83-220). -/
def Info.add (p : Prog) (x : Nat) (i : Info) : Info :=
  match known i (p.nest x) with
  | none => ⟨x :: i.accs, i.entries ++ (p.nest x).reverse.map fun s => ⟨s, x, i.accs.head?⟩⟩
  | some (ns, c) =>
    let accs := insertBefore x c.last i.accs
    let es := excludeAll p x c (range accs c.first (some x)) i.entries
    ⟨accs, es ++ ns.reverse.map fun s => ⟨s, x, c.last⟩⟩

/-- Update scopes before removal of accesses to an array (DIArrayAccess.cpp:228-254): the loop is broken if there are no other
accesses in a scope. The second component is a scope to remove. -/
def eraseEntries (p : Prog) (v : Nat) (accs : List Nat) : List Entry → List Entry × Option Nat
  | [] => ([], none)
  | e :: es =>
    let b := ((accs.dropWhile fun a => a != e.first).dropWhile fun a => p.arr a == v && some a != e.last).head?
    if b = e.last then (e :: es, some e.scope) else
    let l := ((accs.dropWhile fun a => some a != e.last).dropWhile fun a => p.arr a == v).head?
    let r := eraseEntries p v accs es
    ({ e with first := b.getD e.first, last := l } :: r.1, r.2)

/-- `erase()` (DIArrayAccess.cpp:222-267). -/
def Info.erase (p : Prog) (v : Nat) (i : Info) : Info :=
  if i.accs.all fun a => p.arr a != v then i else
  let r := eraseEntries p v i.accs i.entries
  ⟨i.accs.filter fun a => p.arr a != v, r.1.filter fun e => some e.scope != r.2⟩

/-- Operations. -/
inductive Op
  | add (x : Nat)
  | erase (v : Nat)
  deriving DecidableEq, Repr

/-- Execute an operation. -/
def step (p : Prog) (i : Info) : Op → Info
  | .add x => i.add p x
  | .erase v => i.erase p v

/-- Execute operations. -/
def run (p : Prog) (ops : List Op) : Info := ops.foldl (step p) ⟨[], []⟩

end Tsar.ArrayAccess
