import Verif.DeadStore.Spec

/-!
# Model of elimination of dead stores without metadata

Models lib/Transform/IR/DeadCodeElimination.cpp (`NoMetadataDSEPass::runOnFunction`).

Simplifications.
* Alias sets are numbers. What `for_each_memory()` calls for instructions, in order, is a list
  (`Touch`): an access to a location of a known alias set, or an access to unknown memory with the
  list of alias sets it may touch (`aliasesUnknownInst`).
* `DenseMap` is a partial function, and a list of its keys in the order of iteration is a parameter.
* `SmallPtrSet` is a list, the order of iteration over it is a parameter (`order`).
* Loops have a bound on the number of iterations (`fuel`); the outer `none` means that it is not
  enough. It is proved that there is a sufficient bound.
* Use of an erased instruction is a distinct outcome (the inner `none`).
-/
namespace Tsar.DeadStore

/-- An access to memory an instruction performs. `alloca`: the underlying object is an `alloca`,
`md`: metadata is attached to the object. -/
inductive Touch
  | known (i : Instr) (set : Nat) (alloca md : Bool)
  | unknown (i : Instr) (sets : List Nat)

/-- `OnlyStores`: DeadCodeElimination.cpp:81. -/
abbrev Cand := Nat → Option (List Instr)

/-- An iteration of the search for stores: DeadCodeElimination.cpp:87-106. -/
def visit (c : Cand) : Touch → Cand
  | .known i a alloca md =>
    match c a with
    | none => c
    | some l =>
      if !alloca || md || !i.store then fun x => if x = a then none else c x
      else fun x => if x = a then some (l ++ [i]) else c x
  | .unknown _ as => fun x => if x ∈ as then none else c x

/-- The search for stores: DeadCodeElimination.cpp:81-107. `mods` are alias sets which are
modified. -/
def candidates (mods : List Nat) (ts : List Touch) : Cand :=
  ts.foldl visit (fun x => if x ∈ mods then some [] else none)

/-- The state of elimination: instructions which are not erased, `Worklist`, `Visited`, `HasUses`,
`IsChanged`. DeadCodeElimination.cpp:113-122. -/
structure ESt where
  alive : List Instr
  work : List Nat
  visited : List Nat
  has : List Nat
  changed : Bool
  deriving DecidableEq

/-- An instruction which is not erased. -/
def lookup (is : List Instr) (x : Nat) : Option Instr := is.find? (fun i => i.id = x)

/-- `Inst->getNumUses() > 0` -/
def used (is : List Instr) (x : Nat) : Bool := is.any (fun i => x ∈ i.ops)

/-- The loop over operands: DeadCodeElimination.cpp:115-119, 129-133. -/
def pushOps (st : ESt) : List Nat → Option ESt
  | [] => some st
  | o :: os =>
    match lookup st.alive o with
    | none => none
    | some i =>
      if !i.mem && o ∉ st.visited then
        pushOps { st with work := st.work ++ [o], visited := o :: st.visited } os
      else pushOps st os

/-- `eraseFromParent()` -/
def erase (is : List Instr) (x : Nat) : List Instr := is.filter (fun i => i.id ≠ x)

/-- An iteration of the inner loop: DeadCodeElimination.cpp:124-137. -/
def popOne (st : ESt) (x : Nat) : Option ESt :=
  let st := { st with work := st.work.dropLast, visited := st.visited.filter (· ≠ x) }
  match lookup st.alive x with
  | none => none
  | some i =>
    if used st.alive x then some { st with has := if x ∈ st.has then st.has else x :: st.has }
    else
      match pushOps st i.ops with
      | none => none
      | some st => some { st with
          has := st.has.filter (· ≠ x),
          alive := erase st.alive x,
          changed := true }

/-- The inner loop: DeadCodeElimination.cpp:123-138. -/
def drain : Nat → ESt → Option (Option ESt)
  | 0, _ => none
  | fuel + 1, st =>
    match st.work.getLast? with
    | none => some (some st)
    | some x =>
      match popOne st x with
      | none => some none
      | some st => drain fuel st

/-- The outer loop: DeadCodeElimination.cpp:121-143. -/
def rounds (order : List Nat → List Nat) : Nat → ESt → Option (Option ESt)
  | 0, _ => none
  | fuel + 1, st =>
    match drain (fuel + 1) { st with changed := false } with
    | none => none
    | some none => some none
    | some (some st) =>
      if st.changed then
        rounds order fuel { st with visited := st.has, work := st.work ++ order st.has }
      else some (some st)

/-- Elimination of a store: DeadCodeElimination.cpp:112-144. -/
def eliminate (order : List Nat → List Nat) (fuel : Nat) (alive : List Instr) (si : Instr) :
    Option (Option (List Instr)) :=
  match lookup alive si.id with
  | none => some none
  | some _ =>
    match pushOps ⟨alive, [], [], [], false⟩ si.ops with
    | none => some none
    | some st =>
      match rounds order fuel { st with alive := erase st.alive si.id } with
      | none => none
      | some none => some none
      | some (some st) => some (some st.alive)

/-- Elimination of stores: DeadCodeElimination.cpp:111-144. -/
def eliminateAll (order : List Nat → List Nat) (fuel : Nat) :
    List Instr → List Instr → Option (Option (List Instr))
  | alive, [] => some (some alive)
  | alive, si :: rest =>
    match eliminate order fuel alive si with
    | none => none
    | some none => some none
    | some (some alive) => eliminateAll order fuel alive rest

/-- The stores to be eliminated, `keys` is the order of iteration over alias sets. -/
def doomed (mods keys : List Nat) (ts : List Touch) : List Instr :=
  keys.flatMap (fun a => (candidates mods ts a).getD [])

/-- `runOnFunction()`: DeadCodeElimination.cpp:74-146. The result is the list of instructions which
remain. -/
def run (order : List Nat → List Nat) (fuel : Nat) (mods keys : List Nat) (ts : List Touch)
    (f : Fn) : Option (Option (List Instr)) :=
  eliminateAll order fuel f.instrs (doomed mods keys ts)

/-- The function after elimination: erased instructions are removed from their blocks. -/
def remaining (f : Fn) (alive : List Instr) : Fn := f.map (fun b => b.filter (fun i => i ∈ alive))

end Tsar.DeadStore
