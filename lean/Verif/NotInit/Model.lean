import Mathlib.Data.List.Basic
import Mathlib.Tactic.SplitIfs

/-!
# Model of the search for memory which is used before its initialization

Models lib/Analysis/Memory/NotInitializedMemory.cpp.

Simplifications.
* `EstimateMemory` is a number and a parent of a memory has a smaller number. So, chains of parents are finite.
* A set `DefUseSet::getUses()` of a function is a list of memories `AT.find(Loc)` (properties C21, C89 are about its
  content). Undefined behaviour for a region without `DefUseSet` (NotInitializedMemory.cpp:181-183) is not modelled.
* `DenseSet`, `SmallPtrSet` and `DenseMap` are lists. An order of traversal of `DenseMap` is arbitrary.
-/

namespace Tsar.NotInit

/-- Estimate memory (`EstimateMemory *`, NotInitializedMemory.cpp:68-90), locations are numbered. -/
abbrev EM := Nat
/-- Metadata-level memory (`DIMemory *`, NotInitializedMemory.cpp:68-90), locations are numbered. -/
abbrev DIM := Nat

/-- An underlying object of the first pointer of a root of a chain (NotInitializedMemory.cpp:187-194). -/
inductive Obj
  | function | ifunc | constantData | constantAggregate
  | globalVar (const : Bool)
  | argument
  | other
  deriving DecidableEq, Repr

/-- A class of a variable (NotInitializedMemory.cpp:71-75, 235-249): it is a local variable which is (not) a parameter,
other variable or a memory without a variable. -/
inductive Class
  | arg | loc | glob | unknown
  deriving DecidableEq, Repr

/-- Results of analysis of a function.
`parent`, `leaf`, `obj` describe an alias tree, `raw` is `getRawDIMemoryIfExists`, `find` is `DIAT.find`, `cls`
describes a metadata-level memory (what it describes is checked by `insert`, NotInitializedMemory.cpp:235-249). -/
structure Fun where
  parent : EM → Option EM
  leaf : EM → Bool
  obj : EM → Obj
  raw : EM → Option Nat
  find : Nat → Option DIM
  cls : DIM → Class

/-- A memory and all its parents, the innermost memory is the first one. -/
def chain (f : Fun) : Nat → EM → List EM
  | 0, e => [e]
  | n + 1, e => e :: match f.parent e with
    | some p => chain f n p
    | none => []

/-- `getTopLevelParent` (NotInitializedMemory.cpp:186). -/
def top (f : Fun) (e : EM) : EM := (chain f e e).getLastD e

/-- Objects which have no values to initialize (NotInitializedMemory.cpp:188-193). -/
def skipped : Obj → Bool
  | .function | .ifunc | .constantData | .constantAggregate => true
  | .globalVar c => c
  | .argument | .other => false

/-- The innermost memory with metadata (NotInitializedMemory.cpp:194-198). -/
def climb (f : Fun) : Nat → EM → EM × Option Nat
  | 0, e => (e, f.raw e)
  | n + 1, e =>
    match f.raw e with
    | some r => (e, some r)
    | none =>
      match f.parent e with
      | some p => climb f n p
      | none => (e, none)

/-- Lists of variables (NotInitializedMemory.cpp:71-75). -/
abbrev Vars := Class → List DIM

/-- Result of the pass: `mNotInitScalars`, `mNotInitAggregates`, `mNoMetadataLocs`, `NotInitializedLocs`. -/
structure St where
  scalars : Vars := fun _ => []
  aggregates : Vars := fun _ => []
  noMeta : Bool := false
  locs : List (EM × DIM) := []

/-- Insert a variable (NotInitializedMemory.cpp:235-249). -/
def insert (f : Fun) (d : DIM) (v : Vars) : Vars :=
  fun c => if c = f.cls d then (if d ∈ v c then v c else d :: v c) else v c

/-- Remove a variable from all lists (NotInitializedMemory.cpp:80-83, 124-126). -/
def erase (d : DIM) (v : Vars) : Vars := fun c => (v c).filter (· ≠ d)

/-- `NotInitializedLocs.try_emplace` (NotInitializedMemory.cpp:215). -/
def emplace (e : EM) (d : DIM) (l : List (EM × DIM)) : List (EM × DIM) :=
  if l.any (·.1 == e) then l else (e, d) :: l

/-- A single iteration of the first loop (NotInitializedMemory.cpp:183-216). -/
def use (f : Fun) (s : St) (e : EM) : St :=
  if skipped (f.obj (top f e)) then s else
  match climb f e e with
  | (_, none) => if f.obj (top f e) = .argument then s else { s with noMeta := true }
  | (e', some r) =>
    match f.find r with
    | none => s
    | some d =>
      { s with
        scalars := if f.leaf e' then insert f d s.scalars else s.scalars
        aggregates := if f.leaf e' then s.aggregates else insert f d s.aggregates
        locs := emplace e' d s.locs }

/-- Is there a memory from a list among parents of a specified one (NotInitializedMemory.cpp:220-230)? -/
def covered (f : Fun) (locs : List (EM × DIM)) (e : EM) : Bool :=
  (chain f e e).tail.any fun p => locs.any (·.1 == p)

/-- The second loop (NotInitializedMemory.cpp:217-231), `order` is an order of traversal. -/
def largest (f : Fun) (locs : List (EM × DIM)) : List (EM × DIM) → St → St
  | [], s => s
  | p :: ps, s => largest f locs ps
      (if covered f locs p.1 then
        { s with scalars := erase p.2 s.scalars, aggregates := erase p.2 s.aggregates } else s)

/-- `runOnFunction` (NotInitializedMemory.cpp:171-233). `order` rearranges a map when it is traversed. -/
def run (f : Fun) (order : List (EM × DIM) → List (EM × DIM)) (uses : List EM) : St :=
  let s := uses.foldl (use f) {}
  largest f s.locs (order s.locs) s

end Tsar.NotInit
