import Verif.BitTrait.Model

/-!
# Model of traits of alias nodes and of the search for parallel loops

Models `combineTraits`, `mayIgnoreDereference` and the final part of `runOnFunction` from
`lib/Analysis/Memory/DIDependenceAnalysis.cpp`, `accessCoverage` and `explicitAccessCoverage` from
`include/tsar/Analysis/Memory/MemoryTraitUtils.h`, and `ParallelLoopPass::runOnFunction` from
`lib/Analysis/Parallel/ParallelLoop.cpp`.

Simplifications: sets of traits are lists (the order of a list is the order of iteration, it is arbitrary in
theorems); traits of separate locations, which are collected by `analyzeNode()`, are an input of the model.
`bcl` is external: `trait::set(From, To)` sets in `To` traits which are set in `From`, `trait::update(From, To)`
also unsets in `To` traits which are listed but not set in `From`.
-/

namespace Tsar
namespace Parallel

open BitTrait

/-- `trait::Reduction::Kind` (include/tsar/Analysis/Memory/MemoryTrait.h:168-179). -/
inductive RedKind where
  | add | mult | or | and | xor | max | min | noReduction
  deriving DecidableEq, Repr

/-- Valid values of `llvm::RecurKind`, except `None` (external enumeration, all values of it are listed in the
switch at DIDependenceAnalysis.cpp:574-600). -/
inductive RecurKind where
  | add | fadd | fmulAdd | mul | fmul | or | and | xor | fmax | smax | umax | fmin | smin | umin
  | selectICmp | selectFCmp
  deriving DecidableEq, Repr

/-- `getReductionKind` (DIDependenceAnalysis.cpp:572-603). -/
def getReductionKind : RecurKind → RedKind
  | .add | .fadd | .fmulAdd => .add
  | .mul | .fmul => .mult
  | .or => .or
  | .and => .and
  | .xor => .xor
  | .fmax | .smax | .umax => .max
  | .fmin | .smin | .umin => .min
  | .selectICmp | .selectFCmp => .noReduction

/-- Traits of a memory location, `DIMemoryTrait` (include/tsar/Analysis/Memory/DIMemoryTrait.h:171-248) together
with attached descriptions: `flow` and `anti` are results of `isKnownDistance()`, `none` if nothing is attached.
`est` is `none` for unknown memory, otherwise it is `hasDeref()` and the variable. -/
structure Elem (M N V : Type) where
  mem : M
  node : N
  dptr : Dptr
  indirect : Option (List M)
  flow : Option Bool
  anti : Option Bool
  reduction : Option RedKind
  est : Option (Bool × V)

/-- Traits of an alias node, `DIAliasTrait` (DIMemoryTrait.h:314-420). -/
structure Entry (M N V : Type) where
  node : N
  dptr : Dptr
  elems : List (Elem M N V)

variable {M N V : Type} [DecidableEq M] [DecidableEq N] [DecidableEq V]

/-- `is<Redundant>()`. -/
def Elem.redundant (e : Elem M N V) : Bool := e.dptr.unit .redundant

/-- `is<NoRedundant>()`. -/
def Elem.noRedundant (e : Elem M N V) : Bool := e.dptr.unit .noRedundant

/-- `hasSpuriousDep` (MemoryTrait.h:286-298). -/
def hasSpuriousDep (d : Dptr) : Bool :=
  (!(d.dep .noAccess || d.dep .readonly || d.dep .shared) && !(d.dep .flow || d.dep .anti || d.dep .output)) ||
  (d.dep .priv || d.dep .lastPrivate || d.dep .firstPrivate || d.dep .secondToLastPrivate || d.dep .dynamicPrivate)

/-- The branch of `combineTraits` for a single location (DIDependenceAnalysis.cpp:722-757). -/
def single (ir : Bool) (n : N) (e : Elem M N V) : Dptr where
  unit := fun u =>
    match u with
    | .explicitAccess => e.dptr.unit .explicitAccess && !e.dptr.dep .noAccess && decide (n = e.node)
    | .redundant | .noRedundant | .noPromotedScalar | .directAccess | .indirectAccess =>
      e.dptr.unit u && decide (n = e.node)
    | .headerAccess | .addressAccess | .useAfterLoop => e.dptr.unit u && !(ir && e.redundant)
    | .lock => e.dptr.unit .lock
  dep := if ir && e.redundant then setDep e.dptr.dep .noAccess else e.dptr.dep

/-- Local variables of `combineTraits` (DIDependenceAnalysis.cpp:759-764). -/
structure Acc where
  ct : Trait
  expl : Bool
  red : Bool
  noRed : Bool
  noProm : Bool
  direct : Bool
  indirect : Bool
  num : Nat
  dep : DepTrait → Bool
  spur : Bool

/-- Initial values of local variables (DIDependenceAnalysis.cpp:759-764); the default value of a bitwise trait is
`NoAccess` (BitMemoryTrait.h:130). -/
def Acc.init : Acc := ⟨NoAccess, false, false, false, false, false, false, 0, fun _ => false, false⟩

/-- The local variable `Ignore` (DIDependenceAnalysis.cpp:797-811): traits of a location which is accessed only
through other locations. `none` is a dereference of a null pointer. -/
def ignored (ir : Bool) (elems : List (Elem M N V)) (e : Elem M N V) : Option Bool :=
  if e.dptr.unit .indirectAccess && !e.dptr.unit .directAccess then
    e.indirect.map fun l => l.all fun m =>
      match elems.find? (fun c => decide (c.mem = m)) with
      | none => false
      | some c => !(ir && c.redundant)
  else some false

/-- Flags which are updated for each location (DIDependenceAnalysis.cpp:766-796). -/
def Acc.flags (a : Acc) (n : N) (e : Elem M N V) : Acc :=
  { a with
    expl := a.expl || (e.dptr.unit .explicitAccess && !e.dptr.dep .noAccess && decide (n = e.node))
    noProm := a.noProm || (e.dptr.unit .noPromotedScalar && decide (n = e.node))
    direct := a.direct || (e.dptr.unit .directAccess && decide (n = e.node))
    indirect := a.indirect || (e.dptr.unit .indirectAccess && decide (n = e.node))
    red := a.red || (e.redundant && decide (n = e.node))
    ct := if e.redundant && decide (n = e.node) then a.ct &&& BitTrait.Redundant else a.ct
    noRed := a.noRed || (!e.redundant && decide (n = e.node)) }

/-- The end of the body of the loop (DIDependenceAnalysis.cpp:812-816). -/
def Acc.join (a : Acc) (e : Elem M N V) : Acc :=
  { a with
    num := if e.dptr.dep .noAccess then a.num else a.num + 1
    ct := a.ct &&& ofDescriptor e.dptr
    spur := a.spur || hasSpuriousDep e.dptr
    dep := fun k => a.dep k || (e.dptr.dep k && (k == .flow || k == .anti || k == .output)) }

/-- The body of the loop (DIDependenceAnalysis.cpp:765-817). -/
def Acc.step (ir : Bool) (n : N) (elems : List (Elem M N V)) (a : Acc) (e : Elem M N V) : Option Acc :=
  if e.redundant && ir then some (a.flags n e)
  else (ignored ir elems e).map fun ig => if ig then a.flags n e else (a.flags n e).join e

/-- The loop over locations (DIDependenceAnalysis.cpp:765-817). -/
def Acc.run (ir : Bool) (n : N) (elems : List (Elem M N V)) : List (Elem M N V) → Acc → Option Acc
  | [], a => some a
  | e :: l, a => (Acc.step ir n elems a e).bind (Acc.run ir n elems l)

/-- Traits of several locations (DIDependenceAnalysis.cpp:821-831). -/
def several (t : Trait) : Trait :=
  (t ||| AllUnitFlags) &&&
    (if dropUnitFlag t = NoAccess then NoAccess
     else if dropUnitFlag t = Readonly then Readonly
     else if hasSharedJoin t then Shared else Dependency)

/-- `bcl::trait::update` for flow, anti and output dependencies (assumption, see above). -/
def updateDep (f d : DepTrait → Bool) : DepTrait → Bool :=
  [DepTrait.flow, .anti, .output].foldl
    (fun d k => if f k then setDep d k else fun x => d x && decide (x ≠ k)) d

/-- The result of `combineTraits` (DIDependenceAnalysis.cpp:832-848). -/
def Acc.finish (a : Acc) : Option Dptr :=
  (toDescriptor (if a.num > 1 then several a.ct else a.ct)).map fun d =>
    { unit := fun u =>
        match u with
        | .explicitAccess => d.unit u && a.expl
        | .noPromotedScalar => d.unit u && a.noProm
        | .redundant => d.unit u && a.red
        | .noRedundant => d.unit u && a.noRed
        | .directAccess => d.unit u && a.direct
        | .indirectAccess => d.unit u && a.indirect
        | _ => d.unit u
      dep := if a.spur then d.dep else updateDep a.dep d.dep }

/-- `combineTraits` (DIDependenceAnalysis.cpp:720-851). `none` is undefined behaviour. -/
def combineTraits (ir : Bool) (n : N) (elems : List (Elem M N V)) : Option Dptr :=
  match elems with
  | [e] => some (single ir n e)
  | _ => (Acc.run ir n elems elems Acc.init).bind Acc.finish

/-- `combineTraits` for an element of the set of traits (DIDependenceAnalysis.cpp:2159, 2282). -/
def Entry.combine (ir : Bool) (E : Entry M N V) : Option (Entry M N V) :=
  (combineTraits ir E.node E.elems).map fun d => { E with dptr := d }

/-- `DIDependenceSet::find_as`. -/
def find (ds : List (Entry M N V)) (n : N) : Option (Entry M N V) := ds.find? fun E => decide (E.node = n)

/-- The loop of `mayIgnoreDereference` (DIDependenceAnalysis.cpp:2184-2202), `main` is `MainMemory`; `varNode` is
the alias node of the memory from `VarToMemory`. -/
def mainMemory (varNode : V → Option N) (ds : List (Entry M N V)) :
    List (Elem M N V) → Option (Elem M N V) → Option (Elem M N V)
  | [], main => main
  | e :: l, main =>
    match e.est with
    | none => none
    | some (true, v) =>
      if ((varNode v).bind (find ds)).any (fun E => E.dptr.dep .priv) then mainMemory varNode ds l main else none
    | some (false, _) =>
      match main with
      | some _ => none
      | none => mainMemory varNode ds l (some e)

/-- The order in which alternatives are set by `bcl::trait::set`. -/
def allDeps : List DepTrait :=
  [.noAccess, .readonly, .reduction, .induction, .flow, .anti, .output, .priv, .shared, .lastPrivate,
   .firstPrivate, .secondToLastPrivate, .dynamicPrivate]

/-- `bcl::trait::set` for alternatives (assumption, see above). -/
def setDeps (f d : DepTrait → Bool) : DepTrait → Bool :=
  allDeps.foldl (fun d k => if f k then setDep d k else d) d

/-- The body of the loop which ignores dereferences (DIDependenceAnalysis.cpp:2284-2291). -/
def derefOne (varNode : V → Option N) (ds : List (Entry M N V)) (E : Entry M N V) : Option (Entry M N V) :=
  if E.elems.length = 1 || !(E.dptr.dep .anti || E.dptr.dep .flow || E.dptr.dep .output) then some E
  else
    match mainMemory varNode ds E.elems none with
    | none => some E
    | some t =>
      (toDescriptor (dropUnitFlag (ofDescriptor t.dptr))).map fun d =>
        { E with dptr := ⟨fun u => E.dptr.unit u || d.unit u, setDeps d.dep E.dptr.dep⟩ }

/-- The loop which ignores dereferences (DIDependenceAnalysis.cpp:2283-2292): `done` are already visited elements
of the set. -/
def derefAll (varNode : V → Option N) : List (Entry M N V) → List (Entry M N V) → Option (List (Entry M N V))
  | done, [] => some done
  | done, E :: todo =>
    (derefOne varNode (done ++ E :: todo) E).bind fun E' => derefAll varNode (done ++ [E']) todo

/-- Alias tree, `DIAliasTree` and `AliasTree`. -/
inductive Tree (N : Type) where
  | node (n : N) (cs : List (Tree N))

/-- The root of a subtree. -/
def Tree.root : Tree N → N
  | .node n _ => n

/-- Children of the root. -/
def Tree.children : Tree N → List (Tree N)
  | .node _ cs => cs

mutual
/-- All nodes of a tree in the order of `df_begin()`. -/
def Tree.nodes : Tree N → List N
  | .node n cs => n :: Tree.nodesL cs
/-- All nodes of a list of trees. -/
def Tree.nodesL : List (Tree N) → List N
  | [] => []
  | t :: ts => t.nodes ++ Tree.nodesL ts
end

mutual
/-- `detail::explicitAccessCoverage` (MemoryTraitUtils.h:29-41); a node is represented by its subtree, `dptr`
returns traits of a node if they exist. -/
def explicitCover (ir : Bool) (dptr : N → Option Dptr) : Tree N → List (Tree N)
  | .node n cs =>
    match dptr n with
    | none => explicitCoverL ir dptr cs
    | some d =>
      if !d.unit .explicitAccess || (ir && !d.unit .noRedundant) then explicitCoverL ir dptr cs
      else [.node n cs]
/-- The loop over children (MemoryTraitUtils.h:37-38). -/
def explicitCoverL (ir : Bool) (dptr : N → Option Dptr) : List (Tree N) → List (Tree N)
  | [] => []
  | t :: ts => explicitCover ir dptr t ++ explicitCoverL ir dptr ts
end

mutual
/-- `detail::accessCoverage` (MemoryTraitUtils.h:43-58). -/
def accessCover (ir : Bool) (dptr : N → Option Dptr) : Tree N → List (Tree N)
  | .node n cs =>
    match dptr n with
    | none => []
    | some d =>
      if d.unit .noRedundant || (!ir && d.unit .redundant) then [.node n cs]
      else accessCoverL ir dptr cs
/-- The loop over children (MemoryTraitUtils.h:56-57). -/
def accessCoverL (ir : Bool) (dptr : N → Option Dptr) : List (Tree N) → List (Tree N)
  | [] => []
  | t :: ts => accessCover ir dptr t ++ accessCoverL ir dptr ts
end

/-- Traits of a node in a set. -/
def dptrOf (ds : List (Entry M N V)) (n : N) : Option Dptr := (find ds n).map (·.dptr)

/-- `set<Flow, Anti, Output>()` for an accessed node (DIDependenceAnalysis.cpp:2302-2304). -/
def Entry.mark (E : Entry M N V) : Entry M N V :=
  if E.dptr.dep .noAccess then E
  else { E with dptr := { E.dptr with dep := setDep (setDep (setDep E.dptr.dep .flow) .anti) .output } }

/-- Updates an element of a set of traits for a node. -/
def markNode (ds : List (Entry M N V)) (n : N) : List (Entry M N V) :=
  ds.map fun E => if E.node = n then E.mark else E

/-- Descendants of covering nodes (DIDependenceAnalysis.cpp:2299-2301). -/
def marked (cover : List (Tree N)) : List N := cover.flatMap fun t => Tree.nodesL t.children

/-- Traits of alias nodes of a loop: the final part of `DIDependencyAnalysisPass::runOnFunction`
(DIDependenceAnalysis.cpp:2159, 2262-2306). `raw` are sets of traits of locations for all alias nodes. -/
def analyze (ir : Bool) (tree : Tree N) (varNode : V → Option N) (raw : List (Entry M N V)) :
    Option (List (Entry M N V)) :=
  (raw.mapM (Entry.combine ir)).bind fun ds =>
    (derefAll varNode [] ds).map fun ds =>
      (marked (explicitCover ir (dptrOf ds) tree)).foldl markNode ds

/-- A call in a loop (ParallelLoop.cpp:118-144): `callee` is `none` if a callee is not a function. -/
structure Callee where
  directUser : Bool
  noMemory : Bool
  speculatable : Bool
  /-- An intrinsic which is a debug intrinsic or a memory marker. -/
  marker : Bool
  /-- The mapped function on a server: `onlyAccessesArgMemory()`. -/
  onServer : Option Bool

/-- A loop and analysis results which are requested for it (ParallelLoop.cpp:104-166). `deps` is
`DIDepInfo->find(getLoopID(L->getLoopID()))`, it is `none` if the identifier, the mapping of it or results are not
available. -/
structure LoopInfo (M N V : Type) where
  validExit : Bool
  alwaysReturn : Bool
  noIO : Bool
  noUnwind : Bool
  returnsTwice : Bool
  calls : List (Option Callee)
  deps : Option (List (Entry M N V))

/-- A decision about a loop. -/
inductive Verdict where
  | no
  /-- The loop is inserted into the result, `hostOnly` is `!AllowGPU`. -/
  | parallel (hostOnly : Bool)
  /-- An iterator to an empty set is dereferenced. -/
  | undefined
  deriving DecidableEq, Repr

/-- The loop over calls (ParallelLoop.cpp:115-146): the value of `AllowGPU`, `none` if the loop is rejected. -/
def allowGPU : List (Option Callee) → Bool → Option Bool
  | [], gpu => some gpu
  | none :: _, _ => none
  | some c :: l, gpu =>
    if !c.directUser then none
    else if !c.noMemory && !c.speculatable && !c.marker then
      match c.onServer with
      | some argOnly => allowGPU l (gpu && argOnly)
      | none => allowGPU l false
    else allowGPU l gpu

/-- Checks of attached descriptions (ParallelLoop.cpp:185-212). -/
def badElem (e : Elem M N V) : Bool :=
  (e.dptr.dep .reduction && e.reduction.isNone) ||
  (e.dptr.dep .flow && e.flow != some true) ||
  (e.dptr.dep .anti && e.anti != some true)

/-- The loop over traits of alias nodes (ParallelLoop.cpp:167-213): `some true` if nothing prevents
parallelization. -/
def checkDeps (cover : List N) : List (Entry M N V) → Option Bool
  | [] => some true
  | E :: l =>
    if !cover.contains E.node then checkDeps cover l
    else if E.dptr.unit .addressAccess || E.dptr.dep .output ||
        (E.dptr.dep .dynamicPrivate && !E.dptr.dep .shared) then some false
    else if E.elems.length > 1 && !(E.dptr.dep .shared || E.dptr.dep .readonly) then some false
    else
      match E.elems with
      | [] => none
      | e :: _ => if badElem e then some false else checkDeps cover l

/-- The decision about a loop in `ParallelLoopPass::runOnFunction` (ParallelLoop.cpp:104-216). -/
def verdict (ir : Bool) (tree : Tree N) (l : LoopInfo M N V) : Verdict :=
  if !l.validExit || !l.alwaysReturn || !l.noIO || !l.noUnwind || l.returnsTwice then .no
  else
    match allowGPU l.calls true with
    | none => .no
    | some gpu =>
      match l.deps with
      | none => .no
      | some ds =>
        match checkDeps ((accessCover ir (dptrOf ds) tree).map Tree.root) ds with
        | none => .undefined
        | some false => .no
        | some true => .parallel !gpu

end Parallel
end Tsar
