import Verif.DFValue.Model
import Verif.DataFlow.Model

/-!
# Reaching definitions, live memory and collapse of regions

Models `DataFlowTraits<ReachDFFwk *>`, `ReachDFFwk::collapse()` (DefinedMemory.h, DefinedMemory.cpp)
and `DataFlowTraits<LiveDFFwk *>` (LiveMemory.h, LiveMemory.cpp).

Def-use sets of basic blocks are input data of the model. Construction of these sets from
instructions (`DataFlowTraits<ReachDFFwk *>::initialize()`) depends on alias analysis and it is not
modelled.
-/

namespace Tsar.Reach

open Tsar.Range Tsar.MemSet Tsar.DFValue Tsar.DataFlow

variable {N : Type} [DecidableEq N]

/-- `DefUseSet` (DefinedMemory.h:79-380): must defined, may defined and used locations, explicitly
accessed locations. Sets of pointers and unknown instructions are not modelled. -/
structure DefUse where
  defs : MSet
  mayDefs : MSet
  uses : MSet
  explicit : MSet := []
deriving DecidableEq

/-- The default constructor of `DefUseSet`. -/
def DefUse.empty : DefUse := ⟨[], [], [], []⟩

/-- `DefinitionInfo` (DefinedMemory.h:384-387). -/
structure Info where
  must : Val
  may : Val
deriving DecidableEq

/-- `DataFlowTraits<ReachDFFwk *>::topElement()` (DefinedMemory.h:526-531). -/
def Info.top : Info := ⟨.full, .empty⟩

/-- `DataFlowTraits<ReachDFFwk *>::boundaryCondition()` (DefinedMemory.h:532-537). -/
def Info.boundary : Info := ⟨.empty, .empty⟩

/-- A region: nodes except its entry (in the order of `getNodes()`), predecessors, successors and
def-use sets of nodes; a loop has a latch node (DataFlowGraph.h, DefinedMemory.cpp:898-900). The def-use set of the entry is empty, so `collapse()` may ignore the
entry. -/
structure Region (N : Type) where
  nodes : List N
  entry : N
  exit : N
  latch : Option N
  preds : N → List N
  succs : N → List N
  du : N → DefUse

section
variable (S : Solver)

/-- `DataFlowTraits<ReachDFFwk *>::meetOperator(LHS, RHS)` (DefinedMemory.h:557-561): the new value
of `RHS`. -/
def Info.meet (lhs rhs : Info) : Info :=
  ⟨(rhs.must.intersect S lhs.must).1, (rhs.may.merge lhs.may).1⟩

/-- The value computed by `DataFlowTraits<ReachDFFwk *>::transferFunction()` for a node which is not
the exit (DefinedMemory.cpp:850-869). -/
def newOut (du : DefUse) (inn : Info) : Info :=
  ⟨((Val.empty.insertAll (allLocs du.defs)).1.merge inn.must).1,
   (((Val.empty.insertAll (allLocs du.defs)).1.insertAll (allLocs du.mayDefs)).1.merge inn.may).1⟩

/-- `DataFlowTraits<ReachDFFwk *>::transferFunction()` (DefinedMemory.cpp:826-878): a value stored
in the node and the result. The value of the exit is copied. -/
def transfer (R : Region N) (n : N) (inn old : Info) : Info × Bool :=
  if n = R.exit then
    if !(old.must.eq inn.must) || !(old.may.eq inn.may) then (⟨inn.must.copy, inn.may.copy⟩, true)
    else (old, false)
  else
    let new := newOut (R.du n) inn
    if !(old.must.eq new.must) || !(old.may.eq new.may) then (new, true) else (old, false)

/-- The data-flow framework of reaching definitions for a region. -/
def reachFrame (R : Region N) : Frame N Info where
  nodes := R.nodes
  entry := R.entry
  sources := R.preds
  targets := R.succs
  top := .top
  boundary := .boundary
  meet := Info.meet S
  transfer := transfer R

/-! ### Live memory -/

/-- The value computed by `DataFlowTraits<LiveDFFwk *>::transferFunction()` for a node which is not
the entry (LiveMemory.cpp:141-145). -/
def newIn (du : DefUse) (out : MSet) : MSet :=
  (MemSet.insertAll (MemSet.insertAll [] (allLocs du.uses)).1
    ((allLocs out).filter fun l => !MemSet.contain S du.defs l)).1

/-- `DataFlowTraits<LiveDFFwk *>::transferFunction()` (LiveMemory.cpp:120-169). -/
def liveTransfer (R : Region N) (n : N) (out old : MSet) : MSet × Bool :=
  if n = R.entry then
    if !(MemSet.eqSet old out) then ((MemSet.insertAll [] (allLocs out)).1, true) else (old, false)
  else
    let new := newIn S (R.du n) out
    if !(MemSet.eqSet old new) then (new, true) else (old, false)

/-- `DataFlowTraits<LiveDFFwk *>::boundaryCondition()` (LiveMemory.h:90-107): `inn` and `out` are
sets of locations which are live before and after the node which represents the region. -/
def liveBoundary (inn out : MSet) : MSet :=
  (MemSet.insertAll (MemSet.insertAll [] (allLocs inn)).1 (allLocs out)).1

/-- The data-flow framework of live locations for a region (the graph is traversed in the backward
direction). Nodes and edges are those after `expand()` (LiveMemory.h:137-144). -/
def liveFrame (R : Region N) (inn out : MSet) : Frame N MSet where
  nodes := (R.entry :: R.nodes).filter fun n => n ≠ R.exit
  entry := R.exit
  sources := R.succs
  targets := R.preds
  top := []
  boundary := liveBoundary inn out
  meet lhs rhs := (MemSet.insertAll rhs (allLocs lhs)).1
  transfer := liveTransfer S R

/-- `RegionDFTraits<LiveDFFwk *>::expand()` (LiveMemory.h:137-144): an edge from the latch node (if
the region has it) to the exit. -/
def expand (R : Region N) : Region N :=
  match R.latch with
  | none => R
  | some l =>
    { R with
      succs := fun n => if n = l then addAdjacent R.exit (R.succs n) else R.succs n
      preds := fun n => if n = R.exit then addAdjacent l (R.preds n) else R.preds n }

/-! ### Collapse of a region -/

/-- Input data of `collapse()` which are computed by other analysis passes. -/
structure Oracle where
  /-- `aggregate(R, Loc, this)` (DefinedMemory.cpp:249-406). -/
  aggr : Loc → Loc × Bool
  /-- The used location points to a memory which is local for the loop
  (DefinedMemory.cpp:941-946). -/
  localUse : Loc → Bool
  /-- `getSmallConstantTripCount()` of the loop, 0 if it is not known
  (DefinedMemory.cpp:902-903). -/
  tripCount : Nat
  /-- Locations of the top-level parent of the estimate memory (DefinedMemory.cpp:1058-1070,
  1089-1092); an empty list if it is null. -/
  parents : Loc → List Loc

/-- Two collections filled by `distribute` (DefinedMemory.cpp:910-916, 933-934). -/
structure Parts where
  own : MSet
  other : List (Loc × Loc)

/-- `distribute` (DefinedMemory.cpp:910-916). -/
def distribute (res : Loc × Bool) (orig : Loc) (p : Parts) : Parts :=
  if res.2 then { p with own := (MemSet.insert p.own res.1).1 }
  else { p with other := p.other ++ [(orig, res.1)] }

/-- Distribution of a sequence of locations with the same original location. -/
def distributeAll (o : Oracle) (orig : Loc) (ls : List Loc) (p : Parts) : Parts :=
  ls.foldl (fun p l => distribute (o.aggr l) orig p) p

/-- Processing of one must defined location of a node (DefinedMemory.cpp:1003-1034). The first
component of the state is `OwnDefs` and `OtherDefs`, the second one is `OwnMayDefs` and
`OtherMayDefs`; `latch` is the value of the latch node if `isa<DFLoop>(R) && HasTrips`
(DefinedMemory.cpp:1006). -/
def collapseDef (o : Oracle) (latch : Option Info) (exit : Info) (st : Parts × Parts) (loc : Loc) : Parts × Parts :=
  if loc.kind.hint then st
  else
    let st :=
      match latch with
      | none => st
      | some latch =>
        let ls := latch.must.findCoveredBy S loc
        if ls ≠ [] then (distributeAll o loc ls st.1, st.2)
        else (st.1, distribute (o.aggr loc) loc st.2)
    let ls := exit.must.findCoveredBy S loc
    if ls ≠ [] then (distributeAll o loc ls st.1, st.2)
    else (st.1, distribute (o.aggr loc) loc st.2)

/-- `OwnUses` and `OtherUses` of a node (DefinedMemory.cpp:938-949). -/
def collapseUses (o : Oracle) (du : DefUse) : Parts :=
  (allLocs du.uses).foldl (fun p l =>
    if l.kind.hint || o.localUse l then p else distribute (o.aggr l) l p) ⟨[], []⟩

/-- Uses which are added to the def-use set of the region for a location from `OwnUses`
(DefinedMemory.cpp:951-962). -/
def exposedUses (inn : Info) (loc : Loc) : List Loc :=
  let r := inn.must.subtractFrom S loc
  if r.1 then r.2.getD [] else [loc]

/-- The body of the loop over nodes (DefinedMemory.cpp:925-1056). -/
def collapseNode (o : Oracle) (latch : Option Info) (exit : Info) (inn : Info) (du : DefUse) (acc : DefUse) : DefUse :=
  let uses := collapseUses o du
  let ownUses := MemSet.clarify S uses.own uses.other
  let st := (allLocs du.defs).foldl (collapseDef S o latch exit) (⟨[], []⟩, ⟨[], []⟩)
  let ownDefs := MemSet.clarify S st.1.own st.1.other
  let may := (allLocs du.mayDefs).foldl (fun p l =>
    if l.kind.hint then p else distribute (o.aggr l) l p) st.2
  let ownMayDefs := MemSet.clarify S may.own may.other
  { uses := (MemSet.insertAll acc.uses ((allLocs ownUses).flatMap (exposedUses S inn))).1
    defs := (MemSet.insertAll acc.defs (allLocs ownDefs)).1
    mayDefs := (MemSet.insertAll acc.mayDefs (allLocs ownMayDefs)).1
    explicit := (MemSet.insertAll acc.explicit (allLocs du.explicit)).1 }

/-- `NewLoc.Kind |= Hint` (DefinedMemory.cpp:1073-1074). -/
def asHint (loc : Loc) : Loc := { loc with kind := { loc.kind with hint := true } }

/-- `ExpLoc.Kind == LocKind::Collapsed`. -/
def isCollapsed (loc : Loc) : Bool :=
  loc.kind.collapsed && !loc.kind.nonCollapsable && !loc.kind.hint

/-- Processing of one explicit access (DefinedMemory.cpp:1057-1102). -/
def collapseExplicit (o : Oracle) (acc : DefUse) (loc : Loc) : DefUse :=
  let exp := (o.aggr loc).1
  let acc :=
    if !MemSet.contain S acc.defs loc && (isCollapsed exp && MemSet.contain S acc.defs exp) then
      { acc with defs := (MemSet.insert acc.defs (asHint loc)).1 } else acc
  let acc :=
    if !MemSet.overlap S acc.mayDefs loc && ((isCollapsed exp && MemSet.overlap S acc.mayDefs exp) ||
        (o.parents loc).any fun l => MemSet.overlap S acc.mayDefs l) then
      { acc with mayDefs := (MemSet.insert acc.mayDefs (asHint loc)).1 } else acc
  if !MemSet.overlap S acc.uses loc && ((isCollapsed exp && MemSet.overlap S acc.uses exp) ||
      (o.parents loc).any fun l => MemSet.overlap S acc.uses l) then
    { acc with uses := (MemSet.insert acc.uses (asHint loc)).1 } else acc

/-- The value of the latch node (`LatchDefs`) if the region is a loop and `HasTrips` is true
(DefinedMemory.cpp:896-907). -/
def latchValue (R : Region N) (o : Oracle) (value : N → Info) : Option Info :=
  if o.tripCount > 0 then R.latch.map value else none

/-- `ReachDFFwk::collapse(R)` (DefinedMemory.cpp:880-1104); `value` gives the OUT value of a node, IN
values are computed by the meet over predecessors as the solver does. -/
def collapse (R : Region N) (o : Oracle) (value : N → Info) : DefUse :=
  let acc := R.nodes.foldl (fun acc n =>
    collapseNode S o (latchValue R o value) (value R.exit) ((reachFrame S R).before value n) (R.du n) acc) .empty
  (allLocs acc.explicit).foldl (collapseExplicit S o) acc

end

end Tsar.Reach
