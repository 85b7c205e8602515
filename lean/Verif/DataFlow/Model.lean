import Verif.Graph.Model
import Verif.Graph.PostOrder

/-!
# Data-flow solvers

Models `include/tsar/ADT/DataFlow.h`.

A framework (`DataFlowTraits` and `llvm::GraphTraits`) is a structure with the functions the solvers
call. `initialize()` allocates attributes and is not modelled.
-/

namespace Tsar
namespace DataFlow

variable {N V : Type} [DecidableEq N]

/-- `DataFlowTraits<DFFwk>` together with `GraphTraits<GraphType>` and
`GraphTraits<Inverse<GraphType>>` (DataFlow.h:55-102, DataFlowGraph.h:521-612). -/
structure Frame (N V : Type) where
  /-- `nodes_begin()`, `nodes_end()`: all nodes except the entry. -/
  nodes : List N
  /-- `getEntryNode()`. -/
  entry : N
  /-- `child_begin()`, `child_end()`: nodes which data come from. -/
  sources : N → List N
  /-- Children in the inverse graph: nodes which data go to. -/
  targets : N → List N
  /-- `topElement()`. -/
  top : V
  /-- `boundaryCondition()`. -/
  boundary : V
  /-- `meetOperator(x, acc)`: the new value of the second parameter. -/
  meet : V → V → V
  /-- `transferFunction(In, n)`: the value stored for the node if the previous one is `old` and the
  returned flag. -/
  transfer : (n : N) → (inn old : V) → V × Bool

/-- `setValue()`. -/
def set (s : N → V) (n : N) (v : V) : N → V := fun x => if x = n then v else s x

/-- The value before a node: the loop over children (DataFlow.h:162-166, 228-232). -/
def Frame.before (F : Frame N V) (s : N → V) (n : N) : V :=
  (F.sources n).foldl (fun acc c => F.meet (s c) acc) F.top

/-- Evaluation of one node (DataFlow.h:162-168). -/
def Frame.step (F : Frame N V) (s : N → V) (n : N) : (N → V) × Bool :=
  let r := F.transfer n (F.before s n) (s n)
  (set s n r.1, r.2)

/-- One iteration of the `do`-loop (DataFlow.h:156-169): all nodes in their order, the flag is true
if a value has been changed. -/
def Frame.pass (F : Frame N V) : (ns : List N) → (s : N → V) → (changed : Bool) → (N → V) × Bool
  | [], s, changed => (s, changed)
  | n :: ns, s, changed => F.pass ns (F.step s n).1 ((F.step s n).2 || changed)

/-- The `do`-loop (DataFlow.h:154-170); `none` if it is not finished in `fuel` iterations. -/
def Frame.loop (F : Frame N V) : (fuel : Nat) → (s : N → V) → Option (N → V)
  | 0, _ => none
  | fuel + 1, s =>
    let r := F.pass F.nodes s false
    if r.2 then F.loop fuel r.1 else some r.1

/-- Initial values of nodes: the top element for listed nodes, then the boundary condition for the
entry (DataFlow.h:147-153, 221-226). The argument `s` is the state before the solver. -/
def Frame.init (F : Frame N V) (ns : List N) (s : N → V) : N → V :=
  set (ns.foldl (fun s n => set s n F.top) s) F.entry F.boundary

/-- `solveDataFlowIteratively()` (DataFlow.h:139-171). -/
def Frame.solveIteratively (F : Frame N V) (fuel : Nat) (s : N → V) : Option (N → V) :=
  F.loop fuel (F.init F.nodes s)

/-- The traversal order without the entry (DataFlow.h:215-221, 227). -/
def Frame.order (F : Frame N V) (fuel : Nat) : Option (List N) :=
  (Graph.postOrder F.targets F.entry fuel).map fun l => l.reverse.tail

/-- `solveDataFlowTopologicaly()` (DataFlow.h:191-235). The fuel bounds the depth of the
traversal. -/
def Frame.solveTopologicaly (F : Frame N V) (fuel : Nat) (s : N → V) : Option (N → V) :=
  (F.order fuel).map fun ns => (F.pass ns (F.init ns s) false).1

/-- The choice of a solver in `solveDataFlowUpward()` and `solveDataFlowDownward()`
(DataFlow.h:299-302, 333-336). -/
def Frame.solve (F : Frame N V) (fuel : Nat) (s : N → V) : Option (N → V) :=
  match Graph.isDAG F.sources F.entry fuel with
  | none => none
  | some true => F.solveTopologicaly fuel s
  | some false => F.solveIteratively fuel s

/-- The `while` loop of `removeAdjacentNode()` (DataFlow.h:501-508): `i` is the position of the
iterator `I`, the erased element is the `i`-th one. -/
def removeLoop (node : N) : (i : Nat) → (l : List N) → List N
  | 0, l => l
  | i + 1, l =>
    if l[i + 1]? = some node then removeLoop node i (l.eraseIdx (i + 1)) else removeLoop node i l

/-- `SmallDFNode::removeAdjacentNode()` for a list of adjacent nodes (DataFlow.h:492-511). -/
def removeAdjacent (node : N) (l : List N) : List N :=
  if l.isEmpty then l
  else
    let l' := removeLoop node (l.length - 1) l
    if l'[0]? = some node then l'.eraseIdx 0 else l'

/-- `SmallDFNode::addAdjacentNode()` (DataFlow.h:470-475). -/
def addAdjacent (node : N) (l : List N) : List N := l ++ [node]

end DataFlow
end Tsar
