/-!
# Model of data-flow regions

`DFRegion::addNode()` (include/tsar/Analysis/DataFlowGraph.h:303-330) and
`DFRegionInfo::buildLoopRegion()` (lib/Analysis/DFRegionInfo.cpp:72-167).

Basic blocks are elements of a type `B`. Pointers to nodes of a region under construction are modelled by
a datatype, because nodes are identified by what they represent: the entry, the exit, the latch, a block,
an inner loop (its number in the list of inner loops). An access through `find()` which has not found a
block (an assertion in the code, undefined behaviour without assertions) is `none`.
-/

namespace Tsar
namespace Region

/-- `DFNode::Kind` (DataFlowGraph.h:69-84). -/
inductive Kind where
  | block | entry | exit | latch | loop | function
deriving DecidableEq

/-- `DFRegion::classof()` (DataFlowGraph.h:219-222). -/
def Kind.isRegion : Kind → Bool
  | .loop | .function => true
  | _ => false

/-- Nodes of a region: members `mNodes`, `mRegions`, `mLatchNode` (DataFlowGraph.h:336-338). -/
structure Nodes (N : Type) where
  nodes : List N
  regions : List N
  latch : Option N

/-- The constructor (DataFlowGraph.h:333). -/
def Nodes.init {N : Type} : Nodes N := ⟨[], [], none⟩

/-- `DFRegion::addNode()` (DataFlowGraph.h:303-330). Assertions are preconditions which are stated in
theorems. -/
def Nodes.addNode {N : Type} (kind : N → Kind) (s : Nodes N) (n : N) : Nodes N where
  nodes :=
    if kind n = .entry then n :: s.nodes
    else
      match s.nodes.getLast? with
      | none => s.nodes ++ [n]
      | some last =>
        if kind n = .exit ∨ kind last ≠ .exit then s.nodes ++ [n]
        else s.nodes.dropLast ++ [n, last]
  latch := if kind n = .latch then some n else s.latch
  regions := if (kind n).isRegion then s.regions ++ [n] else s.regions

/-- Nodes of a region for a loop (DFRegionInfo.cpp:77-78, 83, 93, 126). -/
inductive Node (B : Type) where
  | entry
  | exit
  | latch
  | block (b : B)
  | inner (i : Nat)
deriving DecidableEq

/-- Kinds of nodes. -/
def Node.kind {B : Type} : Node B → Kind
  | .entry => .entry
  | .exit => .exit
  | .latch => .latch
  | .block _ => .block
  | .inner _ => .loop

/-- Control flow graph: `succ_begin()/succ_end()` and `pred_begin()/pred_end()` of LLVM. Each edge of a
terminator is listed, so a block may be listed several times. -/
structure Cfg (B : Type) where
  succ : B → List B
  pred : B → List B

/-- What `buildLoopRegion()` knows about a loop (`LoopTraits`, LoopTraits.h:57-114): the header,
blocks, blocks of each inner loop. A function is the loop which consists of all blocks, its header is
the entry block. -/
structure Lp (B : Type) where
  header : B
  blocks : List B
  inner : List (List B)

/-- A region with adjacent nodes of its nodes (`SmallDFNode::mAdjacentNodes`, DataFlow.h:399). -/
structure State (B : Type) extends Nodes (Node B) where
  succ : Node B → List (Node B)
  pred : Node B → List (Node B)

section
variable {B : Type} [DecidableEq B]

/-- `R->addNode(N)`. -/
def State.addNode (s : State B) (n : Node B) : State B :=
  { s with toNodes := s.toNodes.addNode Node.kind n }

/-- `u->addSuccessor(v)` (DataFlow.h:470-475, 485). -/
def State.addSucc (s : State B) (u v : Node B) : State B :=
  { s with succ := fun x => if x = u then s.succ x ++ [v] else s.succ x }

/-- `u->addPredecessor(v)` (DataFlow.h:470-475, 480). -/
def State.addPred (s : State B) (u v : Node B) : State B :=
  { s with pred := fun x => if x = u then s.pred x ++ [v] else s.pred x }

/-- `u->addSuccessor(v); v->addPredecessor(u);`. -/
def State.link (s : State B) (u v : Node B) : State B := (s.addSucc u v).addPred v u

/-- The map `Blocks` (DFRegionInfo.cpp:81). -/
abbrev Blocks (B : Type) := List (B × Node B)

/-- `Blocks.find(BB)`. -/
def Blocks.find (m : Blocks B) (b : B) : Option (Node B) := (List.find? (fun e => e.1 = b) m).map (·.2)

/-- `Blocks.insert()`: an existing element is not changed. -/
def Blocks.put (m : Blocks B) (b : B) (n : Node B) : Blocks B :=
  if (m.find b).isSome then m else m ++ [(b, n)]

/-- The loop over inner loops (DFRegionInfo.cpp:82-89), the construction of an inner region is a
separate call; `i` is the number of the first inner loop. -/
def addInner : (ls : List (List B)) → (i : Nat) → State B × Blocks B → State B × Blocks B
  | [], _, r => r
  | bs :: ls, i, (s, m) =>
    addInner ls (i + 1) (s.addNode (.inner i), bs.foldl (fun m b => m.put b (.inner i)) m)

/-- The loop over blocks (DFRegionInfo.cpp:90-98), `mBBToNode` is not modelled. -/
def addBlocks : (bs : List B) → State B × Blocks B → State B × Blocks B
  | [], r => r
  | b :: bs, (s, m) =>
    if (m.find b).isSome then addBlocks bs (s, m)
    else addBlocks bs (s.addNode (.block b), m.put b (.block b))

/-- The loop over successors of a block which is represented by the node `n`
(DFRegionInfo.cpp:111-136). -/
def visitSuccs (m : Blocks B) (header : B) (n : Node B) : (cs : List B) → State B → State B
  | [], s => s
  | c :: cs, s =>
    visitSuccs m header n cs <|
      match m.find c with
      | none => s.link n .exit
      | some cn =>
        if c = header then
          (if s.latch.isNone then s.addNode .latch else s).link n .latch
        else if cn ≠ n then s.addSucc n cn
        else s

/-- The loop over predecessors of a block which is represented by the node `n`
(DFRegionInfo.cpp:140-148). -/
def visitPreds (m : Blocks B) (n : Node B) : (ps : List B) → State B → Option (State B)
  | [], s => some s
  | p :: ps, s =>
    match m.find p with
    | none => none
    | some pn => visitPreds m n ps (if pn ≠ n then s.addPred n pn else s)

/-- An iteration of the loop over `Blocks` (DFRegionInfo.cpp:106-150). -/
def visit (cfg : Cfg B) (m : Blocks B) (header : B) (e : B × Node B) (s : State B) :
    Option (State B) :=
  let s :=
    if (cfg.succ e.1).isEmpty then s.link e.2 .exit
    else visitSuccs m header e.2 (cfg.succ e.1) s
  if e.1 ≠ header then visitPreds m e.2 (cfg.pred e.1) s else some s

/-- The loop over `Blocks` (DFRegionInfo.cpp:106-150), `es` are elements of `Blocks` in the order of
the hash table. -/
def visitAll (cfg : Cfg B) (m : Blocks B) (header : B) :
    (es : List (B × Node B)) → State B → Option (State B)
  | [], s => some s
  | e :: es, s =>
    match visit cfg m header e s with
    | none => none
    | some s => visitAll cfg m header es s

/-- The last loop (DFRegionInfo.cpp:157-166). -/
def closeInner : (rs : List (Node B)) → State B → State B
  | [], s => s
  | r :: rs, s => closeInner rs (if (s.succ r).isEmpty then s.link r .exit else s)

/-- An arc from the entry to the exit if there are no exits from the loop (DFRegionInfo.cpp:153-156). -/
def closeEntry (s : State B) : State B :=
  if (s.pred .exit).isEmpty then s.link .entry .exit else s

/-- Nodes and the map which are available before edges are added (DFRegionInfo.cpp:77-99). -/
def collect (L : Lp B) : State B × Blocks B :=
  let s : State B := { Nodes.init with succ := fun _ => [], pred := fun _ => [] }
  let r := addBlocks L.blocks (addInner L.inner 0 (s.addNode .entry, []))
  (r.1.addNode .exit, r.2)

/-- `DFRegionInfo::buildLoopRegion()` for a loop (DFRegionInfo.cpp:72-167). `iter` is the order of
elements in the hash table `Blocks`. -/
def build (cfg : Cfg B) (L : Lp B) (iter : Blocks B → List (B × Node B)) : Option (State B) :=
  let (s, m) := collect L
  match m.find L.header with
  | none => none
  | some h =>
    match visitAll cfg m L.header (iter m) (s.link .entry h) with
    | none => none
    | some s => let s := closeEntry s; some (closeInner s.regions s)

end
end Region
end Tsar
