/-!
# Graph utilities

Models `include/tsar/ADT/GraphUtils.h`, `include/tsar/ADT/GraphNumbering.h` and
`include/tsar/ADT/SpanningTreeRelation.h`.

A graph is the pair of functions which `llvm::GraphTraits` provides: the list of children of a node
(`child_begin()`, `child_end()`) and the entry node. Nodes are elements of an arbitrary type with
decidable equality (pointers in the code). Recursion of the code is bounded by a fuel parameter
(the depth of nested calls); the result `none` means that the fuel is exhausted and theorems show
that it does not happen for a finite graph.
-/

namespace Tsar
namespace Graph

variable {N : Type} [DecidableEq N]

/-- `DFSColor` (GraphUtils.h:38-46); white nodes are absent in the map. -/
inductive Color where
  | gray
  | black
  deriving DecidableEq, Repr

/-- `llvm::DenseMap<NodeRef, DFSColor> VisitedNodes` (GraphUtils.h:121). -/
abbrev Colors (N : Type) := N → Option Color

/-- Store a color in the map. -/
def Colors.set (c : Colors N) (n : N) (k : Color) : Colors N :=
  fun x => if x = n then some k else c x

/-- The loop over (remaining) children `ms` of a node `n` in `detail::findBackEdge()`
(GraphUtils.h:84-101). The fuel bounds the depth of recursive calls. -/
def findBackEdgeFrom (ch : N → List N) :
    (fuel : Nat) → (n : N) → (ms : List N) → Colors N → Option (Colors N × Option (N × N))
  | _, _, [], c => some (c, none)
  | fuel, n, m :: ms, c =>
    match c m with
    | none =>
      match fuel with
      | 0 => none
      | fuel' + 1 =>
        match findBackEdgeFrom ch fuel' m (ch m) (c.set m .gray) with
        | none => none
        | some (c', some e) => some (c', some e)
        | some (c', none) => findBackEdgeFrom ch (fuel' + 1) n ms (c'.set m .black)
    | some .gray => some (c, some (n, m))
    | some .black => findBackEdgeFrom ch fuel n ms c
  termination_by fuel _ ms => (fuel, ms.length)

/-- `findBackEdge(G)` (GraphUtils.h:115-124). The outer option is `none` if the fuel is exhausted,
the inner one is `none` if the pair of null pointers is returned. -/
def findBackEdge (ch : N → List N) (entry : N) (fuel : Nat) : Option (Option (N × N)) :=
  (findBackEdgeFrom ch fuel entry (ch entry) (Colors.set (fun _ => none) entry .gray)).map (·.2)

/-- `isDAG(G)` (GraphUtils.h:131-133). -/
def isDAG (ch : N → List N) (entry : N) (fuel : Nat) : Option Bool :=
  (findBackEdge ch entry fuel).map Option.isNone

/-- Numbers of nodes and the state of `DFIteratorNumberingSet` (GraphNumbering.h:69-143).
`pre` and `rpost` are the numbers which are stored in the map (`Preorder` and `ReversePostorder`),
absent nodes have no numbers. `lastPre` and `lastRPost` are `mLastNumber`. Numbers `ReversePreorder`
and `Postorder` are not modelled because `SpanningTreeRelation` does not use them. The type
`std::size_t` of `Preorder` is modelled by natural numbers and that of `ReversePostorder` by
integers, hence the model has no wraparound. -/
structure Numbering (N : Type) where
  visited : List N
  pre : N → Option Nat
  rpost : N → Option Int
  lastPre : Nat
  lastRPost : Int

/-- The initial state for a graph of the specified size (GraphNumbering.h:122-128). -/
def Numbering.init (size : Nat) : Numbering N :=
  ⟨[], fun _ => none, fun _ => none, 1, size⟩

/-- `DFIteratorNumberingSet::insert()` (GraphNumbering.h:129-134): the number is stored even if the
node has already been visited. -/
def Numbering.insert (s : Numbering N) (n : N) : Numbering N :=
  { s with
    visited := if n ∈ s.visited then s.visited else n :: s.visited
    pre := fun x => if x = n then some s.lastPre else s.pre x
    lastPre := s.lastPre + 1 }

/-- `DFIteratorNumberingSet::completed()` (GraphNumbering.h:135-139). -/
def Numbering.completed (s : Numbering N) (n : N) : Numbering N :=
  { s with
    rpost := fun x => if x = n then some s.lastRPost else s.rpost x
    lastRPost := s.lastRPost - 1 }

/-- The traversal of `llvm::df_iterator` with an external storage: `insert()` is called for every
child and descends if the node is new, `completed()` is called after all children have been visited
(the loop in GraphNumbering.h:160). The argument `ns` is the rest of a list of children. -/
def numberFrom (ch : N → List N) : (fuel : Nat) → (ns : List N) → Numbering N → Option (Numbering N)
  | _, [], s => some s
  | fuel, n :: ns, s =>
    if n ∈ s.visited then numberFrom ch fuel ns (s.insert n)
    else
      match fuel with
      | 0 => none
      | fuel' + 1 =>
        match numberFrom ch fuel' (ch n) (s.insert n) with
        | none => none
        | some s' => numberFrom ch (fuel' + 1) ns (s'.completed n)
  termination_by fuel ns => (fuel, ns.length)

/-- `numberGraph(G, N)` (GraphNumbering.h:150-161). -/
def numberGraph (ch : N → List N) (entry : N) (size fuel : Nat) : Option (Numbering N) :=
  numberFrom ch fuel [entry] (Numbering.init size)

/-- `TreeRelation` (SpanningTreeRelation.h:36-45). -/
inductive TreeRelation where
  | ancestor
  | descendant
  | equal
  | unreachable
  deriving DecidableEq, Repr

/-- `SpanningTreeRelation::compare()` (SpanningTreeRelation.h:59-79). The result `none` means that
one of nodes has no numbers (the assertions fail). A node has both numbers after the traversal. -/
def compare (s : Numbering N) (l r : N) : Option TreeRelation :=
  if l = r then some .equal
  else
    match s.pre l, s.pre r, s.rpost l, s.rpost r with
    | some pl, some pr, some ql, some qr =>
      if pl < pr ∧ ql < qr then some .ancestor
      else if pl > pr ∧ ql > qr then some .descendant
      else some .unreachable
    | _, _, _, _ => none

/-- `findParent(N, STR)` (SpanningTreeRelation.h:110-126); `pr` is the list of children in the
inverse graph. The outer option is `none` if an assertion fails in `compare()`. -/
def findParent (s : Numbering N) (n : N) : (pr : List N) → Option (Option N)
  | [] => some none
  | p :: ps =>
    match compare s n p with
    | none => none
    | some .descendant => some (some p)
    | some _ => findParent s n ps

/-- The inner loop of `findLCA()` (SpanningTreeRelation.h:159-166): go to a parent while the
current candidate is equal to the node or it is not related with the node. The loop returns the
candidate and the relation at its end; `some none` means that `llvm::None` is returned by the code.
The fuel bounds the number of iterations. -/
def climb (s : Numbering N) (pr : N → List N) (node : N) :
    (fuel : Nat) → (lca : N) → Option (Option (N × TreeRelation))
  | fuel, lca =>
    match compare s lca node with
    | none => none
    | some .ancestor => some (some (lca, .ancestor))
    | some .descendant => some (some (lca, .descendant))
    | some _ =>
      match fuel with
      | 0 => none
      | fuel' + 1 =>
        match findParent s lca (pr lca) with
        | none => none
        | some none => some none
        | some (some p) => climb s pr node fuel' p

/-- The outer loop of `findLCA()` (SpanningTreeRelation.h:157-176). -/
def lcaLoop (s : Numbering N) (pr : N → List N) (fuel : Nat) :
    (nodes : List N) → (lca : N) → Option (Option N)
  | [], lca => some (some lca)
  | n :: ns, lca =>
    match climb s pr n fuel lca with
    | none => none
    | some none => some none
    | some (some (_, .descendant)) =>
      match findParent s n (pr n) with
      | none => none
      | some none => some none
      | some (some p) => lcaLoop s pr fuel ns p
    | some (some (lca', _)) => lcaLoop s pr fuel ns lca'

/-- `findLCA(STR, BeginItr, EndItr)` (SpanningTreeRelation.h:140-178); the range is not empty. -/
def findLCA (s : Numbering N) (pr : N → List N) (fuel : Nat) : (nodes : List N) → Option (Option N)
  | [] => none
  | n :: ns =>
    match findParent s n (pr n) with
    | none => none
    | some none => some none
    | some (some p) => lcaLoop s pr fuel ns p

end Graph
end Tsar
