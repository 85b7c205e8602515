import Verif.Alias.Relation

/-!
# Chains of estimate memory

Models `AliasTree::insert()`, the part of `AliasTree::add()` which builds estimate memory
(`lib/Analysis/Memory/EstimateMemory.cpp`) and operations with chains
(`include/tsar/Analysis/Memory/EstimateMemory.h`): properties C38 and C61.
-/

namespace Tsar
namespace Alias
namespace Chain

/-! ## Model -/

/-- Nodes of estimate memory trees (EstimateMemory.h:642-649): `mParent`, `mChildren`, the identity of the list of
ambiguous pointers, `mSize`. Alias nodes and tags are omitted. -/
structure Heap where
  par : Nat → Option Nat
  ch : Nat → List Nat
  base : Nat → Nat
  size : Nat → Size

def upd {α : Type} (f : Nat → α) (k : Nat) (v : α) : Nat → α := fun x => if x = k then v else f x

/-- `getNext()` (EstimateMemory.h:1275-1280). -/
def Heap.next (h : Heap) (c : Nat) : Option Nat :=
  match h.par c with
  | some p => if h.base c = h.base p then some p else none
  | none => none

/-- `getPrev()` (EstimateMemory.h:1282-1288). -/
def Heap.prev (h : Heap) (c : Nat) : Option Nat :=
  match h.ch c with
  | p :: _ => if h.base c = h.base p then some p else none
  | [] => none

/-- `p->mChildren.remove(*c)` if `p` is not null. -/
def Heap.detach (h : Heap) (p : Option Nat) (c : Nat) : Heap :=
  match p with
  | some p => { h with ch := upd h.ch p ((h.ch p).erase c) }
  | none => h

/-- `p->mChildren.push_back(*c)` if `p` is not null. -/
def Heap.attach (h : Heap) (p : Option Nat) (c : Nat) : Heap :=
  match p with
  | some p => { h with ch := upd h.ch p (h.ch p ++ [c]) }
  | none => h

def Heap.setPar (h : Heap) (c : Nat) (p : Option Nat) : Heap := { h with par := upd h.par c p }

/-- `c->spliceNext(n)` (EstimateMemory.h:1290-1308) for a node `n` which is not null. -/
def Heap.spliceNext (h : Heap) (c n : Nat) : Heap :=
  if h.par c = some n then h
  else
    let h1 := h.detach (h.par c) c
    let h2 := h1.detach (h1.par n) n
    let h3 := h2.setPar n (h2.par c)
    let h4 := h3.attach (h3.par c) n
    let h5 := h4.attach (some n) c
    h5.setPar c (some n)

/-- `c->mergeNext(n)` (EstimateMemory.h:1310-1322) for a node `n` which is not null. -/
def Heap.mergeNext (h : Heap) (c n : Nat) : Heap :=
  if h.par c = some n then h
  else
    let h1 := h.detach (h.par c) c
    let h2 := h1.attach (some n) c
    h2.setPar c (some n)

/-- Insertion of `prev` instead of the first child with the same base (lines 1338-1348): the new list and the
replaced child. -/
def replaceFirst (h : Heap) (prev : Nat) : List Nat → Option (List Nat × Nat)
  | [] => none
  | i :: l =>
    if h.base i = h.base prev then some (prev :: l, i)
    else (replaceFirst h prev l).map fun r => (i :: r.1, r.2)

/-- All children of a node lose their parent (EstimateMemory.h:1335-1337). -/
def Heap.orphan (h : Heap) (n : Nat) : Heap :=
  { h with par := fun x => if x ∈ h.ch n then none else h.par x, ch := upd h.ch n [] }

/-- `c->splicePrev(prev)` (EstimateMemory.h:1324-1351) for a node `prev` which is not null. -/
def Heap.splicePrev (h : Heap) (c prev : Nat) : Heap :=
  if h.par prev = some c then h
  else
    let h1 := h.detach (h.par prev) prev
    let h2 := h1.setPar prev (some c)
    let h3 := h2.orphan prev
    match replaceFirst h3 prev (h3.ch c) with
    | some (l, i) =>
      { h3 with par := upd h3.par i (some prev), ch := upd (upd h3.ch c l) prev [i] }
    | none => { h3 with ch := upd h3.ch c (h3.ch c ++ [prev]) }

/-- The alias tree: nodes, lists of ambiguous pointers, first nodes of chains for each stripped pointer (`mBases`),
numbers of the following new node and the new list of pointers. -/
structure Tree where
  heap : Heap
  amb : Nat → List Nat
  begins : Nat → List Nat
  fresh : Nat
  freshBase : Nat

/-- Functions which inspect LLVM values: `stripPointer()`, `isSameBase()`, `AliasTree::isSamePointer()` and the loop
which strips memory levels while the base is the same (EstimateMemory.cpp:991-995). -/
structure Env where
  key : Nat → Nat
  sameBase : Nat → Nat → Bool
  samePointer : List Nat → Nat → AR
  stripBase : Loc → Option Loc

/-- Nodes of a chain from the specified node (the loop at EstimateMemory.cpp:979-984). -/
def Heap.walk (h : Heap) : Nat → Nat → List Nat
  | 0, c => [c]
  | n + 1, c =>
    match h.next c with
    | some p => c :: h.walk n p
    | none => [c]

/-- The safety condition at EstimateMemory.cpp:996-1018: may the location be inserted into the chain which ends at
`last`? -/
def compatible (E : Env) (t : Tree) (b : Loc) (last : Nat) (update : Option Nat) : Bool :=
  match E.stripBase b with
  | none => true
  | some s =>
    match t.heap.par last with
    | some p =>
      let c := sizecmp (t.heap.size p) s.size
      match t.amb (t.heap.base p) with
      | q :: _ => E.sameBase q s.ptr && decide (0 ≤ c) && !(decide (0 < c) && update.isNone)
      | [] => false
    | none => decide (sizecmp (t.heap.size last) s.size ≤ 0)

/-- The result of `AliasTree::insert()`: the node, `IsNew` and `AddAmbiguous`. -/
structure Inserted where
  em : Nat
  isNew : Bool
  amb : Bool
  deriving DecidableEq, Repr

/-- A copy of `c` with a specified size which is out of a tree (EstimateMemory.cpp:1020, 1032). -/
def Tree.copy (t : Tree) (c : Nat) (s : Size) : Tree :=
  { t with
    heap := { par := upd t.heap.par t.fresh none, ch := upd t.heap.ch t.fresh [],
              base := upd t.heap.base t.fresh (t.heap.base c), size := upd t.heap.size t.fresh s }
    fresh := t.fresh + 1 }

/-- Insertion into a known chain (EstimateMemory.cpp:1019-1037). `last` is the end of the chain, `k` is the key of the
list of chains and `begin` is the start point of this chain. -/
def Tree.insertInto (t : Tree) (k begin_ last : Nat) (update : Option Nat) (s : Size) : Tree × Nat × Bool :=
  match update with
  | none =>
    let t1 := t.copy last s
    ({ t1 with heap := t1.heap.spliceNext last t.fresh }, t.fresh, true)
  | some u =>
    if sizecmp s (t.heap.size u) = 0 then (t, u, false)
    else
      let t1 := t.copy u s
      ({ t1 with
        heap := t1.heap.splicePrev u t.fresh
        begins := if begin_ = u then
            upd t1.begins k ((t1.begins k).map fun x => if x = u then t.fresh else x)
          else t1.begins }, t.fresh, true)

/-- Does the first ambiguous pointer of a chain have the same base (EstimateMemory.cpp:945)? -/
def Tree.sameFirst (t : Tree) (E : Env) (bs : Nat) (p : Nat) : Bool :=
  match t.amb bs with
  | q :: _ => E.sameBase q p
  | [] => false

/-- The list of ambiguous pointers is extended if it is not known that pointers are the same
(EstimateMemory.cpp:972-975). -/
def Tree.ambiguous (t : Tree) (r : AR) (bs p : Nat) : Tree :=
  if r = .may then { t with amb := upd t.amb bs (t.amb bs ++ [p]) } else t

/-- The loop over chains (EstimateMemory.cpp:943-1038). There is no result if a new chain must be created, however,
lists of ambiguous pointers may be changed. -/
def insertLoop (E : Env) (b : Loc) : List Nat → Tree → Tree × Option Inserted
  | [], t => (t, none)
  | c :: cs, t =>
    if !t.sameFirst E (t.heap.base c) b.ptr then insertLoop E b cs t
    else if E.samePointer (t.amb (t.heap.base c)) b.ptr = .no then insertLoop E b cs t
    else
      let r := E.samePointer (t.amb (t.heap.base c)) b.ptr
      let t1 := t.ambiguous r (t.heap.base c) b.ptr
      let nodes := t1.heap.walk t1.fresh c
      let last := nodes.getLast?.getD c
      let update := nodes.find? fun x => decide (sizecmp b.size (t1.heap.size x) ≤ 0)
      if compatible E t1 b last update then
        let r' := t1.insertInto (E.key b.ptr) c last update b.size
        (r'.1, some ⟨r'.2.1, r'.2.2, decide (r = .may)⟩)
      else insertLoop E b cs t1

/-- A new chain (EstimateMemory.cpp:1042-1046). -/
def Tree.newChain (t : Tree) (k : Nat) (b : Loc) : Tree :=
  { heap := { par := upd t.heap.par t.fresh none, ch := upd t.heap.ch t.fresh [],
              base := upd t.heap.base t.fresh t.freshBase, size := upd t.heap.size t.fresh b.size }
    amb := upd t.amb t.freshBase [b.ptr]
    begins := upd t.begins k (t.begins k ++ [t.fresh])
    fresh := t.fresh + 1
    freshBase := t.freshBase + 1 }

/-- `AliasTree::insert()` (EstimateMemory.cpp:935-1047). -/
def insert (E : Env) (t : Tree) (b : Loc) : Tree × Inserted :=
  match insertLoop E b (t.begins (E.key b.ptr)) t with
  | (t', some r) => (t', r)
  | (t', none) => (t'.newChain (E.key b.ptr) b, ⟨t'.fresh, true, false⟩)

/-- `CT::mergeNext(EM, PrevChainEnd)` (EstimateMemory.cpp:543-549). -/
def Tree.merge (t : Tree) (pce : Option Nat) (em : Nat) : Tree :=
  match pce with
  | some c => if t.heap.base c = t.heap.base em then t else { t with heap := t.heap.mergeNext c em }
  | none => t

/-- `AliasTree::add()` (EstimateMemory.cpp:520-616) for a list of memory levels of a location (results of
`stripMemoryLevel()` and `stripToBase()`). Construction of alias nodes is omitted. -/
def add (E : Env) : List Loc → Option Nat → Tree → Tree
  | [], _, t => t
  | b :: bs, pce, t =>
    let r := insert E t b
    let t2 := r.1.merge pce r.2.em
    if !r.2.isNew && !r.2.amb then
      if pce = some r.2.em then add E bs pce t2 else t2
    else add E bs ((t2.heap.walk t2.fresh r.2.em).getLast?) t2

/-- An empty tree. -/
def Tree.empty : Tree :=
  ⟨⟨fun _ => none, fun _ => [], fun _ => 0, fun _ => .afterPointer⟩, fun _ => [], fun _ => [], 0, 0⟩

/-! ## Sizes -/

theorem sizecmp_trans {a b c : Size} (h1 : sizecmp a b < 0) (h2 : sizecmp b c < 0) : sizecmp a c < 0 := by
  revert h1 h2
  unfold sizecmp
  cases a <;> cases b <;> cases c <;> simp [Size.value] <;> (try split) <;> (try split) <;> (try split) <;>
    (try split) <;> (try split) <;> (try split) <;> simp <;> omega

theorem sizecmp_irrefl (a : Size) : ¬ sizecmp a a < 0 := by simp [sizecmp]

theorem sizecmp_swap {a b : Size} (h : ¬ sizecmp a b ≤ 0) : sizecmp b a < 0 := by
  revert h
  unfold sizecmp
  cases a <;> cases b <;> simp [Size.value] <;> (try split) <;> (try split) <;> (try split) <;>
    (try split) <;> (try split) <;> (try split) <;> simp <;> omega

end Chain
end Alias
end Tsar
