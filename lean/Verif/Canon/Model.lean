import Mathlib.Data.List.Basic

/-!
# Semantically canonical loops (C101, C102)

Models `findLastWrite`, `findLastCmp`, `isLoopInvariantMemory` and `checkLoop` from
`/repo/lib/Analysis/Clang/CanonicalLoop.cpp` (lines 272-590). The syntactic part of the analysis is modelled in
`Verif/Loop`.

Instructions are represented together with their operands as trees: two uses of the same instruction are two equal
trees. Alias nodes are values of the type `N`. The functions which relate memory accesses with alias nodes
(`AliasTree::find`, `DIMemoryClientServerInfo::findFromClient`), `for_each_memory` and the relation between alias nodes
are external for this file: results of the first ones are a part of an instruction, the relation is a parameter.
-/

namespace Tsar
namespace Canon

/-- `llvm::CmpInst::Predicate` of integers. -/
inductive Pred where
  | eq | ne | lt | le | gt | ge
  deriving DecidableEq, Repr

/-- `CmpInst::getInversePredicate()`. -/
def Pred.inverse : Pred → Pred
  | .eq => .ne | .ne => .eq | .lt => .ge | .le => .gt | .gt => .le | .ge => .lt

/-- Opcodes which are distinguished. `load` and `store` access the variable `l` as a whole, other accesses to memory
are `other` instructions with an identifier. -/
inductive Opcode (L : Type) where
  | add | sub | cast | phi
  | cmp (p : Pred)
  | load (l : L)
  | store (l : L)
  | other (id : Nat)
  deriving DecidableEq

/-- An access to a known location (the first function of `for_each_memory`): an index of an operand, an alias node of
a metadata-level location, if it exists (`DIM`), is there a read, is there a write. -/
structure Acc (N : Type) where
  idx : Nat
  node : Option N
  r : Bool
  w : Bool

/-- An access to unknown memory (the second function of `for_each_memory`): is it a call, is it a call which does not
write memory, an alias node, is there a write. -/
structure Unk (N : Type) where
  call : Bool
  onlyReads : Bool
  node : Option N
  w : Bool

/-- An instruction without its operands. -/
structure Ins (L N : Type) where
  op : Opcode L
  accs : List (Acc N)
  unk : Option (Unk N)

/-- `llvm::Value`: an instruction or a constant expression with its operands, `ConstantData` or `GlobalValue` with
its value, any other value (an argument of a function, a basic block). -/
inductive Tree (L N : Type) where
  | inst (i : Ins L N) (ops : List (Tree L N))
  | const (v : Int)
  | other (id : Nat)

variable {L N : Type}

/-- What is known about alias nodes: `unreachable` is `STR.isUnreachable`, `fixed n` if there are no traits for a node
in `DIDepSet` or traits are `Readonly` or `NoAccess` (CanonicalLoop.cpp:372-374, 385-387). -/
structure Know (N : Type) where
  unreachable : N → N → Bool
  fixed : N → Bool

/-- The result of `isLoopInvariantMemory` (CanonicalLoop.cpp:324-331): success, numbers of reads and writes of the
induction variable, the operand and the instruction which accesses this operand. `self` if the operand is the value
for which the function has been called (comparison with `Op` at lines 408 and 412). -/
structure Res (L N : Type) where
  ok : Bool
  use : Nat
  dfn : Nat
  expr : Option (Tree L N)
  self : Bool
  user : Option (Tree L N)

/-- Accesses to known memory (CanonicalLoop.cpp:345-375): success, numbers of reads and writes, `InductIdx`. -/
def scanAccs (k : Know N) (ind : N) : List (Acc N) → Bool × Nat × Nat × List Nat
  | [] => (true, 0, 0, [])
  | a :: l =>
    match a.node with
    | none => (false, 0, 0, [])
    | some n =>
      if !k.unreachable n ind then
        let t := scanAccs k ind l
        (t.1, (if a.r then 1 else 0) + t.2.1, (if a.w then 1 else 0) + t.2.2.1,
          if a.r || a.w then a.idx :: t.2.2.2 else t.2.2.2)
      else if k.fixed n then scanAccs k ind l
      else (false, 0, 0, [])

/-- An access to unknown memory (CanonicalLoop.cpp:376-388). -/
def scanUnk (k : Know N) : Option (Unk N) → Bool
  | none => true
  | some u =>
    u.call && u.onlyReads &&
      match u.node with
      | none => false
      | some n => k.fixed n

/-- The update of the result for an operand (CanonicalLoop.cpp:400-414): `r` is the result for the operand `t` with a
number `i`. -/
def addOperand (root t : Tree L N) (idx : List Nat) (i : Nat) (acc r : Res L N) : Res L N :=
  let acc := { acc with use := acc.use + r.use, dfn := acc.dfn + r.dfn }
  match r.expr with
  | none => acc
  | some e =>
    if !r.self then { acc with expr := some e, user := r.user }
    else if !idx.contains i then { acc with expr := some t, user := some root }
    else acc

mutual

/-- `isLoopInvariantMemory` (CanonicalLoop.cpp:332-428). -/
def invariant (k : Know N) (ind : N) : Tree L N → Res L N
  | .inst i ops =>
    let s := scanAccs k ind i.accs
    if !(s.1 && scanUnk k i.unk) then ⟨false, s.2.1, s.2.2.1, none, false, none⟩
    else
      let r := invariantOps k ind (.inst i ops) s.2.2.2 0 ops ⟨true, s.2.1, s.2.2.1, none, false, none⟩ true
      if !r.1.ok then r.1
      else if r.2 && decide (s.2.1 = 0) && decide (s.2.2.1 = 0) then
        { r.1 with expr := some (.inst i ops), self := true }
      else r.1
  | .const v => ⟨true, 0, 0, some (.const v), true, none⟩
  | .other _ => ⟨false, 0, 0, none, false, none⟩

/-- The loop over operands (CanonicalLoop.cpp:393-424), `pure` is `OpNotAccessInduct`. A constant is processed as
a value which does not access memory. -/
def invariantOps (k : Know N) (ind : N) (root : Tree L N) (idx : List Nat) (n : Nat) :
    List (Tree L N) → Res L N → Bool → Res L N × Bool
  | [], acc, pure => (acc, pure)
  | t :: l, acc, pure =>
    let r := invariant k ind t
    if !r.ok then ({ acc with ok := false }, pure)
    else invariantOps k ind root idx (n + 1) l (addOperand root t idx n acc r)
      (pure && decide (r.use = 0) && decide (r.dfn = 0))

end

/-- Accesses of an instruction. -/
def Tree.accs : Tree L N → List (Acc N)
  | .inst i _ => i.accs
  | _ => []

/-- An access of an instruction to unknown memory. -/
def Tree.unk : Tree L N → Option (Unk N)
  | .inst i _ => i.unk
  | _ => none

/-- May an access write to the node (CanonicalLoop.cpp:260-264)? -/
def writesNode (k : Know N) (ind : N) (a : Acc N) : Bool :=
  a.w &&
    match a.node with
    | none => true
    | some n => !k.unreachable ind n

/-- `RequiredInstruction` (CanonicalLoop.cpp:253-280). -/
def required (k : Know N) (ind : N) (t : Tree L N) : Bool :=
  let b := t.accs.any (writesNode k ind)
  match t.unk with
  | none => b
  | some u =>
    if !u.w then b
    else
      u.call && u.onlyReads

/-- `findLastWrite` (CanonicalLoop.cpp:248-286). -/
def findLastWrite (k : Know N) (ind : N) (block : List (Tree L N)) : Option (Tree L N) :=
  block.reverse.find? (required k ind)

/-- Is it a comparison? -/
def isCmp : Tree L N → Bool
  | .inst ⟨.cmp _, _, _⟩ _ => true
  | _ => false

/-- `findLastCmp` (CanonicalLoop.cpp:289-299). -/
def findLastCmp (block : List (Tree L N)) : Option (Tree L N) := block.reverse.find? isCmp

/-- A basic block: its number and instructions. -/
structure Block (L N : Type) where
  id : Nat
  body : List (Tree L N)

/-- A loop: the last block before the loop, the header, all blocks in the loop, the number of a single latch. -/
structure IRLoop (L N : Type) where
  preheader : List (Tree L N)
  header : List (Tree L N)
  blocks : List (Block L N)
  latch : Option Nat

/-- Writes of one instruction (CanonicalLoop.cpp:483-513): an increased number of writes and `Increment`. -/
def countIns (k : Know N) (ind : N) (t : Tree L N) (s : Nat × Option (Tree L N)) : Nat × Option (Tree L N) :=
  let s := t.accs.foldl (fun s a =>
    if !a.w then s
    else
      match a.node with
      | none => (s.1 + 1, s.2)
      | some n => if !k.unreachable ind n then (s.1 + 1, some t) else s) s
  match t.unk with
  | none => s
  | some u =>
    if !u.w then s
    else
      match u.node with
      | none => (s.1 + 1, s.2)
      | some n => if !k.unreachable ind n then (s.1 + 1, s.2) else s

/-- The search for `Increment` (CanonicalLoop.cpp:478-521). `none` if the loop is not canonical. -/
def findIncrement (k : Know N) (ind : N) (latch : Option Nat) :
    List (Block L N) → Option (Tree L N) → Option (Option (Tree L N))
  | [], inc => some inc
  | b :: l, inc =>
    let s := b.body.foldl (fun s t => countIns k ind t s) (0, inc)
    if s.1 = 0 then findIncrement k ind latch l s.2
    else if latch ≠ some b.id || s.2.isNone || s.1 ≠ 1 then none
    else findIncrement k ind latch l s.2

/-- A step of the loop (CanonicalLoop.cpp:548-554): an operand, it should be subtracted if `neg`. -/
structure StepInfo (L N : Type) where
  neg : Bool
  expr : Tree L N

/-- `CanonicalLoopInfo` (CanonicalLoop.h:60-150) of a loop which is marked as canonical. -/
structure Info (L N : Type) where
  start : Option (Tree L N)
  step : Option (StepInfo L N)
  stop : Option (Tree L N)
  pred : Option Pred
  rectangular : Bool

/-- The step (CanonicalLoop.cpp:543-554). -/
def stepOf (r : Res L N) : Option (StepInfo L N) :=
  match r.expr, r.user with
  | some e, some (.inst ⟨.sub, _, _⟩ _) => some ⟨true, e⟩
  | some e, some (.inst ⟨.add, _, _⟩ _) => some ⟨false, e⟩
  | _, _ => none

/-- The predicate (CanonicalLoop.cpp:564-571): `first` if the first operand is the found expression. -/
def predOf (first : Tree L N → Tree L N → Bool) (r : Res L N) (cond : Tree L N) : Option Pred :=
  match r.expr, cond with
  | some e, .inst ⟨.cmp p, _, _⟩ [a, _] => some (if first a e then p.inverse else p)
  | _, _ => none

/-- The end of `checkLoop` (CanonicalLoop.cpp:522-589): `outer` describes traits of the parent loop if it exists and
it has been analyzed. -/
def checkExprs (k : Know N) (outer : Option (Know N)) (ind : N) (first : Tree L N → Tree L N → Bool)
    (init inc cond : Tree L N) : Option (Info L N) :=
  let a := invariant k ind init
  if !a.ok || a.dfn ≠ 1 || a.use > 0 then none
  else
    let b := invariant k ind inc
    if !b.ok || b.dfn ≠ 1 || b.use > 1 then none
    else
      let c := invariant k ind cond
      if !c.ok || c.dfn ≠ 0 || c.use > 1 then none
      else some ⟨a.expr, stepOf b, c.expr, predOf first c cond,
        match outer with
        | none => false
        | some k' => (invariant k' ind init).ok && (invariant k' ind inc).ok && (invariant k' ind cond).ok⟩

/-- A result of `checkLoop`: an undefined behaviour (a null pointer is dereferenced if assertions are disabled), the
loop is not canonical or it is canonical. -/
inductive Outcome (L N : Type) where
  | ub
  | no
  | yes (i : Info L N)

/-- `checkLoop` (CanonicalLoop.cpp:437-590) after the induction variable has been found: `ind` is its alias node. -/
def checkLoop (k : Know N) (outer : Option (Know N)) (ind : N) (first : Tree L N → Tree L N → Bool)
    (P : IRLoop L N) : Outcome L N :=
  match findLastWrite k ind P.preheader, findLastCmp P.header with
  | some init, some cond =>
    match findIncrement k ind P.latch P.blocks none with
    | none => .no
    | some none => .ub
    | some (some inc) =>
      match checkExprs k outer ind first init inc cond with
      | none => .no
      | some i => .yes i
  | _, _ => .ub

end Canon
end Tsar
