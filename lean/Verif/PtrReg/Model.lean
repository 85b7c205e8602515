import Mathlib.Data.List.Basic
import Mathlib.Logic.Function.Basic

/-!
# Promotion of a memory location to a register

A model of the pass `ptr2reg` (lib/Transform/IR/PointerScalarizer.cpp): memory a
pointer `V` points to is loaded before a loop, kept in registers inside of the
loop and stored after the loop.

A loop is a control-flow graph of basic blocks with phi-nodes. Conditions checked
by `hasAmbiguousAccessesOrReadonly` (lines 250-312) are built into the syntax of
instructions: the location is accessed by `load x, V` and `store o, V` only, all
other instructions do not access it. Debug intrinsics are not modelled.
-/

namespace Tsar.PtrReg

/-- Names of basic blocks. -/
abbrev Lab := Nat

/-- Names of values: values of the original function, the load which is inserted
in a preheader (`InsertedLoad`) and the phi-node inserted in a block. -/
inductive Var
  | v (n : Nat)
  | ld
  | ph (b : Lab)
deriving DecidableEq, Repr

/-- Operands of instructions. -/
inductive Opd
  | const (c : Int)
  | var (x : Var)
deriving DecidableEq, Repr

/-- Instructions. `R` is the state of memory except for the promoted location. -/
inductive Inst (R : Type)
  | load (x : Var)
  | store (o : Opd)
  | other (x : Option Var) (args : List Opd) (f : List Int → R → Int × R)

/-- Basic block. A terminator chooses one of `succs`. -/
structure Blk (R : Type) where
  phis : List (Var × (Lab → Opd))
  insts : List (Inst R)
  targs : List Opd
  br : List Int → Lab
  succs : List Lab

/-- A loop with a preheader. -/
structure Loop (R : Type) where
  blk : Lab → Blk R
  blocks : List Lab
  header : Lab
  pre : Lab

variable {R : Type}

/-! ### Execution -/

/-- Values of registers, the value in the promoted location and other memory. -/
structure St (R : Type) where
  env : Var → Int
  cell : Int
  rest : R

/-- A value of an operand (semantics of `llvm::Value` as an operand, it is not a part of the pass). -/
def Opd.eval (env : Var → Int) : Opd → Int
  | .const c => c
  | .var x => env x

/-- Simultaneous execution of phi-nodes at the entry from `prev`. -/
def doPhis (phis : List (Var × (Lab → Opd))) (prev : Lab) (env : Var → Int) : Var → Int :=
  fun x => match phis.find? (fun p => p.1 = x) with
    | some p => (p.2 prev).eval env
    | none => env x

/-- Execution of an instruction (semantics of LLVM IR the pass is compared with, it is not a part of the pass). -/
def execI (s : St R) : Inst R → St R
  | .load x => ⟨Function.update s.env x s.cell, s.cell, s.rest⟩
  | .store o => ⟨s.env, o.eval s.env, s.rest⟩
  | .other x args f =>
    let r := f (args.map (·.eval s.env)) s.rest
    match x with
    | some x => ⟨Function.update s.env x r.1, s.cell, r.2⟩
    | none => ⟨s.env, s.cell, r.2⟩

/-- Execution of a block and the next block. -/
def execB (b : Blk R) (prev : Lab) (s : St R) : Lab × St R :=
  let s1 := b.insts.foldl execI ⟨doPhis b.phis prev s.env, s.cell, s.rest⟩
  (b.br (b.targs.map (·.eval s1.env)), s1)

/-- The previous block, the current block and a state. -/
structure Conf (R : Type) where
  prev : Lab
  cur : Lab
  st : St R

/-- Execution of a single block of a loop; a configuration outside of the loop is
final. -/
def step (l : Loop R) (c : Conf R) : Conf R :=
  if c.cur ∈ l.blocks then
    let r := execB (l.blk c.cur) c.prev c.st
    ⟨c.cur, r.1, r.2⟩
  else c

/-- Execution of `n` blocks. -/
def run (l : Loop R) : Nat → Conf R → Conf R
  | 0, c => c
  | n + 1, c => run l n (step l c)

/-- The beginning of execution of a loop. -/
def enter (l : Loop R) (s : St R) : Conf R := ⟨l.pre, l.header, s⟩

/-! ### The transformation -/

/-- `pred_size` of a block of a loop. The only predecessor of the header which is
outside of the loop is the preheader (`getLoopPreheader`, line 327). -/
def predSize (l : Loop R) (b : Lab) : Nat :=
  (l.blocks.map fun c => (l.blk c).succs.count b).sum + if b = l.header then 1 else 0

/-- `getSinglePredecessor` if there is a single predecessor. -/
def singlePred (l : Loop R) (b : Lab) : Lab :=
  (l.blocks.find? fun c => b ∈ (l.blk c).succs).getD l.pre

/-- Depth-first traversal which is shared by `insertPhiNodes` (lines 188-211) and
`handleLoads` (lines 173-186): `done` is the check that a block has been visited,
`visit` is the action for a block, `edge` is the action for an edge from the loop.
The depth of recursion is bounded by `fuel`. -/
def dfs {S : Type} (l : Loop R) (done : S → Lab → Bool) (visit : S → Lab → S)
    (edge : S → Lab → Lab → S) : Nat → S → Lab → S
  | 0, s, _ => s
  | n + 1, s, b =>
    if done s b then s
    else (l.blk b).succs.foldl
      (fun s c => if c ∈ l.blocks then dfs l done visit edge n s c else edge s b c) (visit s b)

/-- `PhiLinks`: the block with the phi-node which is used for a block. -/
abbrev Links := Lab → Option Lab

/-- `insertPhiNodes`, processing of a block (lines 191-207). -/
def linkBlock (l : Loop R) (k : Links) (b : Lab) : Links :=
  Function.update k b <|
    if predSize l b = 1 then
      let p := singlePred l b
      if p ∈ l.blocks then
        match k p with
        | some r => some r
        | none => some b
      else some b
    else some b

/-- `insertPhiNodes` (lines 188-211). -/
def insertPhiNodes (l : Loop R) : Links :=
  dfs l (fun k b => (k b).isSome) (linkBlock l) (fun k _ _ => k)
    (l.blocks.length + 1) (fun _ => none) l.header

/-- The state of `handleLoads`: visited blocks, `LastValues` and the operand which
is used instead of each value. -/
structure H where
  comp : Lab → Bool
  last : Lab → Option Opd
  sub : Var → Opd

/-- An operand after substitution (`replaceAllUsesWith`, PointerScalarizer.cpp:162, 240). -/
def Opd.subst (σ : Var → Opd) : Opd → Opd
  | .const c => .const c
  | .var x => σ x

/-- `Value::replaceAllUsesWith`. -/
def rauw (σ : Var → Opd) (x : Var) (o : Opd) : Var → Opd :=
  fun y => if σ y = .var x then o else σ y

/-- Processing of an instruction in `handleMemoryAccess` (lines 154-165). `used x`
means that `x` has users (`!LI->user_empty()`). -/
def memInst (used : Var → Bool) (a : Opd × (Var → Opd)) : Inst R → Opd × (Var → Opd)
  | .store o => (o.subst a.2, a.2)
  | .load x => if used x then (a.1, rauw a.2 x a.1) else a
  | .other .. => a

/-- `handleMemoryAccess` (lines 147-171). Instructions are erased in `promoteI`.
A missed `LastValues` is a null pointer in the code, a constant here. -/
def memBlock (l : Loop R) (used : Var → Bool) (k : Links) (h : H) (b : Lab) : H :=
  let v0 := if k b = some b then Opd.var (.ph b)
    else (h.last (singlePred l b)).getD (.const 0)
  let a := (l.blk b).insts.foldl (memInst used) (v0, h.sub)
  ⟨Function.update h.comp b true, Function.update h.last b (some a.1), a.2⟩

/-- The last line of `handleLoads` (line 185). -/
def exitEdge (h : H) (b c : Lab) : H :=
  ⟨h.comp, Function.update h.last c (h.last b), h.sub⟩

/-- `handleLoads` (lines 173-186) after `insertLoadInstructions` (lines 127-136). -/
def handleLoads (l : Loop R) (used : Var → Bool) (k : Links) : H :=
  dfs l (fun h b => h.comp b) (memBlock l used k) exitEdge (l.blocks.length + 1)
    ⟨fun _ => false, Function.update (fun _ => none) l.pre (some (.var .ld)), .var⟩ l.header

/-- Replacement of operands of an instruction and erasure of promoted accesses
(lines 155-169). -/
def promoteI (used : Var → Bool) (σ : Var → Opd) : Inst R → Option (Inst R)
  | .load x => if used x then none else some (.load x)
  | .store _ => none
  | .other x args f => some (.other x (args.map (·.subst σ)) f)

/-- A block after transformation. The last phi-node is filled by `fillPhiNodes`
(lines 213-221). -/
def promoteB (used : Var → Bool) (k : Links) (h : H) (b : Lab) (x : Blk R) : Blk R :=
  ⟨x.phis.map (fun p => (p.1, fun c => (p.2 c).subst h.sub)) ++
      (if k b = some b then [(.ph b, fun c => (h.last c).getD (.const 0))] else []),
    x.insts.filterMap (promoteI used h.sub), x.targs.map (·.subst h.sub), x.br, x.succs⟩

/-- The loop after transformation, before removal of redundant phi-nodes
(lines 410-414). -/
def promote (l : Loop R) (used : Var → Bool) : Loop R :=
  let k := insertPhiNodes l
  let h := handleLoads l used k
  { l with blk := fun b => promoteB used k h b (l.blk b) }

/-- `insertLoadInstructions` (lines 127-136): the load in the preheader. -/
def preload (s : St R) : St R := ⟨Function.update s.env .ld s.cell, s.cell, s.rest⟩

/-- Substitution which replaces a single value. -/
def delSub (x : Var) (o : Opd) : Var → Opd := fun y => if y = x then o else .var y

/-- An instruction after substitution (`replaceAllUsesWith`, PointerScalarizer.cpp:162, 240). -/
def substI (σ : Var → Opd) : Inst R → Inst R
  | .load x => .load x
  | .store o => .store (o.subst σ)
  | .other x args f => .other x (args.map (·.subst σ)) f

/-- Replacement of a phi-node with an operand and erasure of the phi-node
(lines 240-245). -/
def deletePhi (l : Loop R) (x : Var) (o : Opd) : Loop R :=
  { l with blk := fun b =>
      ⟨((l.blk b).phis.filter fun p => p.1 ≠ x).map fun p =>
          (p.1, fun c => (p.2 c).subst (delSub x o)),
        (l.blk b).insts.map (substI (delSub x o)), (l.blk b).targs.map (·.subst (delSub x o)),
        (l.blk b).br, (l.blk b).succs⟩ }

/-- Predecessors of a block of a loop. -/
def preds (l : Loop R) (b : Lab) : List Lab :=
  (if b = l.header then [l.pre] else []) ++ l.blocks.filter fun c => b ∈ (l.blk c).succs

/-- Operands of the phi-node which is inserted in a block. -/
def phiOps (l : Loop R) (b : Lab) : List Opd :=
  match (l.blk b).phis.find? fun p => p.1 = .ph b with
  | some p => (preds l b).map p.2
  | none => []

/-- All operands of a phi-node are the same (lines 228-237). -/
def redundant (l : Loop R) (b : Lab) : Bool :=
  match phiOps l b with
  | o :: os => os.all (· = o)
  | [] => false

/-- The state of `deleteRedundantPhiNodes`: the loop, the operand which is used
instead of each value, blocks with erased phi-nodes and whether the null pointer has
been dereferenced. -/
structure Del (R : Type) where
  loop : Loop R
  sub : Var → Opd
  erased : List Lab
  null : Bool

/-- `dyn_cast<Instruction>` returns the null pointer. Arguments of a function are not
distinguished from instructions. -/
def Opd.notInst : Opd → Bool
  | .const _ => true
  | .var _ => false

/-- The body of the last loop in `deleteRedundantPhiNodes` (lines 239-246). Updates of
`PhiLinks` are not modelled except for `Instr->getParent()`: links are not used after
that. -/
def deleteNode (a : Del R) (b : Lab) : Del R :=
  match phiOps a.loop b with
  | o :: _ => ⟨deletePhi a.loop (.ph b) o, fun y => (a.sub y).subst (delSub (.ph b) o),
      a.erased ++ [b], a.null || o.notInst⟩
  | [] => a

/-- `deleteRedundantPhiNodes` (lines 223-248), the second argument is `UniqueNodes`.
The number of iterations is bounded by `fuel`. -/
def deleteRedundant : Nat → List Lab → Del R → Del R
  | 0, _, a => a
  | n + 1, us, a =>
    let del := us.filter (redundant a.loop)
    if del = [] then a
    else deleteRedundant n (us.filter fun b => b ∉ del) (del.foldl deleteNode a)

/-- The whole transformation of a loop (lines 410-414). -/
def ptr2reg (l : Loop R) (used : Var → Bool) : Del R :=
  let us := l.blocks.filter fun b => insertPhiNodes l b = some b
  deleteRedundant (us.length + 1) us
    ⟨promote l used, (handleLoads l used (insertPhiNodes l)).sub, [], false⟩

/-- The operand of the store which is inserted in an exit block (lines 138-145). -/
def exitValue (l : Loop R) (used : Var → Bool) (e : Lab) : Opd :=
  ((handleLoads l used (insertPhiNodes l)).last e).getD (.const 0)

/-- The operand is a phi-node which has been erased: `LastValues` is not updated by
`deleteRedundantPhiNodes`. -/
def dangling (er : List Lab) : Opd → Bool
  | .var (.ph b) => b ∈ er
  | _ => false

/-- `insertStoreInstructions` (lines 138-145): the store at the beginning of an exit
block. It is undefined behaviour if the operand has been erased. The block is not
entered except for the loop. -/
def poststore (l : Loop R) (used : Var → Bool) (e : Lab) (s : St R) : Option (St R) :=
  if dangling (ptr2reg l used).erased (exitValue l used e) then none
  else some ⟨s.env, (exitValue l used e).eval s.env, s.rest⟩

/-! ### Specification of well-formed loops -/

/-- The value defined by an instruction. -/
def Inst.res : Inst R → Option Var
  | .load x => some x
  | .store _ => none
  | .other x _ _ => x

/-- Operands of an instruction. -/
def Inst.ops : Inst R → List Opd
  | .load _ => []
  | .store o => [o]
  | .other _ args _ => args

/-- Values defined in a block. -/
def Blk.defs (b : Blk R) : List Var := b.phis.map Prod.fst ++ b.insts.filterMap Inst.res

/-- Paths from the header of a loop: the list of blocks before the last one. -/
inductive Path (l : Loop R) : List Lab → Lab → Prop
  | nil : Path l [] l.header
  | snoc {π : List Lab} {b c : Lab} (h : Path l π b) (hb : b ∈ l.blocks)
      (hc : c ∈ (l.blk b).succs) : Path l (π ++ [b]) c

/-- `x` is known at the entry of `b`: it is defined outside of the loop or on each
path to `b`. -/
def AvailIn (l : Loop R) (b : Lab) (x : Var) : Prop :=
  (∀ c ∈ l.blocks, x ∉ (l.blk c).defs) ∨ ∀ π, Path l π b → ∃ c ∈ π, x ∈ (l.blk c).defs

/-- `x` is known before instruction `i` of `b`. -/
def Avail (l : Loop R) (b : Lab) (i : Nat) (x : Var) : Prop :=
  AvailIn l b x ∨ x ∈ (l.blk b).phis.map Prod.fst ∨
    x ∈ ((l.blk b).insts.take i).filterMap Inst.res

/-- `x` is known at the end of `b`. -/
def AvailEnd (l : Loop R) (b : Lab) (x : Var) : Prop :=
  AvailIn l b x ∨ x ∈ (l.blk b).defs

/-- An operand which is a value of the original function. -/
def Orig (o : Opd) (p : Nat → Prop) : Prop := ∀ x, o = .var x → ∃ n, x = .v n ∧ p n

/-- A loop with a preheader; each block is reachable and each value is defined
once. -/
structure Base (l : Loop R) : Prop where
  header : l.header ∈ l.blocks
  pre : l.pre ∉ l.blocks
  nodup : l.blocks.Nodup
  succs : ∀ b ∈ l.blocks, ∀ a, (l.blk b).br a ∈ (l.blk b).succs
  reach : ∀ b ∈ l.blocks, ∃ π, Path l π b
  ssa : (l.blocks.flatMap fun b => (l.blk b).defs).Nodup

/-- A loop in static single assignment form: a value is used where it is known. -/
structure WF (l : Loop R) (used : Var → Bool) : Prop extends Base l where
  preNotExit : ∀ b ∈ l.blocks, l.pre ∉ (l.blk b).succs
  names : ∀ b ∈ l.blocks, ∀ x ∈ (l.blk b).defs, ∃ n, x = .v n
  phiEntry : ∀ p ∈ (l.blk l.header).phis,
    Orig (p.2 l.pre) fun n => used (.v n) = true ∧ ∀ c ∈ l.blocks, .v n ∉ (l.blk c).defs
  phiIn : ∀ b ∈ l.blocks, ∀ c ∈ l.blocks, b ∈ (l.blk c).succs → ∀ p ∈ (l.blk b).phis,
    Orig (p.2 c) fun n => used (.v n) = true ∧ AvailEnd l c (.v n)
  inst : ∀ b ∈ l.blocks, ∀ (i : Nat) x, (l.blk b).insts[i]? = some x → ∀ o ∈ x.ops,
    Orig o fun n => used (.v n) = true ∧ Avail l b i (.v n)
  term : ∀ b ∈ l.blocks, ∀ o ∈ (l.blk b).targs,
    Orig o fun n => used (.v n) = true ∧ AvailEnd l b (.v n)

/-- Each block outside of a loop is reached from at most one block of the loop. -/
def Unshared (l : Loop R) : Prop :=
  ∀ b ∈ l.blocks, ∀ c ∈ l.blocks, ∀ e, e ∉ l.blocks → e ∈ (l.blk b).succs →
    e ∈ (l.blk c).succs → b = c

end Tsar.PtrReg
