import Mathlib.Data.List.Basic
import Mathlib.Data.List.Nodup
import Mathlib.Data.List.Perm.Basic

/-!
# Functions of LLVM IR and their executions (specification)

What elimination of dead stores must preserve. Nothing here refers to the transformation.

A function is a list of basic blocks. Values are opaque: the meaning of instructions is a parameter
(`Sem`). Instructions which do not access memory compute a value from values of their operands (a
`phi` also uses the predecessor). Every other instruction transforms the memory, computes a value and
produces events an external observer sees.
-/
namespace Tsar.DeadStore

/-- An instruction. `ops` are its operands which are instructions (others are a part of its meaning),
`mem` is `mayReadOrWriteMemory()`. A terminator is an instruction too. -/
structure Instr where
  id : Nat
  ops : List Nat
  mem : Bool := false
  store : Bool := false
  isVolatile : Bool := false
  phi : Bool := false
  term : Bool := false
  deriving DecidableEq

/-- Basic blocks, the entry is the first one. -/
abbrev Fn := List (List Instr)

/-- All instructions in order: `instructions(F)`. -/
def Fn.instrs (f : Fn) : List Instr := f.flatten

/-- Operands are instructions of the same function, different instructions are different, a store
accesses memory and has no value, so it is not an operand. -/
structure WellFormed (is : List Instr) : Prop where
  nodup : (is.map (·.id)).Nodup
  closed : ∀ i ∈ is, ∀ o ∈ i.ops, ∃ j ∈ is, j.id = o ∧ j.store = false
  store : ∀ i ∈ is, i.store = true → i.mem = true ∧ i.phi = false ∧ i.term = false

section
variable (Val Addr Event : Type)

/-- The meaning of instructions. -/
structure Sem where
  /-- The value of an instruction without memory accesses; the first number is a predecessor. -/
  value : Nat → Nat → List Val → Val
  /-- The address and the value which are stored. -/
  target : Nat → List Val → Addr
  stored : Nat → List Val → Val
  /-- What an observer sees of a volatile store. -/
  seen : Nat → List Val → Event
  /-- The value, the memory and the events of other instructions. -/
  effect : Nat → List Val → (Addr → Val) → Val × (Addr → Val) × List Event
  /-- The block after a given one, for the values of the operands of its terminator. -/
  next : Nat → List Val → Option Nat

variable {Val Addr Event} [DecidableEq Addr] (S : Sem Val Addr Event)

/-- Values of instructions, memory, and events. -/
structure State (Val Addr Event : Type) where
  env : Nat → Val
  mem : Addr → Val
  events : List Event

/-- Change of one value. -/
def set {α β : Type} [DecidableEq α] (m : α → β) (a : α) (v : β) : α → β :=
  fun x => if x = a then v else m x

/-- An instruction which is not a `phi`. -/
def step (prev : Nat) (s : State Val Addr Event) (i : Instr) : State Val Addr Event :=
  let vs := i.ops.map s.env
  if i.store then
    { s with
      mem := set s.mem (S.target i.id vs) (S.stored i.id vs)
      events := if i.isVolatile then s.events ++ [S.seen i.id vs] else s.events }
  else if i.mem then
    let r := S.effect i.id vs s.mem
    ⟨set s.env i.id r.1, r.2.1, s.events ++ r.2.2⟩
  else { s with env := set s.env i.id (S.value i.id prev vs) }

/-- All `phi` of a block are executed at once. -/
def phis (prev : Nat) (b : List Instr) (s : State Val Addr Event) : State Val Addr Event :=
  { s with
    env := fun x =>
      match (b.filter (·.phi)).find? (fun i => i.id = x) with
      | some i => S.value i.id prev (i.ops.map s.env)
      | none => s.env x }

/-- Instructions of a block which are not `phi`. -/
def body (b : List Instr) : List Instr := b.filter (fun i => !i.phi)

/-- Execution of a block. -/
def block (prev : Nat) (b : List Instr) (s : State Val Addr Event) : State Val Addr Event :=
  (body b).foldl (step S prev) (phis S prev b s)

/-- The next block: values of the operands of the last instruction determine it. -/
def after (n : Nat) (b : List Instr) (s : State Val Addr Event) : Option Nat :=
  match b.getLast? with
  | none => none
  | some t => S.next n (t.ops.map s.env)

/-- A position: the block to be executed and its predecessor. `none` is the end of the function. -/
abbrev Config (Val Addr Event : Type) := Option (Nat × Nat) × State Val Addr Event

/-- Execution of one block of a function. -/
def advance (f : Fn) : Config Val Addr Event → Config Val Addr Event
  | (none, s) => (none, s)
  | (some (n, prev), s) =>
    match f[n]? with
    | none => (none, s)
    | some b =>
      let s' := block S prev b s
      ((after S n b s').map (fun m => (m, n)), s')

/-- Execution of any number of blocks from the entry. -/
def exec (f : Fn) (s : State Val Addr Event) : Nat → Config Val Addr Event
  | 0 => (some (0, 0), s)
  | k + 1 => advance S f (exec f s k)

/-- The instruction `i` is executed in the state `s` in an execution of a function. -/
def Reaches (f : Fn) (s0 : State Val Addr Event) (i : Instr) (s : State Val Addr Event) : Prop :=
  ∃ k n prev s1 b l r, exec S f s0 k = (some (n, prev), s1) ∧ f[n]? = some b ∧
    body b = l ++ i :: r ∧ s = l.foldl (step S prev) (phis S prev b s1)

end

end Tsar.DeadStore
