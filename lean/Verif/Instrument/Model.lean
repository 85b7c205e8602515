import Mathlib.Data.List.Basic

/-!
# Instrumentation of loops

Model of `Instrumentation::regLoops` (lib/Transform/Mixed/Instrumentation.cpp:439-589): calls of a dynamic analyzer library which
mark an entry to a loop, iterations of a loop and an exit from a loop.

Simplifications.
* A basic block is a number. Only events of loops and targets of a terminator are stored for each block.
* A loop is identified by a number of its header. Blocks of a loop are blocks of the original function: loop information is not
  updated when new blocks are created.
* Bounds of a loop, descriptions of loops and values of PHI-nodes (including a number of an iteration) are not modelled.
* Redirection of edges to a new preheader (465-476) is applied to all edges from blocks outside of a loop. The code walks through a
  list of uses of a header and updates this list at the same time, an effect of this update is not modelled.
-/

namespace Tsar.Instrument

/-- Calls of a library: `sl_begin`, `sl_iter` and `sl_end`. -/
inductive Ev
  | enter (l : Nat)
  | iter (l : Nat)
  | leave (l : Nat)
  deriving DecidableEq, Repr

/-- A function: targets of a terminator and events for each block, a number of blocks. -/
structure Graph where
  succ : Nat → List Nat
  events : Nat → List Ev
  next : Nat

/-- A loop: `getHeader()` and `blocks()`. -/
structure Lp where
  header : Nat
  blocks : List Nat
  deriving DecidableEq, Repr

/-- `getLoopPreheader()` of LLVM: a single predecessor of a header outside of a loop which has no other successors. -/
def preheader (L : Lp) (g : Graph) : Option Nat :=
  match (List.range g.next).filter fun u => u ∉ L.blocks ∧ L.header ∈ g.succ u with
  | [p] => if g.succ p = [L.header] then some p else none
  | _ => none

/-- Replacement of a successor: `setSuccessor()` for all operands which are equal to a block. -/
def repl (a b t : Nat) : Nat := if t = a then b else t

/-- `loopBeginInstr()` (Instrumentation.cpp:439-526): an event is inserted before a terminator of a preheader. A preheader is created
if it does not exist. -/
def beginInstr (L : Lp) (g : Graph) : Graph :=
  match preheader L g with
  | some p => { g with events := fun u => if u = p then g.events p ++ [.enter L.header] else g.events u }
  | none =>
    { succ := fun u => if u = g.next then [L.header] else if u ∈ L.blocks then g.succ u else
        (g.succ u).map (repl L.header g.next)
      events := fun u => if u = g.next then [.enter L.header] else g.events u
      next := g.next + 1 }

/-- A single iteration of a loop over successors of a block (Instrumentation.cpp:533-550): a successor is read after previous
updates of a terminator. -/
def exitSlot (L : Lp) (u i : Nat) (g : Graph) : Graph :=
  match (g.succ u)[i]? with
  | none => g
  | some t =>
    if t ∈ L.blocks then g else
    { succ := fun v => if v = g.next then [t] else if v = u then (g.succ u).map (repl t g.next) else g.succ v
      events := fun v => if v = g.next then [.leave L.header] else g.events v
      next := g.next + 1 }

/-- A loop over successors of a block (Instrumentation.cpp:533). -/
def slots (L : Lp) (u : Nat) : Nat → Nat → Graph → Graph
  | 0, _, g => g
  | k + 1, i, g => slots L u k (i + 1) (exitSlot L u i g)

/-- `loopEndInstr()` (Instrumentation.cpp:528-551). -/
def endInstr (L : Lp) (g : Graph) : Graph :=
  L.blocks.foldl (fun g u => slots L u (g.succ u).length 0 g) g

/-- `loopIterInstr()` (Instrumentation.cpp:553-576): an event is the first instruction in a header. -/
def iterInstr (L : Lp) (g : Graph) : Graph :=
  { g with events := fun u => if u = L.header then .iter L.header :: g.events u else g.events u }

/-- Instrumentation of a loop (Instrumentation.cpp:583-587). -/
def instr (g : Graph) (L : Lp) : Graph := iterInstr L (endInstr L (beginInstr L g))

/-- A tree of loops (`LoopInfo`). -/
inductive LTree
  | node (l : Lp) (subs : List LTree)

mutual
/-- Order of loops in `for_each_loop()` (include/tsar/Support/IRUtils.h:80-98): a loop, then its inner loops in reverse order. -/
def visit : LTree → List Lp
  | .node l subs => l :: visitAll subs

/-- Loops are visited in reverse order. -/
def visitAll : List LTree → List Lp
  | [] => []
  | t :: ts => visitAll ts ++ visit t
end

/-- `regLoops()` (Instrumentation.cpp:578-589). -/
def regLoops (ts : List LTree) (g : Graph) : Graph := (visitAll ts).foldl instr g

end Tsar.Instrument
