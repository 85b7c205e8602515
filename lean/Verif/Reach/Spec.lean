import Verif.Reach.Model
import Verif.MemSet.Spec
import Verif.Graph.Spec

/-!
# Specification of reaching definitions and live memory

A program is given by executions of nodes of a region; an execution is a sequence of accesses to
bytes. A byte is given by a base pointer and an offset; different base pointers mean different
objects.
-/

namespace Tsar.Reach

open Tsar.Range Tsar.MemSet Tsar.DFValue Tsar.DataFlow

variable {N : Type}

/-- An access to a byte. -/
inductive Access where
  | read (p : Option Nat) (b : Nat)
  | write (p : Option Nat) (b : Nat)

/-- An execution is a finite sequence of accesses. -/
abbrev Trace := List Access

/-- The byte is written. -/
def Written (t : Trace) (p : Option Nat) (b : Nat) : Prop := Access.write p b ∈ t

/-- The byte is read before it is written, i.e. the value comes from the outside. -/
def Exposed (t : Trace) (p : Option Nat) (b : Nat) : Prop :=
  ∃ t1 t2, t = t1 ++ Access.read p b :: t2 ∧ ¬ Written t1 p b

/-- A byte of a location which is not a hint. Hints are auxiliary locations which are added by
`collapse()` in addition to locations which describe accesses. -/
def RealByte (s : MSet) (p : Option Nat) (b : Nat) : Prop :=
  ∃ l ∈ allLocs s, l.kind.hint = false ∧ l.ptr = p ∧ MemSet.Reach l b

/-- A def-use set is a correct summary of an execution: must defined bytes are written, all
written bytes are must or may defined and all bytes which obtain values from the outside are used. -/
structure Fits (du : DefUse) (t : Trace) : Prop where
  defs : ∀ p b, SetByte du.defs p b → Written t p b
  mayDefs : ∀ p b, Written t p b → SetByte du.defs p b ∨ SetByte du.mayDefs p b
  uses : ∀ p b, Exposed t p b → SetByte du.uses p b

/-- The same if hints are ignored in sets of may defined and used locations. -/
structure FitsReal (du : DefUse) (t : Trace) : Prop where
  defs : ∀ p b, SetByte du.defs p b → Written t p b
  mayDefs : ∀ p b, Written t p b → RealByte du.defs p b ∨ RealByte du.mayDefs p b
  uses : ∀ p b, Exposed t p b → RealByte du.uses p b

/-- An execution along a path from the entry of a region which ends in the node `n` (inclusively). The
relation `T` gives possible executions of nodes; the entry and the exit are empty. -/
inductive Exec (R : Region N) (T : N → Trace → Prop) : N → Trace → Prop where
  | entry : Exec R T R.entry []
  | node {m n : N} {t u : Trace} : Exec R T m t → m ∈ R.preds n → n ≠ R.exit → T n u →
      Exec R T n (t ++ u)
  | exit {m : N} {t : Trace} : Exec R T m t → m ∈ R.preds R.exit → Exec R T R.exit t

/-- An execution along a path from the entry to the node `n` (exclusively). -/
def ExecTo (R : Region N) (T : N → Trace → Prop) (n : N) (t : Trace) : Prop :=
  ∃ m ∈ R.preds n, Exec R T m t

/-- An execution of a path from the node `n` (inclusively) to the exit of a region. -/
inductive ExecFrom (R : Region N) (T : N → Trace → Prop) : N → Trace → Prop where
  | exit : ExecFrom R T R.exit []
  | node {m n : N} {t u : Trace} : ExecFrom R T m t → m ∈ R.succs n → n ≠ R.entry → T n u →
      ExecFrom R T n (u ++ t)
  | entry {m : N} {t : Trace} : ExecFrom R T m t → m ∈ R.succs R.entry → ExecFrom R T R.entry t

/-- An execution of a path from the node `n` (inclusively) to the node `m` (exclusively). -/
inductive ExecUntil (R : Region N) (T : N → Trace → Prop) (m : N) : N → Trace → Prop where
  | stop : ExecUntil R T m m []
  | node {n k : N} {t u : Trace} : ExecUntil R T m k t → k ∈ R.succs n → n ≠ R.entry → T n u →
      ExecUntil R T m n (u ++ t)

/-- An execution of a region as a whole: some iterations from the entry to the latch followed by a
path from the entry to the exit; there are no iterations if the region is not a loop. The number of
completed iterations is the first parameter. -/
inductive Whole (R : Region N) (T : N → Trace → Prop) : Nat → Trace → Prop where
  | leave {t : Trace} : Exec R T R.exit t → Whole R T 0 t
  | iter {l : N} {k : Nat} {t u : Trace} : R.latch = some l → Exec R T l t → Whole R T k u →
      Whole R T (k + 1) (t ++ u)

/-- Locations in def-use sets are well-formed. -/
structure DefUse.Wf (ob : Option Nat → Obj) (du : DefUse) : Prop where
  defs : SetWf ob du.defs
  mayDefs : SetWf ob du.mayDefs
  uses : SetWf ob du.uses
  explicit : SetWf ob du.explicit

/-- A finite region without cycles: edges are listed in both directions, there are no edges to the
entry and from the exit, all nodes (listed in `all`) are reachable from the entry. -/
structure Acyclic (R : Region N) (all : List N) : Prop where
  inverse : ∀ a b, b ∈ R.succs a ↔ a ∈ R.preds b
  entry : R.preds R.entry = []
  exit : R.succs R.exit = []
  reach : ∀ n, Graph.Reach R.succs R.entry n → n ∈ all
  pred : ∀ n m, Graph.Reach R.succs R.entry n → m ∈ R.preds n → Graph.Reach R.succs R.entry m
  acyclic : ¬ Graph.HasCycle R.succs R.entry

/-- The same in the opposite direction: the exit is reachable from successors of each node. -/
structure AcyclicBack (R : Region N) (all : List N) : Prop where
  inverse : ∀ a b, b ∈ R.succs a ↔ a ∈ R.preds b
  exit : R.succs R.exit = []
  reach : ∀ n, Graph.Reach R.preds R.exit n → n ∈ all
  succ : ∀ n m, Graph.Reach R.preds R.exit n → m ∈ R.succs n → Graph.Reach R.preds R.exit m
  acyclic : ¬ Graph.HasCycle R.preds R.exit

end Tsar.Reach
