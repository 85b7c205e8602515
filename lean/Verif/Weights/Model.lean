import Mathlib.Data.List.Basic
import Mathlib.Tactic.SplitIfs

/-!
# Model of estimation of weights of functions and loops

Models lib/Analysis/Reader/RegionWeights.cpp.

Simplifications.
* Costs of instructions are natural numbers (`TargetTransformInfo` is external), `InstructionCost` and counters do not
  overflow, except for the number of calls of a function which is stored in a variable with 32 bits.
* An undefined operation (division by zero, an access to an element outside of an array) is `none`.
* Components of a call graph are given in the order of `scc_iterator`.
-/

namespace Tsar.Weights

/-- `coverage::CoverageSegment`: a start of a segment and a number of executions. -/
structure Seg where
  line : Nat
  col : Nat
  count : Nat
  deriving DecidableEq, Repr

/-- A position in a file. -/
abbrev Pos := Nat × Nat

/-- Comparison of a start of a segment with a position (RegionWeights.cpp:72-73, 80-81). -/
def starts (s : Seg) (p : Pos) : Bool := s.line < p.1 || (s.line == p.1 && s.col ≤ p.2)

/-- Binary search in a range of segments (RegionWeights.cpp:75-85). The first parameter bounds a number of steps. -/
def search (p : Pos) : Nat → List Seg → Option Nat
  | 0, _ => none
  | n + 1, w =>
    if w.length = 1 then w[0]?.map Seg.count
    else
      match w[w.length / 2]? with
      | none => none
      | some h => if starts h p then search p n (w.drop (w.length / 2)) else search p n (w.take (w.length / 2))

/-- `getExecutionCount()` (RegionWeights.cpp:64-87). -/
def executionCount (xs : List Seg) : Option Pos → Option Nat
  | none => some 0
  | some p =>
    match xs with
    | [] => some 0
    | x :: _ => if starts x p then search p (xs.length + 1) xs else some 0

/-- A function (`llvm::Function *`), functions are numbered. -/
abbrev Fn := Nat

/-- What an instruction calls: nothing or a debug or memory marker intrinsic, a known function, an unknown function. -/
inductive Callee
  | none
  | direct (f : Fn)
  | indirect
  deriving DecidableEq, Repr

/-- An instruction: a source position, a cost and a callee. It simplifies `llvm::Instruction`, the cost is given by
`TargetTransformInfo`. -/
structure Inst where
  pos : Option Pos
  cost : Nat
  callee : Callee
  deriving DecidableEq, Repr

/-- A loop: an identifier, a parent (which may have no identifier), instructions of a header and of the whole loop. -/
structure Lp where
  id : Option Nat
  parent : Option (Option Nat)
  header : List Inst
  insts : List Inst
  deriving DecidableEq, Repr

/-- `coverage::FunctionRecord`: a number of calls and segments. -/
structure Rec where
  calls : Nat
  segs : List Seg
  deriving DecidableEq, Repr

/-- Loops are listed in the order of `for_each_loop`: a parent is before its children (IRUtils.h:82-98). -/
structure Func where
  defined : Bool
  builtin : Bool
  profile : Option Rec
  insts : List Inst
  loops : List Lp
  deriving DecidableEq, Repr

/-- `GlobalOptions`: weights of unknown functions. -/
structure Opts where
  unknown : Nat
  unknownBuiltin : Nat

/-- `mSelfWeights` for functions. -/
abbrev Self := Fn → Option Nat

/-- A weight which is added for a callee (RegionWeights.cpp:107-123). -/
def calleeWeight (o : Opts) (fs : Fn → Func) (m : Self) : Callee → Nat
  | .none => 0
  | .direct f =>
    match m f with
    | some w => w
    | none => if (fs f).builtin then o.unknownBuiltin else o.unknown
  | .indirect => o.unknown

/-- `getWeight()` (RegionWeights.cpp:99-126): a weight of a single execution and of all executions. -/
def weight (o : Opts) (fs : Fn → Func) (m : Self) (xs : List Seg) (i : Inst) : Option (Nat × Nat) :=
  match executionCount xs i.pos with
  | none => none
  | some c => some (i.cost + calleeWeight o fs m i.callee, (i.cost + calleeWeight o fs m i.callee) * c)

/-- A sum of total weights (RegionWeights.cpp:170-177, 206-208). -/
def total (o : Opts) (fs : Fn → Func) (m : Self) (xs : List Seg) : List Inst → Option Nat
  | [] => some 0
  | i :: is =>
    match weight o fs m xs i, total o fs m xs is with
    | some w, some t => some (w.2 + t)
    | _, _ => none

/-- `AssumedEntryCount` (RegionWeights.cpp:178-180): a number of calls is truncated. -/
def assumed (n : Nat) : Nat := if n > 0 then n % 2 ^ 32 else 1

/-- Division is undefined if a divisor is zero. -/
def divide (a b : Nat) : Option Nat := if b = 0 then none else some (a / b)

/-- `getLoopExecutionCount()` (RegionWeights.cpp:89-97). -/
def loopCount (xs : List Seg) : List Inst → Option Nat
  | [] => some 0
  | i :: is =>
    match executionCount xs i.pos with
    | none => none
    | some c => if c > 0 then some c else loopCount xs is

/-- Weights of a loop: total weight, total iterations, self weight and self iterations. -/
structure LW where
  total : Nat
  iters : Nat
  self : Nat
  selfIters : Nat
  deriving DecidableEq, Repr

/-- `mLoopTotalWeights` and `mLoopSelfWeights`. -/
abbrev LMap := Nat → Option LW

/-- `ParentTotalIterations` (RegionWeights.cpp:199-203). -/
def parentIters (entry : Nat) (lm : LMap) (l : Lp) : Nat :=
  match l.parent with
  | some (some p) => ((lm p).map LW.iters).getD 0
  | _ => entry

/-- Weights of a loop (RegionWeights.cpp:204-212). -/
def loopWeight (o : Opts) (fs : Fn → Func) (m : Self) (xs : List Seg) (entry : Nat) (lm : LMap) (l : Lp) : Option LW :=
  match total o fs m xs l.insts, loopCount xs l.header with
  | some t, some c =>
    match divide t (parentIters entry lm l), divide c (parentIters entry lm l) with
    | some s, some k => some ⟨t, c, s, k⟩
    | _, _ => none
  | _, _ => none

/-- Processing of all loops of a function (RegionWeights.cpp:194-219), `try_emplace` does not replace a value. -/
def loops (o : Opts) (fs : Fn → Func) (m : Self) (xs : List Seg) (entry : Nat) : List Lp → LMap → Option LMap
  | [], lm => some lm
  | l :: ls, lm =>
    match l.id with
    | none => loops o fs m xs entry ls lm
    | some i =>
      match loopWeight o fs m xs entry lm l with
      | none => none
      | some w => loops o fs m xs entry ls (fun j => if j = i then some ((lm i).getD w) else lm j)

/-- Results: total weights and self weights of functions, weights of loops. -/
structure State where
  self : Self
  total : Self
  lm : LMap

/-- Processing of a function (RegionWeights.cpp:156-219). Weights of instructions are stored before weights of the function,
so they do not depend on its own weight. -/
def func (o : Opts) (fs : Fn → Func) (f : Fn) (s : State) : Option State :=
  if !(fs f).defined then some s
  else
    match (fs f).profile with
    | none => some s
    | some r =>
      match total o fs s.self r.segs (fs f).insts with
      | none => none
      | some t =>
        match divide t (assumed r.calls) with
        | none => none
        | some w =>
          let self := fun g => if g = f then some ((s.self f).getD w) else s.self g
          match loops o fs s.self r.segs (assumed r.calls) (fs f).loops s.lm with
          | none => none
          | some lm => some ⟨self, fun g => if g = f then some ((s.total f).getD t) else s.total g, lm⟩

/-- Processing of functions of a component. -/
def comp (o : Opts) (fs : Fn → Func) : List Fn → State → Option State
  | [], s => some s
  | f :: c, s => (func o fs f s).bind (comp o fs c)

/-- `runOnModule()` (RegionWeights.cpp:128-222): components with cycles are skipped. -/
def run (o : Opts) (fs : Fn → Func) : List (List Fn × Bool) → State → Option State
  | [], s => some s
  | (c, cyclic) :: cs, s => if cyclic then run o fs cs s else (comp o fs c s).bind (run o fs cs)

/-- The initial state. -/
def init : State := ⟨fun _ => none, fun _ => none, fun _ => none⟩

end Tsar.Weights
