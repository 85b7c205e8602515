/-!
# Transfers of data around accesses to memory on a host

Model of directives which are added to instructions by `DVMHDataTransferIPOPass::optimizeGlobalOut()`
(lib/Transform/Clang/DVMHDataTransferIPO.cpp:750-1234): lambdas `addGetActualIf`, `addTransferToWrite` and `processBB`,
and of directives at the entry to a function and at the exits from it (lines 1055-1126). They replace directives which
surround regions executed on a device.

Simplifications.
* Interprocedural optimization of callees is not active, so `initPragmaData` (lines 792-843) adds all variables.
* A level of hierarchy, which determines what is replaced by created directives, is not modelled (see
  `Verif/DvmhData`): directives are created for all instructions of a function.
* A directive is represented by a list of its variables. Directives with `OnEntry` are executed before an instruction,
  other directives are executed after it.
* A function is not an entry point of a program: conservative directives are omitted for it (lines 1128-1130).
-/

namespace Tsar.DvmhCoherent

abbrev Var := Nat

/-- Metadata-level alias nodes. -/
abbrev Node := Nat

abbrev Loc := Nat

/-- An element of `RegionDataCache`: an alias node and variables (`DIAliasNode`, `VariableT`). -/
structure Data where
  node : Node
  vars : List Var
  deriving DecidableEq, Repr

/-- `mToActual`, `mToGetActual` and `ServerSTR.isUnreachable()`. A variable is `outer` if it is a global variable, a
parameter or it has no description (DVMHDataTransferIPO.cpp:1066-1083). -/
structure Ctx where
  toActual : List Data
  toGetActual : List Data
  unreach : Node → Node → Bool
  outer : Var → Bool

/-- An access to memory as it is seen by `for_each_memory()` (DVMHDataTransferIPO.cpp:921-1012). `nodes` is an alias node of
accessed memory or all distinct memory if metadata are not available (lines 941-949, 992-1000). `induction` is the
result of `anyLoopPostDominates` (lines 953-964): memory is an induction variable of a parallel loop which post-dominates
the access. -/
structure Access where
  nodes : List Node
  read : Bool
  write : Bool
  induction : Bool := false
  deriving DecidableEq, Repr

/-- Directives for an instruction: `InsertedGetActuals`, variables of `get_actual` and `actual`. -/
structure Dirs where
  inserted : List Node := []
  getActual : List Var := []
  actual : List Var := []
  deriving DecidableEq, Repr

/-- A body of the loop in `addGetActualIf` (DVMHDataTransferIPO.cpp:867-873). -/
def addGet (c : Ctx) (n : Node) (s : Dirs) (d : Data) : Dirs :=
  if d.node ∈ s.inserted || c.unreach n d.node then s
  else { s with inserted := d.node :: s.inserted, getActual := s.getActual ++ d.vars }

/-- `addGetActualIf` (DVMHDataTransferIPO.cpp:844-874). The check at the beginning (lines 850-859) only prevents creation of
an empty directive. -/
def addGetActualIf (c : Ctx) (n : Node) (s : Dirs) : Dirs := c.toGetActual.foldl (addGet c n) s

/-- A body of the loop in `addTransferToWrite` (DVMHDataTransferIPO.cpp:896-902). -/
def addActual (c : Ctx) (n : Node) (s : Dirs) (d : Data) : Dirs :=
  if c.unreach n d.node then s
  else addGetActualIf c d.node { s with actual := s.actual ++ d.vars }

/-- `addTransferToWrite` (DVMHDataTransferIPO.cpp:875-905). -/
def addTransferToWrite (c : Ctx) (n : Node) (s : Dirs) : Dirs := c.toActual.foldl (addActual c n) s

/-- Process a node of accessed memory (DVMHDataTransferIPO.cpp:943-946, 973-976, 1007-1011). -/
def processNode (c : Ctx) (a : Access) (s : Dirs) (n : Node) : Dirs :=
  let s := if a.write then addTransferToWrite c n s else s
  if a.read then addGetActualIf c n s else s

/-- Process an access (DVMHDataTransferIPO.cpp:928-977, 981-1011): if an induction variable is written then nothing else is
done, even if it is also read. -/
def processAccess (c : Ctx) (s : Dirs) (a : Access) : Dirs :=
  if a.write && a.induction then s else a.nodes.foldl (processNode c a) s

/-- Directives for an instruction (DVMHDataTransferIPO.cpp:914-1013). -/
def process (c : Ctx) (as : List Access) : Dirs := as.foldl (processAccess c) {}

/-- Variables of `get_actual` before the exit from a function (DVMHDataTransferIPO.cpp:1065-1083, 1108-1126). -/
def exitVars (c : Ctx) : List Var := (c.toGetActual.flatMap Data.vars).filter c.outer

/-- Variables of `actual` at the entry to a function (DVMHDataTransferIPO.cpp:1065-1083, 1093-1105). -/
def entryVars (c : Ctx) : List Var := (c.toActual.flatMap Data.vars).filter c.outer

/-- Directives around a call. Final directives are always executed, other directives may be replaced later. -/
structure Around where
  actualFinal : List Var := []
  actualOpt : List Var := []
  getFinal : List Var := []
  getOpt : List Var := []
  deriving DecidableEq, Repr

/-- `sortMemory` (DVMHDataTransferIPO.cpp:478-502): final variables and variables which may be optimized. Only global
variables are listed, `findDIM` is the identity. -/
def sortMemory (from_ : List (List Var)) (toOptimize : Var → Bool) (isFinal : Bool) : List Var × List Var :=
  (from_.flatten.filter fun v => isFinal || !toOptimize v, from_.flatten.filter fun v => !isFinal && toOptimize v)

/-- `collectInCallee` (DVMHDataTransferIPO.cpp:472-543). `actuals` and `gets` are directives at the entry to a callee and
at its exits. Note, that `actuals` are also used to build directives after a call (line 532). -/
def collectInCallee (active : Bool) (actuals gets : List (List Var)) (toActual toGetActual : Var → Bool)
    (isFinal : Bool) : Around :=
  if !active then {} else
  let a := if actuals.isEmpty then {} else
    let r := sortMemory actuals toActual isFinal
    ({ actualFinal := r.1, actualOpt := r.2 } : Around)
  if gets.isEmpty then a else
  let r := sortMemory actuals toGetActual isFinal
  { a with getFinal := r.1, getOpt := r.2 }

/-! ### Semantics of directives

DVMH runtime is not a part of sources. Its documented behaviour is described: for each element it is known whether host
and device copies are up to date. -/

variable {Val : Type}

/-- Copies of memory on a host and on a device and marks of copies which are up to date. -/
structure Mach (Val : Type) where
  host : Loc → Val
  dev : Loc → Val
  hv : Loc → Bool
  dv : Loc → Bool

/-- An element belongs to one of variables. -/
def inVars (covers : Var → Loc → Bool) (vs : List Var) (l : Loc) : Bool := vs.any (covers · l)

/-- `actual(vs)`: copies of variables on a host are up to date, other copies are not. -/
def Mach.actual (covers : Var → Loc → Bool) (vs : List Var) (m : Mach Val) : Mach Val :=
  { m with hv := fun l => inVars covers vs l || m.hv l, dv := fun l => !inVars covers vs l && m.dv l }

/-- `get_actual(vs)`: copies on a host become up to date. -/
def Mach.getActual (covers : Var → Loc → Bool) (vs : List Var) (m : Mach Val) : Mach Val :=
  { m with
    host := fun l => if inVars covers vs l && !m.hv l then m.dev l else m.host l
    hv := fun l => inVars covers vs l || m.hv l }

/-- A region obtains input variables on a device. -/
def Mach.enter (covers : Var → Loc → Bool) (ins : List Var) (m : Mach Val) : Mach Val :=
  { m with
    dev := fun l => if inVars covers ins l && !m.dv l then m.host l else m.dev l
    dv := fun l => inVars covers ins l || m.dv l }

/-- After a region copies of output variables on a device are up to date. -/
def Mach.leave (covers : Var → Loc → Bool) (outs : List Var) (m : Mach Val) : Mach Val :=
  { m with hv := fun l => !inVars covers outs l && m.hv l, dv := fun l => inVars covers outs l || m.dv l }

/-- Sequential writes. -/
def store (ws : List (Loc × Val)) (mem : Loc → Val) : Loc → Val :=
  ws.foldl (fun mem w => fun l => if l = w.1 then w.2 else mem l) mem

/-- A step of a program: an instruction on a host or a region. `reads` are read elements, `f` computes written values. -/
inductive Step (Val : Type)
  | instr (accs : List Access) (reads : List Loc) (f : List Val → List (Loc × Val))
  | region (ins outs : List Var) (reads : List Loc) (f : List Val → List (Loc × Val))

/-- Execution of a step with a single memory: the result is memory and read values. -/
def Step.ref (mem : Loc → Val) : Step Val → (Loc → Val) × List Val
  | .instr _ reads f => (store (f (reads.map mem)) mem, reads.map mem)
  | .region _ _ reads f => (store (f (reads.map mem)) mem, reads.map mem)

/-- Execution of a step with two memories and created directives. -/
def Step.exec (c : Ctx) (covers : Var → Loc → Bool) (m : Mach Val) : Step Val → Mach Val × List Val
  | .instr accs reads f =>
    let d := process c accs
    let m := m.getActual covers d.getActual
    let vals := reads.map m.host
    (({ m with host := store (f vals) m.host } : Mach Val).actual covers d.actual, vals)
  | .region ins outs reads f =>
    let m := m.enter covers ins
    let vals := reads.map m.dev
    (({ m with dev := store (f vals) m.dev } : Mach Val).leave covers outs, vals)

/-- Execution of steps with a single memory. -/
def refRun (mem : Loc → Val) : List (Step Val) → (Loc → Val) × List (List Val)
  | [] => (mem, [])
  | s :: ss => let r := refRun (s.ref mem).1 ss; (r.1, (s.ref mem).2 :: r.2)

/-- Execution of steps with two memories. -/
def run (c : Ctx) (covers : Var → Loc → Bool) (m : Mach Val) : List (Step Val) → Mach Val × List (List Val)
  | [] => (m, [])
  | s :: ss => let r := run c covers (s.exec c covers m).1 ss; (r.1, (s.exec c covers m).2 :: r.2)

/-- Execution of a function: `actual(acts)` is executed before its body, `get_actual(gets)` is executed after it. -/
def around (c : Ctx) (covers : Var → Loc → Bool) (acts gets : List Var) (m : Mach Val) (ss : List (Step Val)) :
    Mach Val × List (List Val) :=
  let r := run c covers (m.actual covers acts) ss
  (r.1.getActual covers gets, r.2)

/-- Execution of a function with directives at the entry and at exits. -/
def call (c : Ctx) (covers : Var → Loc → Bool) (m : Mach Val) (ss : List (Step Val)) : Mach Val × List (List Val) :=
  around c covers (entryVars c) (exitVars c) m ss

end Tsar.DvmhCoherent
