/-!
# Model of an entry point of an instrumented program (lib/Transform/Mixed/Instrumentation.cpp)

Selection of functions which are instrumented, registration of types and initialization of instrumented modules.
Identifiers are natural numbers: additions in the generated code are marked as `nuw`, overflow of 64-bit identifiers is not modelled.
Functions and modules are numbers (positions in a module and in a list of modules).
-/

namespace Tsar.InstrEntry

/-! ### Functions to instrument -/

/-- An edge of a call graph: a call of a known function, a call of a function which is casted to another type (the edge leads to the
node which represents external functions but the callee is known from the call), a call of an unknown function. -/
inductive Call
  | direct (g : Nat)
  | cast (g : Nat)
  | unknown
  deriving DecidableEq, Repr

/-- An iteration of a loop over edges (Instrumentation.cpp:194-208). If a callee is casted then `*Callee.second` is the node without
edges which represents external functions. `rec` is a recursive call. -/
def addCall (cg : Nat → List Call) (rec : List Call → List Nat → List Nat) (T : List Nat) : Call → List Nat
  | .direct g => if g ∈ T then T else rec (cg g) (g :: T)
  | .cast g => if g ∈ T then T else rec [] (g :: T)
  | .unknown => T

/-- `collectCallee()` (Instrumentation.cpp:192-210) for a node with a given list of edges. The first argument bounds the depth of
recursion. -/
def collect (cg : Nat → List Call) : Nat → List Call → List Nat → List Nat
  | 0, _, T => T
  | k + 1, calls, T => calls.foldl (addCall cg (collect cg k)) T

/-- An iteration of a loop over names in `excludeFunctions()` (Instrumentation.cpp:217-228), `none` is a name of an unknown function.
Each recursive call of `collectCallee()` inserts a function, so the number of functions bounds the depth. -/
def addStart (cg : Nat → List Call) (n : Nat) (T : List Nat) : Option Nat → List Nat
  | none => T
  | some f => collect cg (n + 1) (cg f) (if f ∈ T then T else f :: T)

/-- A loop over names in `excludeFunctions()` (Instrumentation.cpp:217-228). -/
def collectAll (cg : Nat → List Call) (n : Nat) (starts : List (Option Nat)) : List Nat := starts.foldl (addStart cg n) []

/-- `excludeFunctions()` (Instrumentation.cpp:212-233): functions which are marked with `sapfor.da.ignore`. -/
def exclude (cg : Nat → List Call) (n : Nat) (starts : List (Option Nat)) : List Nat :=
  if starts = [] then [] else (List.range n).filter fun f => f ∉ collectAll cg n starts

/-! ### Initialization of modules -/

/-- A metadata string: its content and a local identifier of a type (`vtype`, Instrumentation.cpp:1134-1138). -/
structure DIStr where
  tag : Nat
  vtype : Option Nat
  deriving DecidableEq, Repr

/-- An instrumented module: `sapfor.da` metadata is available, a register of types in the order of a container (a local identifier
and a size of a type), calls of `init_di` (an index and a string), a number of registered strings. -/
structure Mod where
  da : Bool
  types : List (Nat × Nat)
  strings : List (Nat × DIStr)
  pool : Nat
  deriving DecidableEq, Repr

/-- Calls of a library which are executed at the beginning of a program. -/
inductive Ev
  | allocatePool (size : Nat)
  | initDI (idx : Nat) (str : DIStr) (offset : Nat)
  | declTypes (types : List (Nat × Nat))
  deriving DecidableEq, Repr

/-- A loop which is generated by `regTypes()` (Instrumentation.cpp:965-982): a condition is checked after an iteration. -/
def relocLoop (start size : Nat) (c : Nat) (ids : List Nat) : List Nat :=
  let ids' := ids.modify c (· + start)
  if c + 1 < size then relocLoop start size (c + 1) ids' else ids'
termination_by size - c

/-- A call of `sapfor.register.type` (Instrumentation.cpp:922-990). -/
def regTypes (m : Mod) (start : Nat) : List Ev :=
  [.declTypes ((relocLoop start m.types.length 0 (m.types.map Prod.fst)).zip (m.types.map Prod.snd))]

/-- `sapfor.init.module` (Instrumentation.cpp:1265-1312): events and a free identifier. -/
def initModule (m : Mod) (start : Nat) : List Ev × Nat :=
  (m.strings.map (fun s => .initDI s.1 s.2 start) ++ regTypes m start, start + m.types.length)

/-- Calls of `sapfor.init.module` (Instrumentation.cpp:1329-1336). -/
def initAll : List Mod → Nat → List Ev
  | [], _ => []
  | m :: ms, start => (initModule m start).1 ++ initAll ms (initModule m start).2

/-- `visitEntryPoint()` (Instrumentation.cpp:1236-1337): calls at the beginning of an entry point. Modules without metadata are
ignored. There is no `sapfor.register.type` if there are no types (Instrumentation.cpp:923-924), this is a fatal error (1295-1299). -/
def visitEntryPoint (mods : List Mod) : Option (List Ev) :=
  let ms := mods.filter Mod.da
  if ms.all fun m => m.types ≠ [] then some (.allocatePool (ms.map Mod.pool).sum :: initAll ms 0) else none

/-! ### Names of initialization functions -/

/-- `std::numeric_limits<unsigned>::max()`. -/
def uMax : Nat := 2 ^ 32 - 1

/-- `findAvailableSuffix()` for a single module (Instrumentation.cpp:1209-1217). `names` contains suffixes which are already in use.
A suffix is always less than `uMax`. -/
def freeSuffix (names : List Nat) (s : Nat) : Option Nat :=
  if s ∈ names then (if uMax ≤ s + 1 then none else freeSuffix names (s + 1)) else some s
termination_by uMax - s

/-- A loop over other modules (Instrumentation.cpp:1226-1232). -/
def freeOthers (i : Nat) : List (List Nat × Nat) → Nat → Option Nat
  | [], s => some s
  | (names, j) :: ms, s => if j = i then freeOthers i ms s else (freeSuffix names s).bind (freeOthers i ms)

/-- `findAvailableSuffix()` for a list of modules (Instrumentation.cpp:1221-1234). -/
def freeAll (i : Nat) (mods : List (List Nat)) (s : Nat) : Option Nat :=
  (freeSuffix (mods.getD i []) s).bind (freeOthers i mods.zipIdx)

/-- Suffixes of initialization functions of modules from a list of positions (Instrumentation.cpp:1245-1271). A created function
occupies its name in its module. -/
def assign : List Nat → Nat → List (List Nat) → Option (List Nat)
  | [], _, _ => some []
  | i :: is, s, mods =>
    (freeAll i mods s).bind fun s' => (assign is s' (mods.modify i (s' :: ·))).map (s' :: ·)

end Tsar.InstrEntry
