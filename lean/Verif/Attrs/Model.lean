/-!
# Attributes of functions and loops

Models `lib/Transform/IR/InterprocAttr.cpp` (attributes which are deduced for functions and loops) and
`lib/Analysis/Memory/GlobalsAccess.cpp` (global variables which are accessed in functions).
-/

namespace Tsar
namespace Attrs

/-- Traits of `llvm::Function` which are used to deduce attributes: `isIntrinsic()`, `isDbgInfoIntrinsic()`,
`TargetLibraryInfo::getLibFunc()`, `isIOLibFuncName()`, `isDeclaration()` (it is the same as `empty()`), `WillReturn`,
`NoReturn`, `NoUnwind` and `ReturnsTwice` attributes, `onlyAccessesArgMemory()`. -/
structure Fn where
  intrinsic : Bool := false
  dbg : Bool := false
  lib : Bool := false
  io : Bool := false
  decl : Bool := false
  willReturn : Bool := false
  noReturn : Bool := false
  noUnwind : Bool := false
  returnsTwice : Bool := false
  argMemOnly : Bool := false

/-- `llvm::CallGraph`. There is no function for special nodes which represent unknown callers and callees. -/
structure CG where
  fn : Nat → Option Fn
  calls : Nat → List Nat

/-- A set of functions with an attribute. -/
abbrev Set := Nat → Bool

/-- `addFnAttr()` for functions in a list. -/
def addAll (A : Set) (l : List Nat) : Set := fun n => A n || l.contains n

/-! ## Attributes which are propagated from callees to callers -/

/-- Functions called from a strongly connected component which are not in the component (`mCalleeFuncs`,
InterprocAttr.cpp:216-230). There is no result if some of nodes in the component, or some of callees, is not a function:
attributes are not added in this case. -/
def callees (G : CG) (scc : List Nat) : Option (List Nat) :=
  if scc.all fun n => (G.fn n).isSome then
    let to := scc.flatMap G.calls
    if to.all fun n => (G.fn n).isSome then some (to.filter fun n => !scc.contains n) else none
  else none

/-- A check of a function in `addNoIOAttr()` (InterprocAttr.cpp:248-262). -/
def okNoIO (f : Fn) : Bool := f.intrinsic || !((f.lib && f.io) || (!f.lib && f.decl))

/-- A check of a function in `addDirectUserCalleeAttr()` (InterprocAttr.cpp:271-278): bodies of both conditions only
contain `continue`. -/
def okDirect (f : Fn) : Bool := if f.intrinsic then true else if f.lib then true else true

/-- A check of a function in `addAlwaysReturnAttr()` (InterprocAttr.cpp:287-293), `libFunc` is the `sapfor.libfunc`
attribute. -/
def okReturn (libFunc : Bool) (f : Fn) : Bool := !(!f.willReturn && (f.noReturn || (f.decl && !f.intrinsic && !libFunc)))

/-- `add...Attr()` (InterprocAttr.cpp:247-299): all functions in the component are suitable and all callees have the
attribute. -/
def deduced (G : CG) (ok : Nat → Fn → Bool) (scc cs : List Nat) (A : Set) : Bool :=
  (scc.all fun n => match G.fn n with | some f => ok n f | none => true) && cs.all A

/-- `runOnSCC()` for a single kind of attributes (InterprocAttr.cpp:206-245). Intrinsics with debug information are
excluded from the graph, so they are processed separately. -/
def runOnSCC (G : CG) (ok : Nat → Fn → Bool) (A : Set) (scc : List Nat) : Set :=
  let A' : Set := fun n => A n || (match G.fn n with | some f => f.dbg | none => false)
  match callees G scc with
  | none => A'
  | some cs => if deduced G ok scc cs A' then addAll A' scc else A'

/-- The pass is executed for each component in post-order (`CallGraphSCCPass`). -/
def runPO (G : CG) (ok : Nat → Fn → Bool) (sccs : List (List Nat)) (A : Set) : Set := sccs.foldl (runOnSCC G ok) A

/-- The `sapfor.noio` attribute. -/
def noIO (G : CG) (sccs : List (List Nat)) : Set := runPO G (fun _ => okNoIO) sccs fun _ => false

/-- The `sapfor.alwaysreturn` attribute. -/
def alwaysReturn (G : CG) (libFunc : Set) (sccs : List (List Nat)) : Set :=
  runPO G (fun n => okReturn (libFunc n)) sccs fun _ => false

/-- The `sapfor.direct-user-callee` attribute. -/
def direct (G : CG) (sccs : List (List Nat)) : Set := runPO G (fun _ => okDirect) sccs fun _ => false

/-! ## Library functions -/

/-- Functions in a component which are added to the worklist (InterprocAttr.cpp:172-182). -/
def funcs (G : CG) (scc : List Nat) : List Nat :=
  scc.filter fun n => match G.fn n with | some f => !f.intrinsic | none => false

/-- There is a function which is known by `TargetLibraryInfo` (InterprocAttr.cpp:180-181). -/
def hasLib (G : CG) (scc : List Nat) : Bool :=
  (funcs G scc).any fun n => match G.fn n with | some f => f.lib | none => false

/-- The first part of `RPOFunctionAttrsAnalysis` (InterprocAttr.cpp:169-186). -/
def libInit (G : CG) (sccs : List (List Nat)) : Set :=
  sccs.foldl (fun A scc => if hasLib G scc then addAll A (funcs G scc) else A) fun _ => false

/-- `addLibFuncAttrsTopDown()` (InterprocAttr.cpp:118-128): `users` are functions which contain calls such that the
function is one of their operands. -/
def libTopDown (users : Nat → List Nat) (A : Set) (n : Nat) : Set := if (users n).any A then addAll A [n] else A

/-- The `sapfor.libfunc` attribute (InterprocAttr.cpp:169-190). -/
def libFunc (G : CG) (users : Nat → List Nat) (sccs : List (List Nat)) : Set :=
  (sccs.flatMap (funcs G)).reverse.foldl (libTopDown users) (libInit G sccs)

/-! ## Functions which are not called directly -/

/-- A user of a value: a call with a called operand and arguments, a cast of a value (with users of the cast), something
else. Operands which are equal to the value are specified only. -/
inductive User where
  | call (callee : Bool) (args : Nat)
  | bitcast (users : List User)
  | other

mutual
/-- Users of a value, casts are replaced with their users (InterprocAttr.cpp:148-160). -/
def expand : User → List User
  | .bitcast us => expandAll us
  | u => [u]
/-- Users of all casts. -/
def expandAll : List User → List User
  | [] => []
  | u :: us => expand u ++ expandAll us
end

/-- `isa<CallBase>` (InterprocAttr.cpp:161-166). -/
def User.isCall : User → Bool
  | .call _ _ => true
  | _ => false

/-- The `sapfor.indirect-call` attribute (InterprocAttr.cpp:146-168): some of users is not a call. There are no casts in
the list after it has been expanded. -/
def indirectCall (users : List User) : Bool := users.any fun u => (expand u).any fun u => !u.isCall

/-! ## Attributes of loops -/

/-- An instruction: this is not a call, or a call of a function (there is no function if it is not known). -/
inductive Inst where
  | plain
  | call (callee : Option Nat)

/-- Flags which are calculated for a loop (InterprocAttr.cpp:322-323). -/
structure Flags where
  io : Bool := false
  noReturn : Bool := false
  unwind : Bool := false
  twice : Bool := false

/-- The loop over instructions of a block (InterprocAttr.cpp:325-339). A call of unknown function finishes the loop. -/
def scanBlock (G : CG) (noIO always : Set) : List Inst → Flags → Flags
  | [], fl => fl
  | .plain :: is, fl => scanBlock G noIO always is fl
  | .call none :: _, _ => ⟨true, true, true, true⟩
  | .call (some n) :: is, fl =>
    let f := (G.fn n).getD {}
    scanBlock G noIO always is
      ⟨fl.io || !noIO n, fl.noReturn || !always n, fl.unwind || !f.noUnwind, fl.twice || f.returnsTwice⟩

/-- Attributes of a loop (InterprocAttr.cpp:318-366): blocks contain lists of instructions. -/
def loopFlags (G : CG) (noIO always : Set) (blocks : List (List Inst)) : Flags :=
  blocks.foldl (fun fl b => scanBlock G noIO always b fl) {}

/-- `hasAttr(L, AttrKind::NoIO)`. -/
def loopNoIO (fl : Flags) : Bool := !fl.io
/-- `hasAttr(L, AttrKind::AlwaysReturn)`. -/
def loopAlwaysReturn (fl : Flags) : Bool := !fl.noReturn
/-- `hasAttr(L, Attribute::NoUnwind)`. -/
def loopNoUnwind (fl : Flags) : Bool := !fl.unwind
/-- `hasAttr(L, Attribute::ReturnsTwice)`. -/
def loopReturnsTwice (fl : Flags) : Bool := fl.twice

/-- Checks which are made before a loop is considered to be parallel (ParallelLoop.cpp:105-127) except of a single exit of
the loop: attributes of the loop and attributes of called functions. -/
def safeLoop (G : CG) (noIO always direct : Set) (blocks : List (List Inst)) : Bool :=
  let fl := loopFlags G noIO always blocks
  loopAlwaysReturn fl && loopNoIO fl && loopNoUnwind fl && !loopReturnsTwice fl &&
    blocks.all fun b => b.all fun
      | .plain => true
      | .call none => false
      | .call (some n) => direct n

/-! ## Global variables which are accessed in functions -/

/-- An operand of an instruction: an address of a global variable, pointer arithmetic or a cast of a pointer (this is
applied to pointers only), a cast of a pointer to an integer and vice versa, anything else. -/
inductive Val where
  | global (g : Nat)
  | offset (v : Val)
  | toInt (v : Val)
  | toPtr (v : Val)
  | other

/-- `getUnderlyingObject(V, 0)`. -/
def Val.under : Val → Val
  | .offset v => v.under
  | v => v

/-- A global variable which is referenced by an operand (GlobalsAccess.cpp:162-173). The loop always starts with the same
operand, so this is its first iteration. -/
def Val.found (v : Val) : Option Nat :=
  match v.under with
  | .toInt u => (match u.under with | .global g => some g | _ => none)
  | .global g => some g
  | _ => none

/-- Results of the analysis: there is no list if there is no record in the map. -/
abbrev Acc := Nat → Option (List Nat)

/-- A function without a body which accesses unknown memory (GlobalsAccess.cpp:118-125). -/
def unknownNode (G : CG) (libFunc : Set) (n : Nat) : Bool :=
  match G.fn n with
  | none => true
  | some f => f.decl && !f.intrinsic && libFunc n && !f.argMemOnly

/-- One iteration of the inner loop (GlobalsAccess.cpp:126-137): accesses of callees. There is no result if some of
callees is unknown. -/
def scanCallees (G : CG) (A : Acc) : List Nat → List Nat → Option (List Nat)
  | [], S => some S
  | c :: cs, S => if (G.fn c).isSome then scanCallees G A cs (S ++ (A c).getD []) else none

/-- One iteration of the outer loop (GlobalsAccess.cpp:115-141). -/
def scanNodes (G : CG) (libFunc : Set) (A : Acc) : List Nat → List Nat → Option (List Nat)
  | [], S => some S
  | n :: ns, S =>
    if unknownNode G libFunc n then none
    else
      match scanCallees G A (G.calls n) S with
      | none => none
      | some S => scanNodes G libFunc A ns S

/-- Results are stored for these functions (GlobalsAccess.cpp:142-149). -/
def stored (G : CG) (libFunc : Set) (n : Nat) : Bool :=
  match G.fn n with
  | some f => !f.intrinsic && !libFunc n && !f.argMemOnly
  | none => false

/-- `storeAccesses` (GlobalsAccess.cpp:142-149). -/
def store (G : CG) (libFunc : Set) (scc l : List Nat) (A : Acc) : Acc := fun n =>
  if scc.contains n && stored G libFunc n then some ((A n).getD [] ++ l) else A n

/-- Global variables which are referenced by functions with bodies (GlobalsAccess.cpp:154-174). -/
def bodyGlobals (G : CG) (body : Nat → List Val) (scc : List Nat) : List Nat :=
  scc.flatMap fun n =>
    match G.fn n with
    | some f => if f.decl then [] else (body n).filterMap Val.found
    | none => []

/-- Processing of a component (GlobalsAccess.cpp:112-177). The set does not depend on results for functions of this
component (there are no such results in the map), so iterations after the first one do not change it. `globals` is a list
of all global variables. -/
def accSCC (G : CG) (libFunc : Set) (globals : List Nat) (body : Nat → List Val) (A : Acc) (scc : List Nat) : Acc :=
  match scanNodes G libFunc A scc [] with
  | none => store G libFunc scc globals A
  | some S => store G libFunc scc (S ++ bodyGlobals G body scc) A

/-- `GlobalsAccessCollector::runOnModule()` (GlobalsAccess.cpp:106-179), the map is empty at the beginning. -/
def accesses (G : CG) (libFunc : Set) (globals : List Nat) (body : Nat → List Val) (sccs : List (List Nat)) : Acc :=
  sccs.foldl (accSCC G libFunc globals body) fun _ => none

end Attrs
end Tsar
