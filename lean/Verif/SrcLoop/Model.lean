import Verif.SrcLoop.Spec

/-!
# Model of the analysis of perfect loops and of the analysis of control flow of the source

Models lib/Analysis/Clang/PerfectLoop.cpp (`LoopVisitor`) and
lib/Analysis/Clang/ControlFlowTraits.cpp (`LabelVisitor`, `Visitor`), with the sets of
include/tsar/Analysis/Clang/ControlFlowTraits.h.

Simplifications.
* `RecursiveASTVisitor` is a recursion on a forest: parents are visited before children, children
  from left to right.
* Statistics are omitted, `mNumberOfLoops` and `mIsThereStmt` of the outermost level, which are not
  initialized (PerfectLoop.cpp:112,115), are parameters of the result.
* A set of traits is a list. A map from a statement to a set is a list of triples.
* A failed assertion is the outcome `none`.
-/
namespace Tsar.SrcLoop

/-! ### Perfect loops -/

/-- The fields of `LoopVisitor`: PerfectLoop.cpp:109-119. `found` are the loops which have been
inserted into the result. -/
structure PSt where
  loops : Nat
  stmt : Bool
  found : List Nat
  deriving DecidableEq

/-- `LoopVisitor`: `TraverseForStmt()`, PerfectLoop.cpp:77-98, `VisitStmt()`, 102-106. -/
def perfect : Forest → PSt → PSt
  | .nil, s => s
  | .node k h b r, s =>
    match k with
    | .forLoop id =>
      let s1 := perfect b ⟨0, false, s.found⟩
      let found := if (s1.loops = 1 ∧ s1.stmt = false) ∨ s1.loops = 0 then s1.found ++ [id]
        else s1.found
      perfect r ⟨s.loops + 1, s.stmt, found⟩
    | .compound _ => perfect r (perfect b (perfect h s))
    | _ => perfect r (perfect b (perfect h { s with stmt := true }))

/-- The set of regions: a loop which has not been matched is not inserted. PerfectLoop.cpp:86-90. -/
def perfectRegions (region : Nat → Option Nat) (f : Forest) (s : PSt) : List Nat :=
  (perfect f s).found.filterMap region

/-! ### Control flow -/

/-- `LabelVisitor`: ControlFlowTraits.cpp:44-54. The list of all `goto` of a function stands for the
map from labels: the list of a label is the list of `goto` with this label. -/
def labels : Forest → List Kind
  | .nil => []
  | .node k h b r =>
    match k with
    | .gotoStmt _ _ => k :: (labels h ++ labels b ++ labels r)
    | _ => labels h ++ labels b ++ labels r

/-- `mLabels->find(Label)`: the value for a label, if there is any. -/
def labelMap (gs : List Kind) (name : Nat) : Option (List Kind) :=
  match gs.filter (fun g => match g with | .gotoStmt _ n => n = name | _ => false) with
  | [] => none
  | xs => some xs

/-- What has been collected: `mFuncInfo` and `mLoopInfo`. -/
structure CSt where
  func : List (Kind × Flags)
  loops : List (Kind × Kind × Flags)
  deriving DecidableEq

/-- `mFuncInfo->insert({ S, Flags })`: a statement is a key, so the second insertion does nothing.
ControlFlowTraits.h:66-92. -/
def CSt.addFunc (st : CSt) (s : Kind) (fl : Flags) : CSt :=
  if ∃ e ∈ st.func, e.1 = s then st else { st with func := st.func ++ [(s, fl)] }

/-- `mLoopInfo->try_emplace(LpS).first->second.insert({ S, Flags })`. -/
def CSt.addLoop (fl : Flags) (s : Kind) (st : CSt) (L : Kind) : CSt :=
  if ∃ e ∈ st.loops, e.1 = L ∧ e.2.1 = s then st else
    { st with loops := st.loops ++ [(L, s, fl)] }

/-- `isa<SwitchStmt>()`. -/
def Kind.isSwitch : Kind → Bool
  | .switchStmt _ => true
  | _ => false

/-- Statements which are pushed to `mScopes`: ControlFlowTraits.cpp:72-73. -/
def Kind.isScope : Kind → Bool
  | .forLoop _ => true
  | .loop _ => true
  | .switchStmt _ => true
  | _ => false

/-- A loop over `mScopes` which skips `switch`: ControlFlowTraits.cpp:94-99, 108-113, 127-135, 158-163. -/
def addScopes (fl : Flags) (s : Kind) (scopes : List Kind) (st : CSt) : CSt :=
  (scopes.filter (fun k => !k.isSwitch)).foldl (CSt.addLoop fl s) st

section
variable (callees : Nat → Option FnAttrs) (gs : List Kind)

/-- Flags of a call: ControlFlowTraits.cpp:140-157. -/
def callFlags : Option Nat → Flags
  | some d =>
    match callees d with
    | some a => { noReturn := !a.alwaysReturn, unwind := !a.noUnwind, twice := a.returnsTwice,
                  inOut := !a.noIO }
    | none => {}
  | none => { noReturn := true, twice := true, unwind := true, inOut := true }

/-- `VisitGotoStmt()`: ControlFlowTraits.cpp:103-137. -/
def visitGoto (scopes : List Kind) (st : CSt) (s : Kind) (name : Nat) : CSt :=
  let st := st.addFunc s {}
  match labelMap gs name with
  | none => addScopes { exit := true } s scopes st
  | some withLabel =>
    let st := withLabel.foldl
      (fun st L => if L ∈ scopes then st.addLoop {} s L else st.addLoop { entry := true } s L) st
    addScopes { exit := true } s (scopes.filter (fun L => L ∉ withLabel)) st

/-- `Visit*()` functions for a statement. -/
def visitNode (scopes : List Kind) (st : CSt) (s : Kind) : Option CSt :=
  match s with
  | .breakStmt _ =>
    -- ControlFlowTraits.cpp:83-90
    match scopes.getLast? with
    | none => none
    | some L => some (if L.isSwitch then st else st.addLoop { exit := true } s L)
  | .returnStmt _ =>
    -- ControlFlowTraits.cpp:92-101
    some (addScopes { exit := true } s scopes (st.addFunc s { exit := true }))
  | .gotoStmt _ name => some (visitGoto gs scopes st s name)
  | .call _ callee =>
    -- ControlFlowTraits.cpp:139-167
    some ((addScopes (callFlags callees callee) s scopes st).addFunc s (callFlags callees callee))
  | _ => some st

/-- `TraverseStmt()`: ControlFlowTraits.cpp:68-81. -/
def traverse (scopes : List Kind) : Forest → CSt → Option CSt
  | .nil, st => some st
  | .node k h b r, st =>
    let scopes' := if k.isScope then scopes ++ [k] else scopes
    (visitNode callees gs scopes' st k).bind fun st =>
      (traverse scopes' h st).bind fun st =>
        (traverse scopes' b st).bind fun st => traverse scopes r st

end

/-- `runOnFunction()`: ControlFlowTraits.cpp:213-216. -/
def control (callees : Nat → Option FnAttrs) (f : Forest) : Option CSt :=
  traverse callees (labels f) [] f ⟨[], []⟩

end Tsar.SrcLoop
