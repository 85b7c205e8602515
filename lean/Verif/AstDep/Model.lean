import Verif.Parallel.Model

/-!
# Model of the source-level dependence analysis

Models `lib/Analysis/Clang/ASTDependenceAnalysis.cpp` (`evaluateDependency`, `evaluateDefUse`) and
`lib/Analysis/Clang/VariableCollector.cpp`.

Simplifications: the matching of metadata with declarations (`DIMemoryMatcher` and `ClonedDIMemoryMatcher`) is a
parameter; a variable is identified with its canonical declaration; lists of variables which are attached to
diagnostics and bounds of induction variables are not modelled; `isUnreachable` of alias nodes is a parameter (it is
the subject of C26); assertions are assumed to hold.
-/

namespace Tsar
namespace AstDep

open BitTrait Parallel

/-- Types (VariableCollector.cpp:44-52). -/
inductive Ty where
  | ptr (t : Ty)
  | ref (t : Ty)
  | arr (t : Ty)
  | other
  deriving DecidableEq, Repr

/-- `numberOfPointerTypes` (VariableCollector.cpp:44-52). -/
def Ty.pointers : Ty → Nat
  | .ptr t => t.pointers + 1
  | .ref t => t.pointers + 1
  | .arr t => t.pointers
  | .other => 0

/-- Operations of `DIExpression` which are visited at VariableCollector.cpp:142-155. -/
inductive Op where
  | deref
  | constu (n : Nat)
  | plusUconst (n : Nat)
  | plus
  | minus
  | fragment (offset size : Nat)
  deriving DecidableEq, Repr

/-- Elements of an operation in `DIExpression::getElements()`: a code of the operation and its arguments. -/
def Op.raw : Op → List Nat
  | .deref => [0x06]
  | .constu n => [0x10, n]
  | .plusUconst n => [0x23, n]
  | .plus => [0x22]
  | .minus => [0x1c]
  | .fragment o s => [0x1000, o, s]

/-- `DIExpression::getElements()`. -/
def elements (e : List Op) : List Nat := e.flatMap Op.raw

/-- `NumDeref` (VariableCollector.cpp:117), it is the number of elements which are equal to the code. -/
def numDeref (e : List Op) : Nat := (elements e).count 0x06

/-- `DIExpression::isFragment()`: a fragment is the last operation. -/
def isFragment (e : List Op) : Bool :=
  match e.getLast? with
  | some (.fragment _ _) => true
  | _ => false

/-- `isZeroOffsets` (VariableCollector.cpp:133-156). `getArg(0)` of an operation without arguments is the next
element of the expression, `behind` is a value behind the last element. -/
def zeroOffsets (behind : Nat) : List Op → Bool
  | [] => true
  | .deref :: e => zeroOffsets behind e
  | .constu n :: e => decide (n = 0) && zeroOffsets behind e
  | .plusUconst n :: e => decide (n = 0) && zeroOffsets behind e
  | .fragment o _ :: e => decide (o = 0) && zeroOffsets behind e
  | .plus :: e => decide ((elements e).headD behind = 0) && zeroOffsets behind e
  | .minus :: e => decide ((elements e).headD behind = 0) && zeroOffsets behind e

/-- A metadata-level variable: the matched declaration, `isStubVariable()` and whether it is `DILocalVariable`. -/
structure VarInfo (W : Type) where
  ast : Option W
  stub : Bool
  loc : Bool

/-- A metadata-level memory location: `DIUnknownMemory` or `DIEstimateMemory`; `clone` is a variable of the matched
location, if it exists. -/
inductive Desc (W : Type) where
  | unknown (distinct exec : Bool)
  | est (clone : Option (VarInfo W)) (expr : List Op) (sized template : Bool)

/-- `DerivedKind` (VariableCollector.h:66-80). -/
inductive DKind where
  | strong | bounded | part | weak
  deriving DecidableEq, Repr

/-- `DerivedMemory` (VariableCollector.h:82-93). -/
structure Derived (M : Type) where
  mems : List M
  kind : DKind

/-- `operator bool` (VariableCollector.h:92). -/
def Derived.ok {M : Type} (d : Derived M) : Bool := decide (d.kind ≠ .weak) && !d.mems.isEmpty

/-- `DeclSearch` (VariableCollector.h:95-116). -/
inductive Search where
  | coincideLocal | coincideGlobal | derived | invalid | implicit | useless | unknown
  deriving DecidableEq, Repr

/-- Lists of variables in `ASTRegionTraitInfo` (ASTDependenceAnalysis.h:85-94), `stub` is the local variable `Stub`
(ASTDependenceAnalysis.cpp:182). -/
inductive Dest where
  | loc | priv | first | last | reads | writes | red (k : RedKind) | stub
  deriving DecidableEq, Repr

/-- Diagnostics (ASTDependenceAnalysis.cpp:121-307). -/
inductive Diag where
  | multipleInduction | inductionUnable | privateUnable | reductionUnknown | reductionUnable | notAnalyzed
  | globalUnable | inoutUnable
  deriving DecidableEq, Repr

/-- What the analysis knows about locations and variables. -/
structure Ctx (M N W : Type) where
  name : W → String
  ty : W → Ty
  const : W → Bool
  desc : M → Desc W
  /-- Distances of a flow dependence and of an anti dependence. -/
  flowDist : M → List (Int × Int)
  antiDist : M → List (Int × Int)
  unreachable : N → N → Bool
  behind : Nat

variable {M N V W : Type} [DecidableEq M] [DecidableEq N] [DecidableEq V] [DecidableEq W]

/-- The state of `VariableCollector` (VariableCollector.h:178-195), `mDependenceInfo`, `mDiagList`, `mInToLocalize`
and `mOutToLocalize` (ASTDependenceAnalysis.h:144-149). -/
structure St (M N V W : Type) where
  refs : List (W × List (Derived M))
  locals : List W
  globals : List (N × W)
  lists : Dest → List (W × M)
  deps : List (W × List (Int × Int) × List (Int × Int))
  inds : List (W × M)
  ins : List (Entry M N V)
  outs : List (Entry M N V)
  diags : List Diag

/-- A loop (VariableCollector.cpp:76-91): `init` are declarations in the initialization part, `refs` are referenced
variables and `decls` are variables which are declared in other parts in the order of traversal, `loopVar` is found in
the initialization (ASTDependenceAnalysis.cpp:46-54). -/
structure Src (W : Type) where
  loopVar : Option W
  init : List W
  refs : List W
  decls : List W

/-- The empty state. -/
def St.empty : St M N V W := ⟨[], [], [], fun _ => [], [], [], [], [], []⟩

/-- `resize` of a vector of derived locations. -/
def resize (n : Nat) (ds : List (Derived M)) : List (Derived M) :=
  ds.take n ++ List.replicate (n - ds.length) ⟨[], .weak⟩

/-- `VisitDeclRefExpr` (VariableCollector.cpp:54-66). -/
def visitRef (c : Ctx M N W) (refs : List (W × List (Derived M))) (w : W) : List (W × List (Derived M)) :=
  if (c.ty w).pointers = 0 && c.const w then refs
  else if (refs.lookup w).isSome then
    refs.map fun p => if p.1 = w then (w, resize ((c.ty w).pointers + 1) p.2) else p
  else refs ++ [(w, resize ((c.ty w).pointers + 1) [])]

/-- `TraverseLoopIteration` (VariableCollector.cpp:76-91) and `VisitDeclStmt` (VariableCollector.cpp:68-74). -/
def traverse (c : Ctx M N W) (r : Src W) (s : St M N V W) : St M N V W :=
  { s with refs := r.refs.foldl (visitRef c) s.refs, locals := s.locals ++ r.init ++ r.decls }

/-- Changes a derived location of a variable. -/
def setDerived (refs : List (W × List (Derived M))) (w : W) (i : Nat) (f : Derived M → Derived M) :
    List (W × List (Derived M)) :=
  refs.map fun p => if p.1 = w then (w, p.2.modify i f) else p

/-- `CoincideLocal` or `CoincideGlobal`. -/
def VarInfo.coincide (v : VarInfo W) : Search := if v.loc then .coincideLocal else .coincideGlobal

/-- A location of unknown size which covers the whole variable (VariableCollector.cpp:124-126). -/
def wholeUnsized (expr : List Op) (sized : Bool) (levels : Nat) : Bool :=
  decide (numDeref expr = 0) && decide (levels = 1) && isFragment expr && decide ((elements expr).length = 3) && !sized

/-- An update of a derived location (VariableCollector.cpp:169-182). -/
def noteDerived (c : Ctx M N W) (refs : List (W × List (Derived M))) (w : W) (levels : Nat) (m : M) (expr : List Op)
    (sized template : Bool) : List (W × List (Derived M)) :=
  if numDeref expr < levels then
    if !sized then
      if (decide (numDeref expr = 1) && (decide ((elements expr).length = 1) ||
            isFragment expr && decide ((elements expr).length = 4))) ||
          (template && zeroOffsets c.behind expr) then
        setDerived refs w (numDeref expr) fun _ => ⟨[m], .strong⟩
      else refs
    else if isFragment expr && zeroOffsets c.behind expr then
      setDerived refs w (numDeref expr) fun _ => ⟨[m], .bounded⟩
    else setDerived refs w (numDeref expr) fun d => ⟨d.mems ++ [m], .part⟩
  else refs

/-- `findDecl` (VariableCollector.cpp:93-195): a variable, a kind of the result and changed references. -/
def findDecl (c : Ctx M N W) (refs : List (W × List (Derived M))) (m : M) :
    Option W × Search × List (W × List (Derived M)) :=
  match c.desc m with
  | .unknown distinct _ => (none, if distinct then .unknown else .useless, refs)
  | .est none _ _ _ => (none, .unknown, refs)
  | .est (some v) expr sized template =>
    match v.ast with
    | none => (none, if v.stub then .unknown else .invalid, refs)
    | some w =>
      match refs.lookup w with
      | none => (some w, .implicit, refs)
      | some ds =>
        if !expr.isEmpty then
          if wholeUnsized expr sized ds.length then
            (some w, v.coincide, setDerived refs w 0 fun _ => ⟨[m], .strong⟩)
          else (some w, .derived, noteDerived c refs w ds.length m expr sized template)
        else (some w, v.coincide, setDerived refs w 0 fun _ => ⟨[m], .strong⟩)

/-- The result of `localize` (VariableCollector.cpp:232-262): a variable, success, whether the variable is declared in
the loop. -/
structure Localized (W : Type) where
  var : Option W
  ok : Bool
  isLocal : Bool

/-- `localize` of a location (VariableCollector.cpp:232-262). -/
def localize (c : Ctx M N W) (s : St M N V W) (n : N) (m : M) : Localized W × St M N V W :=
  let r := findDecl c s.refs m
  let s := { s with refs := r.2.2 }
  if r.1.any fun w => s.locals.contains w then (⟨r.1, true, true⟩, s)
  else
    match r.2.1, r.1 with
    | .coincideLocal, w => (⟨w, true, false⟩, s)
    | .coincideGlobal, some w =>
      (⟨some w, true, false⟩,
        { s with globals := if s.globals.any fun p => decide (p.1 = n) then s.globals else s.globals ++ [(n, w)] })
    | .coincideGlobal, none => (⟨none, true, false⟩, s)
    | .unknown, _ => (⟨none, true, false⟩, s)
    | _, w => (⟨w, false, false⟩, s)

/-- `emplace` of a variable into a list, elements of the list are compared by name (VariableCollector.h:52-59). -/
def insertVar (c : Ctx M N W) (l : List (W × M)) (w : W) (m : M) : List (W × M) :=
  if l.any fun p => decide (c.name p.1 = c.name w) then l else l ++ [(w, m)]

/-- Inserts a variable into one of lists. -/
def St.insert (c : Ctx M N W) (s : St M N V W) (d : Dest) (w : W) (m : M) : St M N V W :=
  { s with lists := fun x => if x = d then insertVar c (s.lists d) w m else s.lists x }

/-- `localize` of a location and an update of lists (VariableCollector.cpp:210-230). -/
def localizeTo (c : Ctx M N W) (d : Dest) (n : N) (m : M) (s : St M N V W) : Bool × St M N V W :=
  let r := localize c s n m
  if !r.1.ok then (false, r.2)
  else
    match r.1.var with
    | none => (true, r.2)
    | some w => (true, r.2.insert c (if r.1.isLocal then .loc else d) w m)

/-- `localize` of all locations of an alias node (VariableCollector.cpp:197-208). -/
def localizeAll (c : Ctx M N W) (d : Dest) (n : N) : List (Elem M N V) → St M N V W → Bool × St M N V W
  | [], s => (true, s)
  | e :: l, s =>
    let r := localizeTo c d n e.mem s
    let q := localizeAll c d n l r.2
    (r.1 && q.1, q.2)

/-- `IsPresent = true` for a diagnostic. -/
def St.diag (s : St M N V W) (d : Diag) : St M N V W := { s with diags := s.diags ++ [d] }

/-- A diagnostic if a condition holds. -/
def St.diagIf (s : St M N V W) (b : Bool) (d : Diag) : St M N V W := if b then s.diag d else s

/-- `findDecl` without a use of a result. -/
def note (c : Ctx M N W) (s : St M N V W) (m : M) : St M N V W := { s with refs := (findDecl c s.refs m).2.2 }

/-- `addInductionToList` (ASTDependenceAnalysis.cpp:101-118). -/
def addInduction (c : Ctx M N W) (E : Entry M N V) (w : W) (m : M) (isLocal : Bool) (s : St M N V W) : St M N V W :=
  let s := { s with inds := insertVar c s.inds w m }
  if isLocal then s else { s with ins := s.ins ++ [E], outs := s.outs ++ [E] }

/-- The loop over locations with a trait of an induction variable (ASTDependenceAnalysis.cpp:123-150). -/
def inductionStep (c : Ctx M N W) (ind : W) (ignore : Bool) (E : Entry M N V) (s : St M N V W) (e : Elem M N V) :
    St M N V W :=
  let r := localize c s E.node e.mem
  let s := r.2
  match r.1.var with
  | some w =>
    if r.1.ok && decide (ind = w) then addInduction c E w e.mem r.1.isLocal s
    else if ignore then s
    else if !r.1.ok then s.diag .inductionUnable
    else addInduction c E w e.mem r.1.isLocal (s.diag .multipleInduction)
  | none =>
    if ignore then s
    else if !r.1.ok then s.diag .inductionUnable
    else s.diag .multipleInduction

/-- A list for a reduction (ASTDependenceAnalysis.cpp:182-186). -/
def redDest (k : RedKind) : Dest := if k = .noReduction then .stub else .red k

/-- The first location of a node with a reduction (ASTDependenceAnalysis.cpp:163-196). The kind is returned. -/
def reductionHead (c : Ctx M N W) (ignore : Bool) (n : N) (e : Elem M N V) (s : St M N V W) :
    RedKind × St M N V W :=
  let k := e.reduction.getD .noReduction
  let s := if k = .noReduction && !ignore then (note c s e.mem).diag .reductionUnknown else s
  let r := localizeTo c (redDest k) n e.mem s
  (k, r.2.diagIf (!r.1 && !ignore) .reductionUnable)

/-- Other locations of a node with a reduction (ASTDependenceAnalysis.cpp:197-214). -/
def reductionTail (c : Ctx M N W) (ignore : Bool) (n : N) (k : RedKind) (s : St M N V W) (e : Elem M N V) :
    St M N V W :=
  if e.reduction ≠ some k then
    if !ignore then (note c s e.mem).diag .reductionUnknown else s
  else
    let r := localizeTo c (redDest k) n e.mem s
    r.2.diagIf (!r.1 && !ignore) .reductionUnable

/-- The loop over locations with a dependence (ASTDependenceAnalysis.cpp:217-253). Locations are `front` (the first
location of a node) and `e`. The condition at lines 235-237 does not depend on a result of the search. -/
def dependenceStep (c : Ctx M N W) (ignore : Bool) (E : Entry M N V) (front : Elem M N V) (s : St M N V W)
    (e : Elem M N V) : St M N V W :=
  if e.flow ≠ some false && e.anti ≠ some false then
    let r := findDecl c s.refs front.mem
    let s := { s with refs := r.2.2 }
    match r.1 with
    | some w =>
      let fd := if e.flow = some true then c.flowDist e.mem else []
      let ad := if e.anti = some true then c.antiDist e.mem else []
      { s with
        deps := if s.deps.any fun p => decide (c.name p.1 = c.name w) then s.deps else s.deps ++ [(w, fd, ad)]
        ins := s.ins ++ [E]
        outs := s.outs ++ [E] }
    | none => s.diagIf (!ignore) .notAnalyzed
  else s

/-- Traits of a private variable (ASTDependenceAnalysis.cpp:152-160, 255-276). -/
def privateStep (c : Ctx M N W) (d : Dest) (ignore : Bool) (E : Entry M N V) (s : St M N V W) : St M N V W :=
  let r := localizeAll c d E.node E.elems s
  r.2.diagIf (!r.1 && !ignore) .privateUnable

/-- An analysis of a node with specified traits (ASTDependenceAnalysis.cpp:91-277). -/
def nodeStep (c : Ctx M N W) (ind : W) (d : Dptr) (ignore : Bool) (E : Entry M N V) (s : St M N V W) : St M N V W :=
  if d.dep .shared || d.dep .readonly then
    let s := E.elems.foldl (fun s e => note c s e.mem) s
    let s := { s with ins := s.ins ++ [E] }
    if d.dep .shared then { s with outs := s.outs ++ [E] } else s
  else if d.dep .induction then E.elems.foldl (inductionStep c ind ignore E) s
  else if d.dep .priv then privateStep c .priv ignore E s
  else if d.dep .reduction then
    match E.elems with
    | [] => s
    | e :: l =>
      let r := reductionHead c ignore E.node e s
      l.foldl (reductionTail c ignore E.node r.1) r.2
  else if (d.dep .anti || d.dep .flow) && !d.dep .output then
    match E.elems with
    | [] => s
    | e :: l => (e :: l).foldl (dependenceStep c ignore E e) s
  else
    let s := if d.dep .secondToLastPrivate then privateStep c .last ignore E s else s
    if d.dep .firstPrivate then privateStep c .first ignore E s else s

/-- `IgnoreRedundantMemoryKind` (GlobalOptions.h:37-43). -/
inductive IR where
  | no | strict | bounded | part | weak
  deriving DecidableEq, Repr

/-- Traits of a node which should be analyzed and `IgnoreRedundant` (ASTDependenceAnalysis.cpp:74-90). -/
def traitsOf (ir : IR) (cover redundant : List N) (E : Entry M N V) : Option (Dptr × Bool) :=
  if cover.contains E.node then some (E.dptr, false)
  else
    match E.elems with
    | [e] => if ir ≠ .no && redundant.contains E.node then some (e.dptr, true) else none
    | _ => none

/-- The body of the loop over nodes (ASTDependenceAnalysis.cpp:74-277). -/
def entryStep (c : Ctx M N W) (ind : W) (ir : IR) (cover redundant : List N) (s : St M N V W) (E : Entry M N V) :
    St M N V W :=
  match traitsOf ir cover redundant E with
  | none => s
  | some (d, ignore) => nodeStep c ind d ignore E s

/-- `DirectSideEffect` (ASTDependenceAnalysis.cpp:65-73). -/
def sideEffects (c : Ctx M N W) (ds : List (Entry M N V)) : List N :=
  ds.flatMap fun E =>
    if E.dptr.unit .directAccess then
      E.elems.filterMap fun e =>
        if e.dptr.unit .directAccess then
          match c.desc e.mem with
          | .unknown _ true => some e.node
          | _ => none
        else none
    else []

/-- A check of global variables (ASTDependenceAnalysis.cpp:279-292). -/
def globalBad (c : Ctx M N W) (globals : List (N × W)) (effects : List N) : Bool :=
  globals.any fun p => effects.any fun n => !c.unreachable p.1 n

/-- A check of a derived location (ASTDependenceAnalysis.cpp:299-307). -/
def Derived.good (ir : IR) (d : Derived M) : Bool :=
  d.ok && (decide (d.kind = .strong) || (decide (ir = .bounded) && decide (d.kind = .bounded)) ||
    (decide (ir = .part) && decide (d.kind = .part))) ||
  !d.ok && decide (ir = .weak)

/-- A check of referenced variables (ASTDependenceAnalysis.cpp:293-311). -/
def refsBad (ir : IR) (locals : List W) (refs : List (W × List (Derived M))) : Bool :=
  refs.any fun p => !locals.contains p.1 && !p.2.all (Derived.good ir)

/-- Roots of the coverage (ASTDependenceAnalysis.cpp:37-45). -/
def coverage (ir : Bool) (tree : Tree N) (ds : List (Entry M N V)) : List N :=
  (accessCover ir (dptrOf ds) tree).map Tree.root

/-- `evaluateDependency` (ASTDependenceAnalysis.cpp:36-335). -/
def evaluateDependency (c : Ctx M N W) (ir : IR) (tree : Tree N) (ds : List (Entry M N V)) (r : Src W) :
    Bool × St M N V W :=
  match r.loopVar with
  | none => (false, St.empty)
  | some ind =>
    let s := ds.foldl (entryStep c ind ir (coverage (decide (ir ≠ .no)) tree ds) (coverage false tree ds))
      (traverse c r St.empty)
    let s := s.diagIf (globalBad c s.globals (sideEffects c ds)) .globalUnable
    let s := s.diagIf (refsBad ir s.locals s.refs) .notAnalyzed
    (s.diags.isEmpty, s)

/-- Inserts all elements of a list into another list. -/
def St.insertAll (c : Ctx M N W) (d : Dest) (s : St M N V W) (l : List (W × M)) : St M N V W :=
  l.foldl (fun s p => s.insert c d p.1 p.2) s

/-- All kinds of reductions (MemoryTrait.h:168-179). -/
def redKinds : List RedKind := [.add, .mult, .or, .and, .xor, .max, .min]

/-- The loops of `evaluateDefUse` over `mInToLocalize` and `mOutToLocalize`
(ASTDependenceAnalysis.cpp:342-351). -/
def localizeEntries (c : Ctx M N W) (d : Dest) : List (Entry M N V) → St M N V W → Bool × St M N V W
  | [], s => (true, s)
  | E :: l, s =>
    let r := localizeAll c d E.node E.elems s
    let q := localizeEntries c d l r.2
    (r.1 && q.1, q.2)

/-- `evaluateDefUse` (ASTDependenceAnalysis.cpp:337-383). -/
def evaluateDefUse (c : Ctx M N W) (s : St M N V W) : Bool × St M N V W :=
  let r := localizeEntries c .reads s.ins s
  let q := localizeEntries c .writes s.outs r.2
  let s := q.2
  let s := s.insertAll c .reads (s.lists .first)
  let s := s.insertAll c .writes (s.lists .last)
  let s := redKinds.foldl (fun s k => (s.insertAll c .writes (s.lists (.red k))).insertAll c .reads (s.lists (.red k))) s
  (r.1 && q.1, s.diagIf (!(r.1 && q.1)) .inoutUnable)

end AstDep
end Tsar
