import Mathlib.Data.List.Basic
import Mathlib.Tactic.SplitIfs

/-!
# Model of replacement of structures with separate variables

Models lib/Transform/Clang/StructureReplacement.cpp: accesses to candidates (`ReplacementSanitizer`),
rewriting of accesses and calls (`insertNewFunction`, `replaceCall`).

Simplifications.
* A node of the syntax tree with several children which has no special meaning is a chain of binary nodes `op`.
  It is visited in the same order.
* Source ranges which must be replaced are marks of nodes `member`. The rewriter replaces ranges with texts of
  expressions (see C95), so a rewritten function is a syntax tree.
* Macros, references in clauses, types which are not available, and diagnostics are not modelled.
* A field is found in a list of replaced members by `find_if`, fields of the list are distinct.
-/

namespace Tsar.StructRepl

/-- `NamedDecl` of a variable. -/
abbrev Var := Nat

/-- `FieldDecl` -/
abbrev Field := Nat

/-- Nodes of the syntax tree. `mark` is set if a range of a member expression is in `RangesToReplace` of a
variable (StructureReplacement.cpp:79-86). `new v f` is a reference to a variable which is created for a member
`f` of `v` (`Replacement::Identifier`). -/
inductive Expr
  | ref (v : Var)
  | lit (n : Int)
  | lv2rv (e : Expr)
  | cast (e : Expr)
  | paren (e : Expr)
  | deref (e : Expr)
  | addr (e : Expr)
  | sub (b i : Expr)
  | member (mark : Option Var) (b : Expr) (f : Field) (arrow : Bool)
  | op (k : Nat) (a b : Expr)
  | call (id : Nat) (args : Expr)
  | arg (a rest : Expr)
  | nil
  | new (v : Var) (f : Field)
  deriving DecidableEq, Repr

/-- `Replacement` (StructureReplacement.cpp:71-103): a member and flags `InAssignment` and `InArray`. -/
structure Repl where
  field : Field
  asg : Bool := false
  arr : Bool := false
  deriving DecidableEq, Repr

/-- `ReplacementCandidates` (StructureReplacement.cpp:107-114). -/
abbrev Cands := Var → Option (List Repl)

/-- `Candidates.erase(V)` -/
def erase (c : Cands) (v : Var) : Cands := fun x => if x = v then none else c x

/-- Replace a list of members of a candidate. -/
def put (c : Cands) (v : Var) (l : List Repl) : Cands := fun x => if x = v then some l else c x

/-- `ReplacementMetadata::ParamKind` (StructureReplacement.cpp:118). -/
inductive Kind
  | value | pointer | array
  deriving DecidableEq, Repr

/-- `ReplacementMetadata::ParamReplacement` (StructureReplacement.cpp:119-123). -/
structure PMeta where
  target : Nat
  member : Option Field
  kind : Kind
  deriving DecidableEq, Repr

/-- `getCandidate()` (StructureReplacement.cpp:239-250). -/
def getCandidate : Expr → Option Var
  | .deref e => getCandidate e
  | .addr e => getCandidate e
  | .lv2rv (.ref v) => some v
  | .ref v => some v
  | _ => none

/-- `isExprInCandidates()` (StructureReplacement.cpp:265-270). -/
def inCands (c : Cands) (e : Expr) : Option Var :=
  (getCandidate e).filter (fun v => (c v).isSome)

/-- `addToReplacement()` and update of flags (StructureReplacement.cpp:946-966, 976-985). -/
def note (l : List Repl) (f : Field) (asg arr : Bool) : List Repl :=
  if l.any (fun r => r.field = f) then
    l.map (fun r => if r.field = f then { r with asg := r.asg || asg, arr := r.arr || arr } else r)
  else l ++ [⟨f, asg, arr⟩]

/-- A state of `ReplacementSanitizer` (StructureReplacement.cpp:993-997). -/
structure St where
  inner : Bool
  last : Option Var
  asg : Bool
  cands : Cands

/-- `VisitStmt()` for a node which is not a cast (StructureReplacement.cpp:768-785). -/
def visit (st : St) : St := { st with asg := true }

/-- The end of `TraverseStmt()` for a node which is not allowed in a base of a member expression
(StructureReplacement.cpp:916-934). -/
def drop (st : St) : St :=
  match st.inner, st.last with
  | true, some v => { st with cands := erase st.cands v, last := none }
  | _, _ => st

/-- Processing of a candidate which is an argument number `i` of an explicitly requested call
(StructureReplacement.cpp:826-841). -/
def useArg (i : Nat) (v : Var) : List PMeta → Cands → Cands
  | [], c => c
  | p :: ps, c =>
    if p.target ≠ i then useArg i v ps c
    else
      match p.member with
      | none => erase c v
      | some f => useArg i v ps (put c v (note ((c v).getD []) f false false))

/-- Candidates after a candidate `v` has been found in an argument (StructureReplacement.cpp:805-808, 823-841). -/
def argCands (ps : Option (List PMeta)) (i : Nat) (v : Var) (c : Cands) : Cands :=
  match ps with
  | none => c
  | some ps => useArg i v ps c

/-- A call which should be replaced: with metadata (`Requests`) or without them (`ImplicitRequests`). -/
inductive Req
  | explicit (ps : List PMeta)
  | implicit
  deriving DecidableEq, Repr

/-- Is it a subscript expression? -/
def isSub : Expr → Bool
  | .sub _ _ => true
  | _ => false

/-- `TraverseMemberExpr()` after a visit of a base (StructureReplacement.cpp:940-973). A mark means that a range
has been stored. -/
def record (cur : Bool) (b : Expr) (f : Field) (st : St) : Option Var × St :=
  match st.inner, st.last with
  | true, some v =>
    (some v, { st with
      cands := put st.cands v (note ((st.cands v).getD []) f cur (isSub b)), inner := false, last := none })
  | _, _ => (none, { st with inner := false, last := none })

/-- Traversal of a body (StructureReplacement.cpp:768-975). The second parameter is a state of a loop over
arguments in `TraverseCallExpr()`: metadata and an index. A callee of a call which is not requested is
a reference with a cast, which is not allowed in a base. -/
def trav (req : Nat → Option Req) : Expr → Option (Option (List PMeta) × Nat) → St → Expr × St
  | .ref v, _, st =>
    if (st.cands v).isNone then (.ref v, visit st)
    else if st.inner then (.ref v, { visit st with last := some v })
    else (.ref v, { visit st with cands := erase st.cands v })
  | .lit n, _, st => (.lit n, drop (visit st))
  | .lv2rv e, _, st =>
    let r := trav req e none { st with asg := false }
    (.lv2rv r.1, r.2)
  | .cast e, _, st =>
    let r := trav req e none st
    (.cast r.1, drop r.2)
  | .paren e, _, st =>
    let r := trav req e none (visit st)
    (.paren r.1, r.2)
  | .deref e, _, st =>
    let r := trav req e none (visit st)
    (.deref r.1, r.2)
  | .addr e, _, st =>
    let r := trav req e none (visit st)
    (.addr r.1, r.2)
  | .sub b i, _, st =>
    let r := trav req b none (visit st)
    let s := trav req i none r.2
    (.sub r.1 s.1, s.2)
  | .member _ b f a, _, st =>
    let r := trav req b none { visit st with inner := true }
    let s := record st.asg b f r.2
    (.member s.1 r.1 f a, s.2)
  | .op k a b, _, st =>
    let r := trav req a none (visit st)
    let s := trav req b none r.2
    (.op k r.1 s.1, drop s.2)
  | .call id args, _, st =>
    match req id with
    | none =>
      let r := trav req args none (drop (visit st))
      (.call id r.1, drop r.2)
    | some (.explicit ps) =>
      let r := trav req args (some (some ps, 0)) st
      (.call id r.1, drop r.2)
    | some .implicit =>
      let r := trav req args (some (none, 0)) st
      (.call id r.1, drop r.2)
  | .arg a rest, q, st =>
    match q, (q.bind fun _ => inCands st.cands a) with
    | some (ps, i), some v =>
      let s := trav req rest (some (ps, i + 1))
        { st with cands := argCands ps i v st.cands }
      (.arg a s.1, s.2)
    | q, _ =>
      let r := trav req a none st
      let s := trav req rest (q.map fun x => (x.1, x.2 + 1)) r.2
      (.arg r.1 s.1, s.2)
  | .nil, _, st => (.nil, st)
  | .new v f, _, st => (.new v f, drop (visit st))

/-- The initial state of `ReplacementSanitizer`. -/
def start (c : Cands) : St := { inner := false, last := none, asg := true, cands := c }

/-- What is known about a function: is a variable a structure, is a member an array, is replacement strict. -/
structure Info where
  isRec : Var → Bool
  isArr : Field → Bool
  strict : Bool

/-- Update of flags in `sanitizeCandidates()` (StructureReplacement.cpp:1600-1610). -/
def fixFlags (i : Info) (v : Var) (r : Repl) : Repl :=
  if i.isRec v then { r with asg := false }
  else if i.isArr r.field then { r with asg := false }
  else if i.strict then { r with asg := true }
  else r

/-- `sanitizeCandidates()` (StructureReplacement.cpp:1536-1611): marked body and candidates. -/
def sanitize (i : Info) (req : Nat → Option Req) (body : Expr) (c : Cands) : Expr × Cands :=
  let r := trav req body none (start c)
  (r.1, fun v => (r.2.cands v).map (fun l => l.map (fixFlags i v)))

/-- A replacement of a member of a candidate. -/
def flagOf (c : Cands) (v : Var) (f : Field) : Option Repl :=
  (c v).bind (fun l => l.find? (fun r => r.field = f))

/-- Arguments of a call. -/
def argList : Expr → List Expr
  | .arg a rest => a :: argList rest
  | _ => []

/-- Arguments of a call. -/
def mkArgs : List Expr → Expr
  | [] => .nil
  | a :: as => .arg a (mkArgs as)

/-- An argument of a new call (StructureReplacement.cpp:1100-1155). `a` is an original argument, `a'` is
a rewritten text of it. `none`: a call is not replaced (a value is passed as an array) or a description of
replacement is not found. A value of an expression which denotes memory is read, see `lv2rv`. -/
def newArg (c : Cands) (p : PMeta) (a a' : Expr) : Option Expr :=
  match inCands c a with
  | none =>
    if p.kind = .array then none
    else
      match p.member with
      | some f =>
        let e := Expr.member none (.paren a') f true
        some (if p.kind = .pointer then .addr e else .lv2rv e)
      | none => some (if p.kind = .pointer then .addr (.paren a') else a')
  | some v =>
    match p.member.bind (flagOf c v) with
    | none => none
    | some r =>
      some (
        if r.asg || r.arr then
          if p.kind = .pointer ∨ p.kind = .array then .lv2rv (.new v r.field)
          else .lv2rv (.deref (.lv2rv (.new v r.field)))
        else if p.kind = .pointer then .addr (.new v r.field)
        else .lv2rv (.new v r.field))

/-- Arguments of a new call (StructureReplacement.cpp:1088-1161). -/
def newArgs (c : Cands) (as as' : List Expr) : List PMeta → Option (List Expr)
  | [] => some []
  | p :: ps =>
    match as[p.target]?, as'[p.target]? with
    | some a, some a' =>
      match newArg c p a a', newArgs c as as' ps with
      | some e, some es => some (e :: es)
      | _, _ => none
    | _, _ => none

/-- Rewriting of a body (StructureReplacement.cpp:2000-2014, 1170-1215). `metaOf` are metadata of requested
calls which are available. -/
def rw (c : Cands) (metaOf : Nat → Option (List PMeta)) : Expr → Expr
  | .ref v => .ref v
  | .lit n => .lit n
  | .lv2rv e => .lv2rv (rw c metaOf e)
  | .cast e => .cast (rw c metaOf e)
  | .paren e => .paren (rw c metaOf e)
  | .deref e => .deref (rw c metaOf e)
  | .addr e => .addr (rw c metaOf e)
  | .sub b i => .sub (rw c metaOf b) (rw c metaOf i)
  | .member m b f a =>
    match m, m.bind (fun v => flagOf c v f), isSub b, rw c metaOf b with
    | some v, some r, true, .sub _ i =>
      if r.asg && !r.arr then .sub (.paren (.deref (.lv2rv (.new v f)))) i else .sub (.lv2rv (.new v f)) i
    | some v, some r, _, _ =>
      if r.asg && !r.arr then .paren (.deref (.lv2rv (.new v f))) else .new v f
    | m, _, _, b' => .member m b' f a
  | .op k a b => .op k (rw c metaOf a) (rw c metaOf b)
  | .call id args =>
    match (metaOf id).bind (newArgs c (argList args) (argList (rw c metaOf args))) with
    | none => .call id (rw c metaOf args)
    | some es => .call id (mkArgs es)
  | .arg a rest => .arg (rw c metaOf a) (rw c metaOf rest)
  | .nil => .nil
  | .new v f => .new v f

end Tsar.StructRepl
