/-
Elimination of dead declarations.

Models lib/Transform/Clang/DeadDeclsElimination.cpp and `findSideEffect` of lib/Support/Clang/Utils.cpp.

A function is a list of parameters and a body.  Each declaration has its own number (a pointer to `NamedDecl` in the
code), so shadowing is already resolved.  The model contains expressions and statements which are essential for the
pass.  Calls have two arguments.  Labels, `switch`, GNU statement expressions, lambdas and exceptions are not modelled.
Removal of text is modelled as removal of nodes of the tree.
-/

namespace Tsar
namespace DeadDecls

/-- What a piece of the source code may refer to. -/
inductive Name where
  /-- A variable: `DeclRefExpr` which refers to `VarDecl`. -/
  | var (d : Nat)
  /-- A type: `TypeLoc`. -/
  | type (t : Nat)
  /-- A definition of the type (its size is required). -/
  | complete (t : Nat)
  /-- Constants of an enumeration: `DeclRefExpr` which refers to `EnumConstantDecl`. -/
  | consts (d : Nat)
  deriving DecidableEq

/-- Expressions. -/
inductive Expr where
  | const (c : Int)
  | var (d : Nat)
  | addr (d : Nat)
  | enumConst (d k : Nat)
  | sizeOf (t : Nat)
  /-- A binary operator without a side effect. -/
  | op (o : Nat) (a b : Expr)
  | cond (c a b : Expr)
  /-- `*a` -/
  | deref (a : Expr)
  /-- `d = e` -/
  | assign (d : Nat) (e : Expr)
  /-- `d o= e` -/
  | update (o : Nat) (d : Nat) (e : Expr)
  /-- `++d`, `--d` -/
  | incr (o : Nat) (d : Nat)
  /-- `*a = e` -/
  | store (a e : Expr)
  /-- A call: `CallExpr`. -/
  | call (f : Nat) (a b : Expr)
  /-- An initialization of an object: `CXXConstructExpr`. -/
  | ctor (f : Nat) (a b : Expr)

/-- Models `findSideEffect` (lib/Support/Clang/Utils.cpp:486-499): a call, an assignment, an increment or a decrement
anywhere in the tree. `CXXConstructExpr` is not `CallExpr`. -/
def sideEffect : Expr → Bool
  | .const _ => false
  | .var _ => false
  | .addr _ => false
  | .enumConst _ _ => false
  | .sizeOf _ => false
  | .op _ a b => sideEffect a || sideEffect b
  | .cond c a b => sideEffect c || sideEffect a || sideEffect b
  | .deref a => sideEffect a
  | .assign _ _ => true
  | .update _ _ _ => true
  | .incr _ _ => true
  | .store _ _ => true
  | .call _ _ _ => true
  | .ctor _ a b => sideEffect a || sideEffect b

/-- Names in an expression in the order of traversal (`RecursiveASTVisitor`: a node, then its children). -/
def Expr.names : Expr → List Name
  | .const _ => []
  | .var d => [.var d]
  | .addr d => [.var d]
  | .enumConst d _ => [.consts d]
  | .sizeOf t => [.type t, .complete t]
  | .op _ a b => a.names ++ b.names
  | .cond c a b => c.names ++ (a.names ++ b.names)
  | .deref a => a.names
  | .assign d e => .var d :: e.names
  | .update _ d e => .var d :: e.names
  | .incr _ d => [.var d]
  | .store a e => a.names ++ e.names
  | .call _ a b => a.names ++ b.names
  | .ctor _ a b => a.names ++ b.names

/-- Storage of a variable. -/
inductive Storage where
  | auto | static | extern
  deriving DecidableEq

/-- A kind of a declaration: `VarDecl`, `TypeDecl` (a type, whether it is a definition, whether it is an
enumeration). -/
inductive Kind where
  | var (s : Storage)
  | tag (t : Nat) (full enum : Bool)
  deriving DecidableEq

/-- A declaration: its number, its kind, types which it mentions, a size (if the type of a variable is a variable
length array), an initializer. -/
structure Decl where
  id : Nat
  kind : Kind
  types : List Nat := []
  size : Option Expr := none
  init : Option Expr := none

/-- Names in an optional expression. -/
def optNames (e : Option Expr) : List Name := (e.map Expr.names).getD []

/-- Names in a declaration in the order of traversal: types (an expression of a variable length array is a part of its
type), then an initializer. -/
def Decl.names (d : Decl) : List Name :=
  d.types.flatMap (fun t => [.type t, .complete t]) ++ (optNames d.size ++ optNames d.init)

/-- Statements.  `M` is a mark of an expression statement: the visitor attaches a mark to each assignment which becomes
a member of `DeadAccesses` (lines 67).  `seq` and `nop` form a list of statements inside a compound statement.  Flags of
`block` and `loopFor` are results of `for_each_macro` (there is a macro inside the statement). -/
inductive Stmt (M : Type) where
  | nop
  | seq (a b : Stmt M)
  | expr (m : M) (e : Expr)
  | decls (ds : List Decl)
  | block (mac : Bool) (s : Stmt M)
  | ite (c : Expr) (a b : Stmt M)
  | loop (c : Expr) (s : Stmt M)
  /-- `for (ds; c; i) s` -/
  | loopFor (mac : Bool) (ds : List Decl) (c i : Expr) (s : Stmt M)
  /-- `for (d : a) s` of C++ (`CXXForRangeStmt`), the declaration may be absent after the transformation only. -/
  | each (d : Option Decl) (a : Nat) (s : Stmt M)
  | ret (e : Expr)
  | brk
  | cont

/-- A function. -/
structure Func (M : Type) where
  params : List Decl
  body : Stmt M

/-- A member of `mDeadDecls` (lines 65-70, 254) without `DeadAccesses`: the declaration, whether it is a parameter,
whether its scope contains a macro. -/
structure Entry where
  decl : Decl
  param : Bool
  mac : Bool

/-- State of the visitor (lines 254-259): `mDeadDecls`, `mTypeDecls`, `mMultipleDecls`. -/
structure VState where
  dead : List Entry := []
  types : List (Nat × Nat) := []
  multi : List (List Nat) := []

/-- `mDeadDecls.erase(D)`. -/
def VState.erase (v : VState) (d : Nat) : VState := { v with dead := v.dead.filter fun e => !(e.decl.id == d) }

/-- Whether `mDeadDecls` contains the declaration. -/
def VState.has (v : VState) (d : Nat) : Bool := v.dead.any fun e => e.decl.id == d

/-- `mTypeDecls.find(...)`. -/
def lookup (t : Nat) : List (Nat × Nat) → Option Nat
  | [] => none
  | p :: l => if p.1 = t then some p.2 else lookup t l

/-- Models `VisitVarDecl` and `VisitTypeDecl` (lines 74-86). -/
def VState.declare (v : VState) (param mac : Bool) (d : Decl) : VState :=
  let v := { v with dead := ⟨d, param, mac⟩ :: v.dead }
  match d.kind with
  | .var _ => v
  | .tag t _ _ => if (lookup t v.types).isSome then v else { v with types := (t, d.id) :: v.types }

/-- Models `VisitTypeLoc` (lines 94-101). -/
def VState.typeLoc (v : VState) (t : Nat) : VState :=
  match lookup t v.types with
  | none => v
  | some d => { v.erase d with types := v.types.filter fun p => !(p.1 == t) }

/-- Models `VisitDeclRefExpr` (lines 88-92) and visits of types.  A reference to a constant of an enumeration erases the
constant, it is not a member of the map. -/
def VState.use (v : VState) : Name → VState
  | .var d => v.erase d
  | .type t => v.typeLoc t
  | .complete t => v.typeLoc t
  | .consts _ => v

/-- Traverse references. -/
def VState.uses (v : VState) (ns : List Name) : VState := ns.foldl VState.use v

/-- Traverse a declaration: the declaration itself, then its parts. -/
def visitDecl (param mac : Bool) (v : VState) (d : Decl) : VState := (v.declare param mac d).uses d.names

/-- Traverse declarations of `DeclStmt`, see also `VisitDeclStmt` (lines 103-107). -/
def visitDecls (param mac : Bool) (v : VState) (ds : List Decl) : VState :=
  let v := if ds.length = 1 then v else { v with multi := ds.map (·.id) :: v.multi }
  ds.foldl (visitDecl param mac) v

/-- Models `TraverseBinaryOperator` (lines 109-131) and the traversal of other expressions.  `inBlock` means that the
parent is a compound statement.  The mark means that the statement is in `DeadAccesses` of the variable. -/
def visitExpr (inBlock : Bool) (v : VState) (e : Expr) : Option Nat × VState :=
  match e with
  | .assign d r => if inBlock && !sideEffect r && v.has d then (some d, v.uses r.names) else (none, v.uses e.names)
  | e => (none, v.uses e.names)

/-- Traverse a statement (lines 133-140).  `mac` is the flag of the innermost scope (`getScope`, lines 246-251). -/
def visit (inBlock mac : Bool) (v : VState) : Stmt Unit → Stmt (Option Nat) × VState
  | .nop => (.nop, v)
  | .seq a b =>
    let ra := visit inBlock mac v a
    let rb := visit inBlock mac ra.2 b
    (.seq ra.1 rb.1, rb.2)
  | .expr _ e => let r := visitExpr inBlock v e; (.expr r.1 e, r.2)
  | .decls ds => (.decls ds, visitDecls false mac v ds)
  | .block m s => let r := visit true m v s; (.block m r.1, r.2)
  | .ite c a b =>
    let ra := visit false mac (v.uses c.names) a
    let rb := visit false mac ra.2 b
    (.ite c ra.1 rb.1, rb.2)
  | .loop c s => let r := visit false mac (v.uses c.names) s; (.loop c r.1, r.2)
  | .loopFor m ds c i s =>
    let r := visit false m (((visitDecls false m v ds).uses c.names).uses i.names) s
    (.loopFor m ds c i r.1, r.2)
  | .each none a s => let r := visit false mac (v.use (.var a)) s; (.each none a r.1, r.2)
  | .each (some d) a s =>
    let r := visit false mac (visitDecl false mac (v.use (.var a)) d) s
    (.each (some d) a r.1, r.2)
  | .ret e => (.ret e, v.uses e.names)
  | .brk => (.brk, v)
  | .cont => (.cont, v)

/-- The declaration may be removed (lines 146-181): it is not a parameter, its initializer has no side effect, there
are no macros in its scope. -/
def allowed (e : Entry) : Bool :=
  !e.param && !(e.decl.init.map sideEffect).getD false && !e.mac

/-- Check a group of declarations (lines 183-203): if there is a live declaration then all of them are preserved. -/
def keepGroup (dead : List Nat) (g : List Nat) : List Nat :=
  if g.any (fun d => !dead.contains d) then dead.filter fun d => !g.contains d else dead

/-- Declarations to remove. -/
def VState.removed (v : VState) : List Nat :=
  v.multi.foldl keepGroup ((v.dead.filter allowed).map (·.decl.id))

/-- Remove declarations and dead accesses (lines 210-229). -/
def prune (D : List Nat) : Stmt (Option Nat) → Stmt Unit
  | .nop => .nop
  | .seq a b => .seq (prune D a) (prune D b)
  | .expr none e => .expr () e
  | .expr (some d) e => if D.contains d then .nop else .expr () e
  | .decls ds => .decls (ds.filter fun d => !D.contains d.id)
  | .block m s => .block m (prune D s)
  | .ite c a b => .ite c (prune D a) (prune D b)
  | .loop c s => .loop c (prune D s)
  | .loopFor m ds c i s => .loopFor m (ds.filter fun d => !D.contains d.id) c i (prune D s)
  | .each d a s => .each (d.filter fun d => !D.contains d.id) a (prune D s)
  | .ret e => .ret e
  | .brk => .brk
  | .cont => .cont

/-- Traverse a function: parameters are not inside a statement, there is no scope for them. -/
def visitFunc (f : Func Unit) : Stmt (Option Nat) × VState :=
  visit false false (f.params.foldl (visitDecl true false) {}) f.body

/-- Declarations which are removed from the function. -/
def removed (f : Func Unit) : List Nat := (visitFunc f).2.removed

/-- Models `runOnFunction` and `eliminateDeadDecls` (lines 143-231, 262-297). -/
def eliminate (f : Func Unit) : Func Unit :=
  let D := removed f
  ⟨f.params.filter fun d => !D.contains d.id, prune D (visitFunc f).1⟩

end DeadDecls
end Tsar
