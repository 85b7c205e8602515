import Verif.DeadDecls.Model

/-
Specification: what a function does and which functions are accepted by a compiler.  It does not use the visitor.
-/

namespace Tsar
namespace DeadDecls

/-! ### Behaviour -/

/-- Observable events: calls of functions (and of constructors), accesses to volatile variables. -/
inductive Ev where
  | call (f : Nat) (a b : Int)
  | ctor (f : Nat) (a b : Int)
  | read (d : Nat) (v : Int)
  | write (d : Nat) (v : Int)
  deriving DecidableEq

/-- Values of variables, `none` is an indeterminate value. -/
abbrev Env := Nat → Option Int

/-- The rest of the program.  `vis` are variables which other functions and pointers may access (global variables,
local variables if an address is taken), other functions depend on these variables only.  `target` is the variable
which is denoted by a name (it is another variable if the name is a reference of C++).  `none` is undefined
behaviour. -/
structure World where
  vis : Nat → Bool
  vol : Nat → Bool
  target : Nat → Nat
  op : Nat → Int → Int → Option Int
  addr : Nat → Int
  size : Nat → Int
  enumConst : Nat → Nat → Int
  load : Int → Env → Option Int
  store : Int → Int → Env → Option Env
  call : Nat → Int → Int → Env → Option (Int × Env)
  elems : Nat → Env → List Int

/-- State of execution. -/
structure State where
  env : Env
  trace : List Ev

/-- Memory which is visible to other functions. -/
def World.view (W : World) (m : Env) : Env := fun d => if W.vis d then m d else none

/-- Memory after it has been changed by other functions. -/
def World.merge (W : World) (m m' : Env) : Env := fun d => if W.vis d then m' d else m d

def State.set (σ : State) (d : Nat) (v : Option Int) : State := { σ with env := fun x => if x = d then v else σ.env x }

def State.emit (σ : State) (e : Ev) : State := { σ with trace := σ.trace ++ [e] }

/-- Read a variable. -/
def World.read (W : World) (d : Nat) (σ : State) : Option (Int × State) :=
  (σ.env (W.target d)).map fun v => (v, if W.vol d then σ.emit (.read (W.target d) v) else σ)

/-- Write a variable. -/
def World.write (W : World) (d : Nat) (v : Int) (σ : State) : State :=
  let σ := σ.set (W.target d) (some v)
  if W.vol d then σ.emit (.write (W.target d) v) else σ

/-- The value of an expression and the state after its evaluation. -/
def eval (W : World) : Expr → State → Option (Int × State)
  | .const c, σ => some (c, σ)
  | .var d, σ => W.read d σ
  | .addr d, σ => some (W.addr d, σ)
  | .enumConst d k, σ => some (W.enumConst d k, σ)
  | .sizeOf t, σ => some (W.size t, σ)
  | .op o a b, σ =>
    (eval W a σ).bind fun x => (eval W b x.2).bind fun y => (W.op o x.1 y.1).map fun z => (z, y.2)
  | .cond c a b, σ => (eval W c σ).bind fun x => if x.1 ≠ 0 then eval W a x.2 else eval W b x.2
  | .deref a, σ => (eval W a σ).bind fun x => (W.load x.1 (W.view x.2.env)).map fun z => (z, x.2)
  | .assign d e, σ => (eval W e σ).map fun x => (x.1, W.write d x.1 x.2)
  | .update o d e, σ =>
    (eval W e σ).bind fun x => (W.read d x.2).bind fun y => (W.op o y.1 x.1).map fun z => (z, W.write d z y.2)
  | .incr o d, σ => (W.read d σ).bind fun y => (W.op o y.1 1).map fun z => (z, W.write d z y.2)
  | .store a e, σ =>
    (eval W a σ).bind fun x => (eval W e x.2).bind fun y =>
      (W.store x.1 y.1 (W.view y.2.env)).map fun m => (y.1, { y.2 with env := W.merge y.2.env m })
  | .call f a b, σ =>
    (eval W a σ).bind fun x => (eval W b x.2).bind fun y =>
      (W.call f x.1 y.1 (W.view y.2.env)).map fun r =>
        (r.1, { y.2 with env := W.merge y.2.env r.2 }.emit (.call f x.1 y.1))
  | .ctor f a b, σ =>
    (eval W a σ).bind fun x => (eval W b x.2).bind fun y =>
      (W.call f x.1 y.1 (W.view y.2.env)).map fun r =>
        (r.1, { y.2 with env := W.merge y.2.env r.2 }.emit (.ctor f x.1 y.1))

/-- Evaluate an optional expression. -/
def evalOpt (W : World) (e : Option Expr) (σ : State) : Option (Option Int × State) :=
  match e with
  | none => some (none, σ)
  | some e => (eval W e σ).map fun x => (some x.1, x.2)

/-- Execute a declaration.  Only an automatic variable is initialized (static variables are initialized before the
function starts), a reference is bound to its target and the target is not changed. -/
def runDecl (W : World) (d : Decl) (σ : State) : Option State :=
  match d.kind with
  | .var .auto =>
    (evalOpt W d.size σ).bind fun x => (evalOpt W d.init x.2).map fun y =>
      if W.target d.id = d.id then y.2.set d.id y.1 else y.2
  | _ => some σ

def runDecls (W : World) : List Decl → State → Option State
  | [], σ => some σ
  | d :: ds, σ => (runDecl W d σ).bind (runDecls W ds)

/-- How a statement ends.  `stop` means that a limit of iterations is reached (it is used to describe infinite
loops). -/
inductive Out where
  | normal | brk | cont | ret (v : Int) | stop
  deriving DecidableEq

/-- Iterations of a loop: at most `n` of them.  `c` is a condition, `i` is executed after each iteration. -/
def iter (c : State → Option (Int × State)) (body : State → Option (Out × State)) (i : State → Option State) :
    Nat → State → Option (Out × State)
  | 0, σ => some (.stop, σ)
  | n + 1, σ =>
    (c σ).bind fun x =>
      if x.1 = 0 then some (.normal, x.2)
      else (body x.2).bind fun r =>
        match r.1 with
        | .normal | .cont => (i r.2).bind (iter c body i n)
        | .brk => some (.normal, r.2)
        | o => some (o, r.2)

/-- Iterations over elements. -/
def over (W : World) (d : Decl) (body : State → Option (Out × State)) : List Int → State → Option (Out × State)
  | [], σ => some (.normal, σ)
  | v :: vs, σ =>
    (body (σ.set d.id (some v))).bind fun r =>
      match r.1 with
      | .normal | .cont => over W d body vs r.2
      | .brk => some (.normal, r.2)
      | o => some (o, r.2)

/-- Execution of a statement, `n` is a limit of iterations of each loop.  A range-based loop without a variable is not
a program. -/
def run {M : Type} (W : World) (n : Nat) : Stmt M → State → Option (Out × State)
  | .nop, σ => some (.normal, σ)
  | .seq a b, σ => (run W n a σ).bind fun r => if r.1 = .normal then run W n b r.2 else some r
  | .expr _ e, σ => (eval W e σ).map fun x => (.normal, x.2)
  | .decls ds, σ => (runDecls W ds σ).map fun τ => (.normal, τ)
  | .block _ s, σ => run W n s σ
  | .ite c a b, σ => (eval W c σ).bind fun x => if x.1 ≠ 0 then run W n a x.2 else run W n b x.2
  | .loop c s, σ => iter (eval W c) (run W n s) some n σ
  | .loopFor _ ds c i s, σ =>
    (runDecls W ds σ).bind (iter (eval W c) (run W n s) (fun τ => (eval W i τ).map (·.2)) n)
  | .each none _ _, _ => none
  | .each (some d) a s, σ => over W d (run W n s) (W.elems a (W.view σ.env)) σ
  | .ret e, σ => (eval W e σ).map fun x => (.ret x.1, x.2)
  | .brk, σ => some (.brk, σ)
  | .cont, σ => some (.cont, σ)

/-! ### Programs accepted by a compiler -/

/-- Names which are introduced by a declaration. -/
def Decl.provides (d : Decl) : List Name :=
  match d.kind with
  | .var _ => [.var d.id]
  | .tag t full enum => .type t :: ((if full then [.complete t] else []) ++ if enum then [.consts d.id] else [])

/-- Names in scope after declarations. -/
def afterDecls (G : List Name) (ds : List Decl) : List Name := G ++ ds.flatMap Decl.provides

/-- Each name in declarations is in scope. -/
def DeclsOk (G : List Name) : List Decl → Prop
  | [] => True
  | d :: ds => (∀ n ∈ d.names, n ∈ G ++ d.provides) ∧ DeclsOk (G ++ d.provides) ds

/-- Names in scope after a statement. -/
def after {M : Type} (G : List Name) : Stmt M → List Name
  | .seq a b => after (after G a) b
  | .decls ds => afterDecls G ds
  | _ => G

/-- Each name in a statement is in scope, a range-based loop has a variable. -/
def Ok {M : Type} (G : List Name) : Stmt M → Prop
  | .nop => True
  | .seq a b => Ok G a ∧ Ok (after G a) b
  | .expr _ e => ∀ n ∈ e.names, n ∈ G
  | .decls ds => DeclsOk G ds
  | .block _ s => Ok G s
  | .ite c a b => (∀ n ∈ c.names, n ∈ G) ∧ Ok G a ∧ Ok G b
  | .loop c s => (∀ n ∈ c.names, n ∈ G) ∧ Ok G s
  | .loopFor _ ds c i s =>
    DeclsOk G ds ∧ (∀ n ∈ c.names ++ i.names, n ∈ afterDecls G ds) ∧ Ok (afterDecls G ds) s
  | .each none _ _ => False
  | .each (some d) a s =>
    Name.var a ∈ G ∧ (∀ n ∈ d.names, n ∈ G ++ d.provides) ∧ Ok (G ++ d.provides) s
  | .ret e => ∀ n ∈ e.names, n ∈ G
  | .brk => True
  | .cont => True

/-- A function is accepted by a compiler, `G` are names which are declared outside of the function. -/
def Func.Ok {M : Type} (G : List Name) (f : Func M) : Prop :=
  DeclsOk G f.params ∧ DeadDecls.Ok (afterDecls G f.params) f.body

/-- Declarations of a statement. -/
def declsOf {M : Type} : Stmt M → List Decl
  | .nop => []
  | .seq a b => declsOf a ++ declsOf b
  | .expr _ _ => []
  | .decls ds => ds
  | .block _ s => declsOf s
  | .ite _ a b => declsOf a ++ declsOf b
  | .loop _ s => declsOf s
  | .loopFor _ ds _ _ s => ds ++ declsOf s
  | .each none _ s => declsOf s
  | .each (some d) _ s => d :: declsOf s
  | .ret _ => []
  | .brk => []
  | .cont => []

/-- Declarations of a function. -/
def Func.decls {M : Type} (f : Func M) : List Decl := f.params ++ declsOf f.body

/-- Groups of declarations of a statement: each group is declared together. -/
def groups {M : Type} : Stmt M → List (List Decl)
  | .seq a b => groups a ++ groups b
  | .decls ds => [ds]
  | .block _ s => groups s
  | .ite _ a b => groups a ++ groups b
  | .loop _ s => groups s
  | .loopFor _ ds _ _ s => ds :: groups s
  | .each _ _ s => groups s
  | _ => []

/-- Declarations of scopes without macros: `mac` is the flag of the innermost scope. -/
def noMacro {M : Type} (mac : Bool) : Stmt M → List Decl
  | .seq a b => noMacro mac a ++ noMacro mac b
  | .decls ds => if mac then [] else ds
  | .block m s => noMacro m s
  | .ite _ a b => noMacro mac a ++ noMacro mac b
  | .loop _ s => noMacro mac s
  | .loopFor m ds _ _ s => (if m then [] else ds) ++ noMacro m s
  | .each d _ s => (if mac then [] else d.toList) ++ noMacro mac s
  | _ => []

/-! ### Unused variables -/

/-- Names in an expression statement: the target of an assignment is not taken into account. -/
def stmtReads : Expr → List Name
  | .assign _ e => e.names
  | e => e.names

/-- Names in a statement except targets of assignments `x = e;`. -/
def reads {M : Type} : Stmt M → List Name
  | .nop => []
  | .seq a b => reads a ++ reads b
  | .expr _ e => stmtReads e
  | .decls ds => ds.flatMap Decl.names
  | .block _ s => reads s
  | .ite c a b => c.names ++ (reads a ++ reads b)
  | .loop c s => c.names ++ reads s
  | .loopFor _ ds c i s => ds.flatMap Decl.names ++ (c.names ++ (i.names ++ reads s))
  | .each d a s => .var a :: (d.toList.flatMap Decl.names ++ reads s)
  | .ret e => e.names
  | .brk => []
  | .cont => []

def Func.reads {M : Type} (f : Func M) : List Name := f.params.flatMap Decl.names ++ DeadDecls.reads f.body

/-- The function never mentions the declaration except in assignments `x = e;`. -/
def Func.Unused {M : Type} (f : Func M) (d : Decl) : Prop := ∀ n ∈ d.provides, n ∉ f.reads

/-- Names in a statement except targets of assignments `x = e;` which are members of compound statements, if `e`
contains no calls, no assignments, no increments and no decrements.  `inBlock` means that the statement is a member of a
compound statement. -/
def touches {M : Type} (inBlock : Bool) : Stmt M → List Name
  | .nop => []
  | .seq a b => touches inBlock a ++ touches inBlock b
  | .expr _ e => if inBlock && !(match e with | .assign _ r => sideEffect r | _ => false) then stmtReads e else e.names
  | .decls ds => ds.flatMap Decl.names
  | .block _ s => touches true s
  | .ite c a b => c.names ++ (touches false a ++ touches false b)
  | .loop c s => c.names ++ touches false s
  | .loopFor _ ds c i s => ds.flatMap Decl.names ++ (c.names ++ (i.names ++ touches false s))
  | .each d a s => .var a :: (d.toList.flatMap Decl.names ++ touches false s)
  | .ret e => e.names
  | .brk => []
  | .cont => []

/-- The function never mentions the declaration except in assignments which may be removed. -/
def Func.Untouched {M : Type} (f : Func M) (d : Decl) : Prop :=
  ∀ n ∈ d.provides, n ∉ f.params.flatMap Decl.names ++ touches false f.body

/-- Assignments `x = e;`. -/
def assigns {M : Type} : Stmt M → List (Nat × Expr)
  | .seq a b => assigns a ++ assigns b
  | .expr _ (.assign d e) => [(d, e)]
  | .block _ s => assigns s
  | .ite _ a b => assigns a ++ assigns b
  | .loop _ s => assigns s
  | .loopFor _ _ _ _ s => assigns s
  | .each _ _ s => assigns s
  | _ => []

/-- Variables of range-based loops. -/
def eachVars {M : Type} : Stmt M → List Decl
  | .seq a b => eachVars a ++ eachVars b
  | .block _ s => eachVars s
  | .ite _ a b => eachVars a ++ eachVars b
  | .loop _ s => eachVars s
  | .loopFor _ _ _ _ s => eachVars s
  | .each d _ s => d.toList ++ eachVars s
  | _ => []

/-- There are no accesses to volatile variables and no initializations of objects. -/
def Quiet (W : World) : Expr → Prop
  | .const _ => True
  | .var d => W.vol d = false
  | .addr _ => True
  | .enumConst _ _ => True
  | .sizeOf _ => True
  | .op _ a b => Quiet W a ∧ Quiet W b
  | .cond c a b => Quiet W c ∧ Quiet W a ∧ Quiet W b
  | .deref a => Quiet W a
  | .assign d e => W.vol d = false ∧ Quiet W e
  | .update _ d e => W.vol d = false ∧ Quiet W e
  | .incr _ d => W.vol d = false
  | .store a e => Quiet W a ∧ Quiet W e
  | .call _ a b => Quiet W a ∧ Quiet W b
  | .ctor _ _ _ => False

/-- A plain local variable: it is not volatile, it is not a reference, other functions have no access to it, its
initializer is quiet, an evaluation of a size of its type changes nothing. -/
structure Plain (W : World) (d : Decl) : Prop where
  vol : W.vol d.id = false
  target : W.target d.id = d.id
  vis : W.vis d.id = false
  init : ∀ e ∈ d.init, Quiet W e
  size : ∀ e ∈ d.size, ∀ σ v τ, eval W e σ = some (v, τ) → τ = σ

/-- Two executions cannot be distinguished, variables declared in the function do not exist when it ends. -/
def Same {M : Type} (f : Func M) (r r' : Out × State) : Prop :=
  r'.1 = r.1 ∧ r'.2.trace = r.2.trace ∧ ∀ d, (∀ x ∈ f.decls, x.id ≠ d) → r'.2.env d = r.2.env d

end DeadDecls
end Tsar
