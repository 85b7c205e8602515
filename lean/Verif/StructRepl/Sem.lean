import Verif.StructRepl.Cover

/-!
# Meaning of expressions and statements (specification for C134, C136)
-/

namespace Tsar.StructRepl

/-- A location: an object (an element of an array) and a path of offsets of members inside it. -/
structure HLoc where
  obj : Int
  path : List Nat
  deriving DecidableEq, Repr

/-- A value. -/
inductive Val
  | int (n : Int)
  | ptr (l : HLoc)
  deriving DecidableEq, Repr

/-- What an expression denotes: memory or a parameter which is passed by value. -/
inductive Loc
  | mem (l : HLoc)
  | par (v : Var) (f : Field)
  deriving DecidableEq, Repr

/-- A new variable: a parameter with a value, or a variable which is allocated at some place. -/
inductive Param
  | value (x : Val)
  | place (l : HLoc)
  deriving DecidableEq, Repr

/-- Environment: places of variables, new variables, offsets of members. -/
structure Env where
  var : Var → HLoc
  par : Var → Field → Param
  off : Field → Nat

abbrev Mem := HLoc → Val

/-- A member of an object. -/
def Env.at (env : Env) (l : HLoc) (f : Field) : HLoc := ⟨l.obj, l.path ++ [env.off f]⟩

/-- The value which is stored at a location. -/
def Env.read (env : Env) (m : Mem) : Loc → Option Val
  | .mem l => some (m l)
  | .par v f => match env.par v f with
    | .value x => some x
    | .place _ => none

def Val.loc : Val → Option HLoc
  | .ptr l => some l
  | .int _ => none

def Val.num : Val → Option Int
  | .int n => some n
  | .ptr _ => none

def Loc.addr : Loc → Option HLoc
  | .mem l => some l
  | .par _ _ => none

/-- Meaning of operators and casts. -/
structure Ops where
  op : Nat → Val → Val → Option Val
  cast : Val → Val

/-- Meaning of an expression: a location if it denotes memory, and a value otherwise. -/
def sem (o : Ops) (env : Env) (m : Mem) : Expr → Option Loc × Option Val
  | .ref v => (some (.mem (env.var v)), none)
  | .lit n => (none, some (.int n))
  | .lv2rv e => (none, (sem o env m e).1.bind (env.read m))
  | .cast e => (none, (sem o env m e).2.map o.cast)
  | .paren e => sem o env m e
  | .deref e => ((sem o env m e).2.bind (fun x => x.loc.map .mem), none)
  | .addr e => (none, (sem o env m e).1.bind (fun l => l.addr.map .ptr))
  | .sub b i =>
    ((sem o env m b).2.bind (fun x => x.loc.bind (fun l => (sem o env m i).2.bind (fun y => y.num.map (fun k =>
      .mem ⟨l.obj + k, l.path⟩)))), none)
  | .member _ b f a =>
    if a then ((sem o env m b).2.bind (fun x => x.loc.map (fun l => .mem (env.at l f))), none)
    else ((sem o env m b).1.bind (fun x => x.addr.map (fun l => .mem (env.at l f))), none)
  | .op k a b => (none, (sem o env m a).2.bind (fun x => (sem o env m b).2.bind (fun y => o.op k x y)))
  | .call _ _ => (none, none)
  | .arg _ _ => (none, none)
  | .nil => (none, none)
  | .new v f => match env.par v f with
    | .value _ => (some (.par v f), none)
    | .place l => (some (.mem l), none)

def upd (m : Mem) (l : HLoc) (x : Val) : Mem := fun k => if k = l then x else m k

/-- Statements. -/
abbrev Expr.seq (a b : Expr) : Expr := .op 0 a b
abbrev Expr.assign (l e : Expr) : Expr := .op 1 l e
abbrev Expr.ite (c a b : Expr) : Expr := .op 2 c (.op 3 a b)
abbrev Expr.while (c b : Expr) : Expr := .op 4 c b
abbrev Expr.ext (k : Nat) (e : Expr) : Expr := .call k (.arg e .nil)

/-- Executions of statements. `ext` is any external action, it may change memory. Each change of memory satisfies
`ok`. -/
inductive Run (o : Ops) (ext : Nat → Val → Mem → Mem) (ok : Mem → Mem → Prop) (env : Env) : Expr → Mem → Mem → Prop
  | skip (m) : Run o ext ok env .nil m m
  | seq {a b m m' m''} : Run o ext ok env a m m' → Run o ext ok env b m' m'' → Run o ext ok env (.seq a b) m m''
  | assign {l e m p x} : (sem o env m l).1 = some (.mem p) → (sem o env m e).2 = some x → ok m (upd m p x) →
      Run o ext ok env (.assign l e) m (upd m p x)
  | iteT {c a b m m' x} : (sem o env m c).2 = some x → x ≠ .int 0 → Run o ext ok env a m m' →
      Run o ext ok env (.ite c a b) m m'
  | iteF {c a b m m'} : (sem o env m c).2 = some (.int 0) → Run o ext ok env b m m' →
      Run o ext ok env (.ite c a b) m m'
  | whileT {c b m m' m'' x} : (sem o env m c).2 = some x → x ≠ .int 0 → Run o ext ok env b m m' →
      Run o ext ok env (.while c b) m' m'' → Run o ext ok env (.while c b) m m''
  | whileF {c b m} : (sem o env m c).2 = some (.int 0) → Run o ext ok env (.while c b) m m
  | ext {k e m x} : (sem o env m e).2 = some x → ok m (ext k x m) → Run o ext ok env (.ext k e) m (ext k x m)

/-- Go through a chain of pointers. -/
def chase (m : Mem) : HLoc → Nat → Option HLoc
  | l, 0 => some l
  | l, d + 1 => (m l).loc.bind (fun l' => chase m l' d)

/-- A type of a chain of dereferences which starts from a variable: is it a location and how many pointers should be
passed to obtain a structure. `depth v` is a number of pointers in a type of a variable. -/
def chain (depth : Var → Nat) : Expr → Option (Var × Bool × Nat)
  | .ref v => some (v, true, depth v)
  | .lv2rv e => match chain depth e with
    | some (v, true, k + 1) => some (v, false, k)
    | _ => none
  | .paren e => chain depth e
  | .deref e => match chain depth e with
    | some (v, false, k) => some (v, true, k)
    | _ => none
  | .addr e => match chain depth e with
    | some (v, true, k) => some (v, false, k)
    | _ => none
  | _ => none

/-- Types of a function: pointers in types of variables and members which are accessed as arrays. -/
structure Types where
  depth : Var → Nat
  col : Var → Field → Bool

/-- An expression which has a value or denotes memory. -/
def isVal : Expr → Bool
  | .arg _ _ => false
  | .nil => false
  | _ => true

/-- Member expressions which mention candidates are well-typed: `v->f`, `v.f`, `(*v).f` and so on, or `v[i].f`. -/
def typed (t : Types) (P : Var → Bool) : Expr → Prop
  | .ref _ => True
  | .lit _ => True
  | .lv2rv e => typed t P e ∧ isVal e = true
  | .cast e => typed t P e ∧ isVal e = true
  | .paren e => typed t P e
  | .deref e => typed t P e
  | .addr e => typed t P e
  | .sub b i => typed t P b ∧ typed t P i
  | .member _ b f a => typed t P b ∧ (spine (fun _ => none) b ∨ (∀ v ∈ refs b, P v = false) ∨
      (∃ v, chain t.depth b = some (v, !a, 0) ∧ t.col v f = false) ∨
      (∃ v b' i, b = .sub b' i ∧ chain t.depth b' = some (v, false, 0) ∧ a = false ∧ t.col v f = true ∧
        flat (fun _ => none) i ∧ ∀ w ∈ refs i, P w = false))
  | .op _ a b => typed t P a ∧ typed t P b
  | .call _ args => typed t P args
  | .arg a rest => typed t P a ∧ typed t P rest
  | .nil => True
  | .new _ _ => False

/-- New variables describe members of structures: a member of a local structure is a variable (different variables
are at different places), a pointer to a member is
passed if the member may be changed, a pointer to the first element is passed for an array (it is known from
metadata that elements of this array are members of elements of an array of structures), otherwise the value of the
member is passed. -/
def Bound (i : Info) (t : Types) (c : Cands) (env : Env) (m : Mem) : Prop :=
  ∀ v f r, flagOf c v f = some r → ∃ l, chase m (env.var v) (t.depth v) = some l ∧
    env.par v f = (if i.isRec v then .place ⟨l.obj, l.path ++ [f]⟩
      else if r.asg || r.arr then .value (.ptr (env.at l f))
      else .value (m (env.at l f)))

/-- A step of execution changes neither pointers to structures nor members which are passed by value. -/
def Stable (i : Info) (t : Types) (c : Cands) (env : Env) (m m' : Mem) : Prop :=
  ∀ v f r, flagOf c v f = some r → chase m' (env.var v) (t.depth v) = chase m (env.var v) (t.depth v) ∧
    (i.isRec v = false → r.asg = false → r.arr = false →
      ∀ l, chase m (env.var v) (t.depth v) = some l → m' (env.at l f) = m (env.at l f))

end Tsar.StructRepl
