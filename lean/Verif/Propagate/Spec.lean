/-!
# Expression propagation: a specification

A source program is a list of events in the order of a traversal of its text: scopes are opened and closed, variables
are declared, expressions are evaluated. A reference in an abstract syntax tree refers to a declaration. In a text
there are names only, a name refers to the innermost visible declaration.
-/
namespace Tsar.Propagate

/-- An expression. `ref p d` is a reference to the declaration `d`; `p` is set if the reference may be replaced (it is
in a `propagate` region and it is not a target of an assignment). `loc l e` is an expression at the location `l`. -/
inductive E where
  | num (c : Int)
  | ref (p : Bool) (d : Nat)
  | bin (f : Nat) (a b : E)
  | load (a : E)
  | loc (l : Nat) (e : E)

/-- A text of an expression (parentheses are implied by the structure). -/
inductive T where
  | num (c : Int)
  | name (n : Nat)
  | bin (f : Nat) (a b : T)
  | load (a : T)
deriving DecidableEq

/-- Values of variables, a content of memory and a meaning of operations. -/
structure Env where
  var : Nat → Int
  mem : Int → Int

variable (op : Nat → Int → Int → Int)

def E.eval (s : Env) : E → Int
  | .num c => c
  | .ref _ d => s.var d
  | .bin f a b => op f (a.eval s) (b.eval s)
  | .load a => s.mem (a.eval s)
  | .loc _ e => e.eval s

/-- The value of a text, `none` if there is a name which is not declared. -/
def T.eval (res : Nat → Option Nat) (s : Env) : T → Option Int
  | .num c => some c
  | .name n => (res n).map s.var
  | .bin f a b => do let x ← a.eval res s; let y ← b.eval res s; return op f x y
  | .load a => (a.eval res s).map s.mem

/-- Declarations an expression refers to. -/
def E.refs : E → List Nat
  | .num _ => []
  | .ref _ d => [d]
  | .bin _ a b => a.refs ++ b.refs
  | .load a => a.refs
  | .loc _ e => e.refs

/-- Locations of an expression and its parts. -/
def E.locs : E → List Nat
  | .num _ => []
  | .ref _ _ => []
  | .bin _ a b => a.locs ++ b.locs
  | .load a => a.locs
  | .loc l e => l :: e.locs

/-- Memory (not only variables) is read. -/
def E.reads : E → Bool
  | .num _ => false
  | .ref _ _ => false
  | .bin _ a b => a.reads || b.reads
  | .load _ => true
  | .loc _ e => e.reads

/-- Events of a traversal. `assign dl e`: an expression `e` is the right-hand side of an assignment (or of an
initialization) which is located at `dl`. -/
inductive Ev where
  | enter
  | exit
  | decl (d : Nat)
  | expr (e : E)
  | assign (dl : Nat) (e : E)

def Ev.exp? : Ev → Option E
  | .expr e => some e
  | .assign _ e => some e
  | _ => none

/-- Declarations. -/
structure Src where
  name : Nat → Nat
  /-- Names of enumerators are constants. -/
  enum : Nat → Bool
  /-- Declarations out of functions. -/
  globals : List Nat

/-- Scopes after a list of events, the innermost scope is the first. -/
def scopes : List (List Nat) → List Ev → List (List Nat)
  | fs, [] => fs
  | fs, .enter :: es => scopes ([] :: fs) es
  | fs, .exit :: es => scopes fs.tail es
  | f :: fs, .decl d :: es => scopes ((d :: f) :: fs) es
  | [], .decl _ :: es => scopes [] es
  | fs, .expr _ :: es => scopes fs es
  | fs, .assign _ _ :: es => scopes fs es

/-- Scopes are properly nested, `n` is a number of open scopes. -/
def nested : Nat → List Ev → Bool
  | _, [] => true
  | n, .enter :: es => nested (n + 1) es
  | n, .exit :: es => decide (0 < n) && nested (n - 1) es
  | n, .decl _ :: es => decide (0 < n) && nested n es
  | n, .expr _ :: es => nested n es
  | n, .assign _ _ :: es => nested n es

/-- A declaration a name refers to. -/
def resolve (S : Src) (fs : List (List Nat)) (n : Nat) : Option Nat :=
  (fs.flatten ++ S.globals).find? fun d => S.name d == n

end Tsar.Propagate
