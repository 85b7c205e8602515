import Mathlib.Data.List.Basic
import Mathlib.Data.List.Nodup
import Mathlib.Logic.Relation

/-!
# Places of loops in a source program and in LLVM IR (specification)

The data the matcher of loops works with, and what it means that a loop of the source program and
a loop of LLVM IR are at the same place.  Nothing here refers to the matcher.

A place is a class of positions which are equal for `DILocationMapInfo::isEqual`: the same line, the
same column and the same file (include/tsar/Support/DILocationMapInfo.h:92-117).
-/
namespace Tsar.Matcher

/-- A place in the source. -/
abbrev Place := Nat

/-- The position where a statement begins: it may be unknown, it may be a place in a file, or it may
be in a macro. In the last case the raw encoding of the position of the expansion is known. -/
inductive Pos
  | unknown
  | file (p : Place)
  | inMacro (raw : Nat)
  deriving DecidableEq

/-- What the matcher knows of the kind of a statement: `for` with the position of its initialization
(if there is any), another explicit loop (`while`, `do`), a label, a loop over a range of C++,
anything else (any other statement and any expression: expressions are statements in Clang). -/
inductive Kind
  | forLoop (init : Option Pos)
  | loop
  | label
  | rangeFor
  | other
  deriving DecidableEq

/-- A statement. Two statements are the same node of AST if and only if they are equal. -/
structure Stmt where
  id : Nat
  kind : Kind
  begin_ : Pos
  deriving DecidableEq

/-- A loop of LLVM IR: the position where it starts (`Loop::getStartLoc()`) and the position of the
terminator of its header. Each of them may be unknown. -/
structure IRLoop where
  id : Nat
  start : Option Place
  header : Option Place
  deriving DecidableEq

/-- `for`, `while`, `do`: the loops the matcher knows. -/
def Stmt.isLoop (s : Stmt) : Prop :=
  match s.kind with
  | .forLoop _ => True
  | .loop => True
  | _ => False

instance (s : Stmt) : Decidable s.isLoop := by
  unfold Stmt.isLoop
  split <;> infer_instance

section
variable (presumed : Nat → Place)

/-- The place of a position: a statement from a macro is at the place where the macro is expanded. -/
def Pos.place : Pos → Option Place
  | .unknown => none
  | .file p => some p
  | .inMacro raw => some (presumed raw)

/-- The place where a statement begins. -/
def Stmt.place (s : Stmt) : Option Place := s.begin_.place presumed

/-- The place where the initialization of a `for` begins. -/
def Stmt.initPlace (s : Stmt) : Option Place :=
  match s.kind with
  | .forLoop (some i) => i.place presumed
  | _ => none

/-- A `for` of the program begins at `b` and its initialization begins at `a`. -/
def Leads (stmts : List Stmt) (a b : Place) : Prop :=
  ∃ s ∈ stmts, s.isLoop ∧ s.initPlace presumed = some a ∧ s.place presumed = some b

/-- A loop of the source and a loop of LLVM IR are at the same place: the loop of LLVM IR starts
where the statement begins, or where the initialization of this `for` begins, up to steps from the
place of an initialization to the place of its `for`. (Two different statements may be at one place,
when a file is included twice, so it may be the initialization of another `for`.) -/
def SamePlace (stmts : List Stmt) (s : Stmt) (l : IRLoop) : Prop :=
  ∃ a b, l.start = some a ∧ Relation.ReflTransGen (Leads presumed stmts) a b ∧
    (s.place presumed = some b ∨ s.initPlace presumed = some b)

/-- The statements outside macros which begin at a place, in the order of the source. -/
def stmtsAt (stmts : List Stmt) (p : Place) : List Stmt :=
  stmts.filter (fun s => s.begin_ = .file p)

/-- The loops of LLVM IR which start at a place, outer loops before inner ones. -/
def loopsAt (loops : List IRLoop) (p : Place) : List IRLoop :=
  loops.filter (fun l => l.start = some p)

/-- The explicit loops from a macro expanded at the position `raw`, in the order of the source. -/
def macroAt (stmts : List Stmt) (raw : Nat) : List Stmt :=
  stmts.filter (fun s => s.begin_ = .inMacro raw ∧ s.isLoop)

/-- The last label before the end of a list of statements. -/
def lastLabel (stmts : List Stmt) : Option Stmt :=
  (stmts.filter (fun s => s.kind = .label)).getLast?

end

end Tsar.Matcher
