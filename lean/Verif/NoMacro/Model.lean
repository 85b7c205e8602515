import Mathlib.Data.List.Basic

/-!
# Check of assertions that there are no macros (C178, C179)

Models `NoMacroChecker` and `ClangNoMacroAssert` from `/repo/lib/Analysis/Clang/NoMacroAssert.cpp`.
-/

namespace Tsar.NoMacro

/-- A node of a syntax tree: a pragma with the `assert nomacro` clause, another pragma, a statement or
a declaration with its identifier and children in the order of traversal. -/
inductive Node
  | clause (c : ℕ)
  | pragma
  | node (n : ℕ) (kids : List Node)

/-- What `for_each_macro()` knows about a node: locations of macros in its source range and whether
the range is in a single file. -/
structure Src where
  macros : ℕ → List ℕ
  single : ℕ → Bool

/-- A reported error: a macro at a location violates a clause, or a range of a node, to which a clause
is attached, is not in a single file. -/
inductive Err
  | atMacro (c loc : ℕ)
  | range (c n : ℕ)
  deriving DecidableEq, Repr

/-- `checkNode()` (`NoMacroAssert.cpp:113-130`). -/
def check (s : Src) (c n : ℕ) : List Err :=
  (s.macros n).map (.atMacro c) ++ if s.single n then [] else [.range c n]

mutual
/-- `TraverseStmt()` and `TraverseDecl()` (`NoMacroAssert.cpp:75-101`).  The state is `mActiveClause`
and reported errors. -/
def visit (s : Src) : Node → Option ℕ × List Err → Option ℕ × List Err
  | .clause c, (none, es) => (some c, es)
  | .clause _, (some a, es) => (some a, es)
  | .pragma, st => st
  | .node n _, (some a, es) => (none, es ++ check s a n)
  | .node _ kids, (none, es) => visitList s kids (none, es)

/-- Traversal of children. -/
def visitList (s : Src) : List Node → Option ℕ × List Err → Option ℕ × List Err
  | [], st => st
  | x :: xs, st => visitList s xs (visit s x st)
end

/-- Errors which are reported for a translation unit (`NoMacroAssert.cpp:169-170`). -/
def errors (s : Src) (t : Node) : List Err := (visit s t (none, [])).2

/-- `isInvalid()` (`NoMacroAssert.cpp:73`). -/
def invalid (s : Src) (t : Node) : Bool := !(errors s t).isEmpty

/-- `ClangNoMacroAssert::runOnFunction()` for functions of a module in the order of processing: a
function is described by its translation unit, `none` if there is no unit in C or C++ or its sources
are not available (`NoMacroAssert.cpp:143-173`).  The state is `*mIsInvalid` and reported errors. -/
def runAll : List (Option (Src × Node)) → Bool × List Err → Bool × List Err
  | [], st => st
  | none :: fs, st => runAll fs st
  | some (s, t) :: fs, st => runAll fs (invalid s t, st.2 ++ errors s t)

end Tsar.NoMacro
