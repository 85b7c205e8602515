import Mathlib.Data.List.Basic

/-!
# Matching of variables and memory (C183, C184)

Models matching of variables which are declared in macros and of global variables from
`/repo/lib/Analysis/Clang/MemoryMatcher.cpp`.
-/

namespace Tsar.MemMatch

/-- A variable or an alloca which is described by metadata of a variable: a name and an identifier. -/
structure Item where
  name : ℕ
  id : ℕ
  deriving DecidableEq, Repr

/-- Neighbours with equal names (`MemoryMatcher.cpp:245-252`). -/
def sameNames : List Item → Bool
  | a :: b :: l => a.name == b.name || sameNames (b :: l)
  | _ => false

/-- Declarations at a location of a macro after preparation (`MemoryMatcher.cpp:240-252`); `srt` is
`llvm::sort()` by names. -/
def prepare (srt : List Item → List Item) (decls : List Item) : List Item :=
  if sameNames (srt decls) then [] else srt decls

/-- `matchInMacro()` for a location of a macro (`/repo/include/tsar/Analysis/AST/Matcher.h:121-145`),
`allocas` is `none` if there is no memory at the location, allocas are sorted by names
(`MemoryMatcher.cpp:194-198`).  The result is a list of pairs of a declaration and an alloca, and a list
of unmatched declarations. -/
def matchMacro (srt : List Item → List Item) (allocas : Option (List Item)) (decls : List Item) :
    List (Item × Item) × List Item :=
  match allocas with
  | none => ([], (prepare srt decls).reverse)
  | some as =>
    if as.length ≠ (prepare srt decls).length then ([], (prepare srt decls).reverse)
    else ((prepare srt decls).reverse.zip (srt as).reverse, [])

/-- Declarations which are matched with a global variable: functions are represented by translation
units with available sources, `decl u` is a declaration of the variable in a unit `u`
(`MemoryMatcher.cpp:212-269`). -/
def globalDecls (decl : ℕ → Option ℕ) : List (Option ℕ) → List ℕ
  | [] => []
  | none :: fs => globalDecls decl fs
  | some u :: fs => match decl u with
    | some d => d :: globalDecls decl fs
    | none => globalDecls decl fs

end Tsar.MemMatch
