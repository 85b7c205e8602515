import Mathlib.Data.List.Basic

/-!
# Global declarations of a translation unit (C182)

Models `GlobalInfoExtractor::TraverseDecl()` from
`/repo/lib/Analysis/Clang/GlobalInfoExtractor.cpp`.
-/

namespace Tsar.GlobalNames

/-- A kind of a declaration: `TagDecl`, `EnumConstantDecl`, another `NamedDecl`, a declaration without
a name (for example, `LinkageSpecDecl`). -/
inductive Kind
  | tag
  | enumerator
  | named
  | unnamed
  deriving DecidableEq, Repr

/-- A declaration with declarations inside it in the order of traversal. -/
inductive D
  | mk (id : ℕ) (kind : Kind) (kids : List D)

/-- A declaration is `NamedDecl`. -/
def hasName (k : Kind) : Bool := k != .unnamed

/-- `mOutermostDecl` and `mOutermostDecls`: pairs of a declaration and its outermost declaration;
partition by names is omitted. -/
abbrev St := Option (ℕ × Kind) × List (ℕ × ℕ)

/-- A nested declaration is remembered (`GlobalInfoExtractor.cpp:135-136`). -/
def nested (cpp : Bool) (o k : Kind) : Bool := !cpp && o == .tag && (k == .tag || k == .enumerator)

mutual
/-- `TraverseDecl()` for a declaration which is not a translation unit
(`GlobalInfoExtractor.cpp:113-142`). -/
def trav (cpp : Bool) : D → St → St
  | .mk i k ks, (none, out) =>
    (none, (travList cpp ks (some (i, k), if hasName k then out ++ [(i, i)] else out)).2)
  | .mk i k ks, (some o, out) =>
    travList cpp ks (some o, if nested cpp o.2 k then out ++ [(i, o.1)] else out)

/-- Traversal of declarations inside a declaration or a translation unit. -/
def travList (cpp : Bool) : List D → St → St
  | [], st => st
  | d :: ds, st => travList cpp ds (trav cpp d st)
end

/-- `getOutermostDecls()` for a translation unit. -/
def globals (cpp : Bool) (top : List D) : List (ℕ × ℕ) := (travList cpp top (none, [])).2

end Tsar.GlobalNames
