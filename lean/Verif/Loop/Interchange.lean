import Mathlib.Logic.Equiv.Basic
import Mathlib.Data.List.Basic
import Mathlib.Data.List.Nodup
import Mathlib.Algebra.Group.End
import Mathlib.Data.List.Perm.Basic
import Mathlib.GroupTheory.Perm.Basic

/-!
# Interchange of loop headers (C45)

Models the processing of `interchange` clauses from
`/repo/lib/Transform/Clang/LoopInterchange.cpp`.
-/

namespace Tsar.Loop.Interchange

/-- A loop of the traversed statement, in the order of `mInductions`
(`LoopInterchange.cpp:181-184`): declaration of its induction variable (`none` is a null pointer,
the loop is not canonical), the name of this variable and the source of the header. -/
structure Lp where
  var : Option ℕ
  name : String
  header : String
  deriving DecidableEq, Repr

/-- Results: a diagnostic is printed and nothing is changed, undefined behaviour, or the list of
headers after the transformation. -/
inductive Outcome
  | disabled
  | undefined
  | done (headers : List String)
  deriving DecidableEq, Repr

/-- `InterchangeClauseVisitor` (`LoopInterchange.cpp:149-167`): string literals of the clauses, one
after another.  A clause has exactly two names (`Directives.td:141-142`).  The literal with the
name of the clause itself is also visited and skipped, so are all literals equal to it. -/
def literals (clauses : List (String × String)) : List String :=
  (clauses.flatMap fun c => [c.1, c.2]).filter (· ≠ "interchange")

/-- Position of the loop with a given name of the induction variable
(`LoopInterchange.cpp:372-385`); loops without a variable are skipped. -/
def findLoop (loops : List Lp) (nm : String) : Option ℕ :=
  loops.findIdx? fun l => l.var.isSome && l.name == nm

/-- Positions of all literals, `none` if some name is unknown (`LoopInterchange.cpp:370-396`). -/
def resolve (loops : List Lp) : List String → Option (List ℕ)
  | [] => some []
  | nm :: rest => (findLoop loops nm).bind fun i => (resolve loops rest).map (i :: ·)

/-- `std::swap(*find(Order, A), *find(Order, B))` (`LoopInterchange.cpp:464-468`); `none` if a value
is not found. -/
def swapValues (order : List (Option ℕ)) (a b : Option ℕ) : Option (List (Option ℕ)) :=
  if a ∈ order ∧ b ∈ order then
    some ((order.set (order.idxOf a) b).set (order.idxOf b) a)
  else none

/-- The loop over `ValueSwaps` with the step two (`LoopInterchange.cpp:463-469`); the access to the
absent second element is undefined. -/
def applySwaps : List (Option ℕ) → List (Option ℕ) → Option (List (Option ℕ))
  | [], order => some order
  | [_], _ => none
  | a :: b :: rest, order => (swapValues order a b).bind (applySwaps rest)

/-- The header written to the loop number `i` (`LoopInterchange.cpp:485-503`); `sources` are the
headers collected before the transformation. -/
def newHeader (loops : List Lp) (order : List (Option ℕ)) (sources : List String) (i : ℕ)
    (l : Lp) : Option String :=
  match order[i]? with
  | none => some l.header
  | some v =>
    if v ≠ l.var then
      (loops.findIdx? fun l' => l'.var = v).bind fun j => sources[j]?
    else some l.header

/-- All headers, `none` if some access is out of range. -/
def newHeaders (loops : List Lp) (order : List (Option ℕ)) (sources : List String) :
    ℕ → List Lp → Option (List String)
  | _, [] => some []
  | i, l :: rest => (newHeader loops order sources i l).bind fun h =>
      (newHeaders loops order sources (i + 1) rest).map (h :: ·)

/-- Processing of the clauses (`LoopInterchange.cpp:367-507`).  `ok i m` stands for the checks of
the loop `i` when `m` is the innermost interchanged loop: perfect nesting (except for the
innermost loop) and `checkLoop`; in each mode `checkLoop` rejects a loop which is not canonical
(contract `Checks`). -/
def interchange (loops : List Lp) (ok : ℕ → ℕ → Bool) (clauses : List (String × String)) :
    Outcome :=
  match resolve loops (literals clauses) with
  | none => .disabled
  | some positions =>
    let maxIdx := positions.foldl max 0
    if (List.range (maxIdx + 1)).all (ok · maxIdx) then
      let order := (loops.take (maxIdx + 1)).map Lp.var
      let swaps := positions.map fun p => (loops[p]?).bind Lp.var
      match applySwaps swaps order with
      | none => .undefined
      | some order' =>
        match newHeaders loops order' ((loops.take (maxIdx + 1)).map Lp.header) 0 loops with
        | none => .undefined
        | some hs => .done hs
    else .disabled

/-! ## Specification -/

/-- Contract of the checks: a loop which is not canonical is rejected, and so is a loop which does
not exist. -/
def Checks (loops : List Lp) (ok : ℕ → ℕ → Bool) : Prop :=
  ∀ i m, ok i m = true → ∃ l v, loops[i]? = some l ∧ l.var = some v

/-- Different loops have different induction variables (declarations, not names). -/
def Distinct (loops : List Lp) : Prop :=
  ∀ (i j : ℕ) (l l' : Lp) (v : ℕ), loops[i]? = some l → loops[j]? = some l' → l.var = some v →
    l'.var = some v → i = j

/-- `v` is the induction variable of the outermost canonical loop with a given name of the
variable. -/
def Named (loops : List Lp) (nm : String) (v : ℕ) : Prop :=
  ∃ (i : ℕ) (l : Lp), loops[i]? = some l ∧ l.name = nm ∧ l.var = some v ∧
    ∀ j < i, ∀ l' : Lp, loops[j]? = some l' → l'.name = nm → l'.var = none

/-- Composition of the requested transpositions of variables, in the order of clauses. -/
inductive Composes (loops : List Lp) : List (String × String) → Equiv.Perm ℕ → Prop
  | nil : Composes loops [] 1
  | snoc {cs : List (String × String)} {σ : Equiv.Perm ℕ} {x y : String} {a b : ℕ} :
      Composes loops cs σ → Named loops x a → Named loops y b →
      Composes loops (cs ++ [(x, y)]) (Equiv.swap a b * σ)

end Tsar.Loop.Interchange
