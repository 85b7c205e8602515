import Verif.Propagate.Spec
/-!
# Model of expression propagation

`DefUseVisitor` of lib/Transform/Clang/ExprPropagation.cpp. Results of an analysis of IR are inputs: replacements which
are known before the traversal (`Direct`) and usages of definitions (`Usage`). How the last ones are obtained is
modelled in `Verif/Propagate/Avail`.

Simplifications: diagnostics and conditions on macros and included files are not modelled; marks of regions and
`mNotPropagate` are a part of a reference; expressions have no side effects; replaced text is a syntax tree.
-/
namespace Tsar.Propagate

/-- A replacement which is built by `unparseReplacement`, ExprPropagation.cpp:814-887: a constant, a function or
a global object (there is no `Access` in these cases), a variable. -/
inductive Direct where
  | const (c : Int)
  | object (d : Nat)
  | var (d : Nat)

/-- A text which replaces a reference and declarations it uses: `ReplacementT`, ExprPropagation.cpp:149-155. -/
abbrev Repl := E × List Nat

/-- ExprPropagation.cpp:979-984. -/
def Direct.repl : Direct → Repl
  | .const c => (.num c, [])
  | .object d => (.ref false d, [])
  | .var d => (.ref false d, [d])

/-- `DeclUseLocationMap`, ExprPropagation.cpp:165-171. -/
structure Usage where
  loc : Nat
  cand : List Nat
  avail : List Nat

/-- The text of an expression (`Lexer::getSourceText`). -/
def E.text (S : Src) : E → T
  | .num c => .num c
  | .ref _ d => .name (S.name d)
  | .bin f a b => .bin f (a.text S) (b.text S)
  | .load a => .load (a.text S)
  | .loc _ e => e.text S

/-- The visitor: `mUseLocs`; `mVisibleDecls` with `mNameToVisibleDecl` (the top of a stack is the first); `mDeclsInScope`. -/
structure St where
  uses : Nat → Option (List (Nat × Repl))
  stacks : Nat → List Nat
  frames : List (List Nat)

variable (S : Src) (defs : Nat → Option (List Usage))

/-- The condition on accessed declarations, ExprPropagation.cpp:470-485. -/
def visible (st : St) (a : Nat) : Bool := (st.stacks (S.name a)).head? == some a || S.globals.contains a

/-- `VisitDeclRefExpr`, ExprPropagation.cpp:444-495, for references and `TraverseStmt`, lines 276-297, for
expressions: `cur` is the top of `mReplacement`. -/
def rewrite (st : St) : Option Nat → E → T
  | _, .num c => .num c
  | cur, .ref p d =>
    if !p then .name (S.name d)
    else
      match cur.bind st.uses with
      | none => .name (S.name d)
      | some rs =>
        match rs.lookup d with
        | none => .name (S.name d)
        | some r => if r.2.all (visible S st) then r.1.text S else .name (S.name d)
  | cur, .bin f a b => .bin f (rewrite st cur a) (rewrite st cur b)
  | cur, .load a => .load (rewrite st cur a)
  | cur, .loc l e => rewrite st (if (st.uses l).isSome then some l else cur) e

/-- The loop over references in a right-hand side, ExprPropagation.cpp:590-609. References which have not been
processed, `IsAllDeclRefAvailable` and `RHSDecls` are returned. -/
def scan (avail : List Nat) : List Nat → Bool → List Nat → List Nat × Bool × List Nat
  | [], ok, seen => ([], ok, seen)
  | r :: rs, ok, seen =>
    if S.enum r then scan avail rs ok (r :: seen)
    else if !avail.contains r then (r :: rs, false, r :: seen)
    else scan avail rs ok (r :: seen)

/-- New replacements for candidates, ExprPropagation.cpp:611-625. -/
def addCands (rhs : E) (seen : List Nat) : List Nat → List (Nat × Repl) → List (Nat × Repl)
  | [], rs => rs
  | D :: Ds, rs =>
    if seen.contains D then addCands rhs seen Ds rs
    else addCands rhs seen Ds ((D, (rhs, seen)) :: rs)

/-- The loop over usages of a definition, ExprPropagation.cpp:587-627. -/
def check (rhs : E) : List Usage → List Nat → Bool → List Nat → (Nat → Option (List (Nat × Repl))) →
    Nat → Option (List (Nat × Repl))
  | [], _, _, _, uses => uses
  | u :: us, refs, ok, seen, uses =>
    let r := scan S u.avail refs ok seen
    let uses := if r.2.1 then
        fun l => if l = u.loc then some (addCands rhs r.2.2 u.cand ((uses l).getD [])) else uses l
      else uses
    check rhs us r.1 r.2.1 r.2.2 uses

/-- `exitFromScope`, ExprPropagation.cpp:641-656. -/
def popAll : List Nat → (Nat → List Nat) → Nat → List Nat
  | [], st => st
  | n :: ns, st => popAll ns (fun m => if m = n then (st m).tail else st m)

/-- A step of the traversal and a new text of an expression. `enter`: `enterInScope` (lines 630-639), `decl`:
`VisitNamedDecl` (lines 414-426), `assign`: `TraverseBinaryOperator` (lines 362-376) and `TraverseVarDecl`
(lines 428-442). -/
def step (st : St) : Ev → St × Option T
  | .enter => ({ st with frames := [] :: st.frames }, none)
  | .exit =>
    ({ st with stacks := popAll (st.frames.headD []) st.stacks, frames := st.frames.tail }, none)
  | .decl d =>
    ({ st with stacks := fun m => if m = S.name d then d :: st.stacks m else st.stacks m,
               frames := match st.frames with
                 | [] => []
                 | f :: fs => (S.name d :: f) :: fs }, none)
  | .expr e => (st, some (rewrite S st none e))
  | .assign dl e =>
    match defs dl with
    | none => (st, some (rewrite S st none e))
    | some us => ({ st with uses := check S e us e.refs true [] st.uses }, some (rewrite S st none e))

/-- Texts after the traversal. -/
def traverse : St → List Ev → List (Option T)
  | _, [] => []
  | st, ev :: es => (step S defs st ev).2 :: traverse (step S defs st ev).1 es

/-- The state of the visitor before the traversal (`runOnFunction`, ExprPropagation.cpp:958-985). -/
def initial (direct : Nat → Option (List (Nat × Direct))) : St where
  uses := fun l => (direct l).map fun rs => rs.map fun r => (r.1, r.2.repl)
  stacks := fun _ => []
  frames := []

end Tsar.Propagate
