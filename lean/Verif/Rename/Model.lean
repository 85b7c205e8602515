import Mathlib.Data.Nat.Digits.Defs
import Mathlib.Data.List.Basic
import Mathlib.Logic.Function.Basic

/-!
# Renaming of local objects

Model of `ClangRenamer` (`lib/Transform/Clang/RenameLocal.cpp`).  A translation unit is a sequence
of events in the order in which the visitor meets them.
-/

namespace Tsar.Rename

/-- Names are sequences of character codes. -/
abbrev Name := List Nat

/-- What the visitor meets.

* `func`: beginning of a declaration of a function (`TraverseFunctionDecl`);
* `pragma`: a directive `rename`;
* `enter loop mac`: beginning of a scope, `loop` if this is a compound statement or a loop, `mac`
  if there is a mac inside the scope;
* `leave`: end of a scope;
* `decl id n`: a named declaration (`id` is the declaration, `n` is its name);
* `ref n`: a reference in an expression (`DeclRefExpr`);
* `tref n`: a name of a type or a member (not a `DeclRefExpr`);
* `stmt`: another statement. -/
inductive Ev
  | func
  | pragma
  | enter (loop mac : Bool)
  | leave
  | decl (id : Nat) (n : Name)
  | ref (n : Name)
  | tref (n : Name)
  | stmt
  deriving DecidableEq, Repr

/-- Visible declarations, the innermost is the first. -/
abbrev Env := List (Name × Nat)

/-- Name resolution. -/
def lookup (env : Env) (n : Name) : Option Nat := (env.find? fun p => p.1 == n).map (·.2)

/-- Decimal representation of a number (`Twine(Count)`). -/
def digits (n : Nat) : Name :=
  if n = 0 then [48] else ((Nat.digits 10 n).reverse.map (· + 48))

/-- Search of a new name: RenameLocal.cpp:167-170.  `fuel` is the number of attempts. -/
def search (ids : List Name) (n : Name) : Nat → Nat → Name
  | 0, k => n ++ digits k
  | fuel + 1, k => if (n ++ digits k) ∈ ids then search ids n fuel (k + 1) else n ++ digits k

/-- A name which is not used: after `ids.length` unsuccessful attempts the next one is successful. -/
def fresh (ids : List Name) (n : Name) : Name := search ids n ids.length 0

/-- State of the visitor.  `env` and `saved` describe scopes (they are a part of the AST),
`pend`: `mClauses` is not empty, `active`: `mActiveRename`, `ids`: `Identifiers`,
`change`: `mChange`. -/
structure St where
  env : Env := []
  saved : List (Env × Bool) := []
  pend : Bool := false
  active : Bool := false
  ids : List Name
  change : Nat → Option Name := fun _ => none

/-- One event: `TraverseStmt` (RenameLocal.cpp:89-142), `VisitStmt`, `VisitDecl`
(RenameLocal.cpp:144-160), `VisitNamedDecl` (RenameLocal.cpp:162-178), `VisitDeclRefExpr`
(RenameLocal.cpp:180-189), `TraverseFunctionDecl` (RenameLocal.cpp:191-196).
The result is the event in the new text. -/
def step (st : St) : Ev → Ev × St
  | .func => (.func, { st with change := fun _ => none, pend := false })
  | .pragma => (.pragma, { st with pend := true })
  | .enter loop mac =>
    (.enter loop mac,
      { st with
        saved := (st.env, st.active) :: st.saved
        pend := false
        active := st.active || (st.pend && loop && !mac) })
  | .leave =>
    (.leave, { st with
      env := (st.saved.head?.map (·.1)).getD st.env
      active := (st.saved.head?.map (·.2)).getD st.active
      saved := st.saved.tail })
  | .decl id n =>
    let st := { st with pend := false, env := (n, id) :: st.env }
    if st.active && decide (n ∈ st.ids) then
      let m := fresh st.ids n
      (.decl id m, { st with ids := m :: st.ids, change := Function.update st.change id (some m) })
    else (.decl id n, st)
  | .ref n =>
    let st := { st with pend := false }
    if st.active then
      match lookup st.env n with
      | some d => (.ref ((st.change d).getD n), st)
      | none => (.ref n, st)
    else (.ref n, st)
  | .tref n => (.tref n, st)
  | .stmt => (.stmt, { st with pend := false })

/-- The new text. -/
def run : St → List Ev → List Ev
  | _, [] => []
  | st, e :: es => (step st e).1 :: run (step st e).2 es

/-- `runOnModule`: RenameLocal.cpp:222-248; `ids` are identifiers in the sources. -/
def rename (ids : List Name) (es : List Ev) : List Ev := run { ids := ids } es

/-! ## Specification -/

/-- Scopes and names only. -/
structure Sc where
  env : Env := []
  saved : List (Env × Bool) := []
  pend : Bool := false
  active : Bool := false

/-- An event with the declaration to which its name is resolved and with the mark whether names
must be changed here (the directive precedes this scope or an outer one, and there are no macros). -/
structure Seen where
  ev : Ev
  to? : Option Nat
  active : Bool

/-- Rules of scopes. -/
def Sc.next (s : Sc) : Ev → Sc
  | .func => { s with pend := false }
  | .pragma => { s with pend := true }
  | .enter loop mac =>
    { env := s.env, saved := (s.env, s.active) :: s.saved, pend := false,
      active := s.active || (s.pend && loop && !mac) }
  | .leave =>
    { s with
      env := (s.saved.head?.map (·.1)).getD s.env
      active := (s.saved.head?.map (·.2)).getD s.active
      saved := s.saved.tail }
  | .decl id n => { s with pend := false, env := (n, id) :: s.env }
  | .ref _ => { s with pend := false }
  | .tref _ => s
  | .stmt => { s with pend := false }

/-- The declaration to which the name in an event is resolved. -/
def Sc.resolve (s : Sc) : Ev → Option Nat
  | .ref n => lookup s.env n
  | .tref n => lookup s.env n
  | .decl id _ => some id
  | _ => none

/-- Name resolution in a translation unit. -/
def walk : Sc → List Ev → List Seen
  | _, [] => []
  | s, e :: es => ⟨e, s.resolve e, s.active⟩ :: walk (s.next e) es

/-- Name in an event. -/
def Ev.name? : Ev → Option Name
  | .decl _ n => some n
  | .ref n => some n
  | .tref n => some n
  | _ => none

/-- An event without its name. -/
def Ev.shape : Ev → Ev
  | .decl id _ => .decl id []
  | .ref _ => .ref []
  | .tref _ => .tref []
  | e => e

/-- Declarations. -/
def decls : List Ev → List Nat
  | [] => []
  | .decl id _ :: es => id :: decls es
  | _ :: es => decls es

/-- Restrictions: there are no declarations of functions in a scope where names are changed, and
names of types and members do not refer to declarations from such scopes. -/
def Plain (es : List Ev) : Prop :=
  (∀ x ∈ walk {} es, x.active = true → x.ev ≠ .func) ∧
  ∀ x ∈ walk {} es, ∀ y ∈ walk {} es, ∀ n d m, x.ev = .tref n → x.to? = some d →
    y.ev = .decl d m → y.active = false

end Tsar.Rename
