import Verif.Unreach.Spec

/-!
# Programs which are transformed correctly

Restrictions on a program under which elimination of unreachable code preserves its
behaviour. A marked construct is an operand of a logical operation or of the
conditional operator, a branch, a body of a loop or a statement of a sequence.
-/

namespace Tsar.Unreach

/-- How a value of an expression is used: as a number, as a condition or it is not
used. -/
inductive Ctx where
  | val | cond | void
  deriving DecidableEq

/-- The condition of a removed conditional operator has no marks if it is removed.
If it has side effects it is kept, the operator has to be followed by `;`. -/
def Marks : Expr → Bool
  | .var _ | .num _ | .inc _ => false
  | .bin _ a b => Marks a || Marks b
  | .par e => Marks e
  | .asg _ e => Marks e
  | .call _ e => Marks e
  | .land a b => Marks a || Marks b
  | .lor a b => Marks a || Marks b
  | .cond c a b => Marks c || Marks a || Marks b
  | .comma a b => Marks a || Marks b
  | .dead _ => true

/-- An expression is transformed correctly, `s` means that the next token is `;`. The
right operand of `||` can be unreachable if the value of the operation is not used as a
number. A remaining operand of the conditional operator has no comma or assignment at
the top if the condition is removed. -/
def Safe (k : Ctx) (s : Bool) : Expr → Prop
  | .var _ | .num _ | .inc _ => True
  | .bin _ a b => Safe .val false a ∧ Safe .val s b
  | .par e => Safe k false e
  | .asg _ e => Safe .val s e
  | .call _ e => Safe .val false e
  | .land a (.dead _) => Safe .cond false a
  | .land a b => Safe .cond false a ∧ Safe .cond s b
  | .lor a (.dead _) => k ≠ .val ∧ Safe .cond false a
  | .lor a b => Safe .cond false a ∧ Safe .cond s b
  | .cond c (.dead _) b =>
    (if side c then s = true ∧ Safe .void false c else Marks c = false) ∧ Safe k s b
  | .cond c a (.dead _) =>
    (if side c then s = true ∧ Safe .void false c ∧ 1 ≤ lvl a
      else Marks c = false ∧ 2 ≤ lvl a) ∧ Safe k false a
  | .cond c a b => Safe .cond false c ∧ Safe k false a ∧ Safe k s b
  | .comma a b => Safe .void false a ∧ Safe k s b
  | .dead _ => False

/-- An optional expression is transformed correctly. -/
def OSafe (k : Ctx) (s : Bool) (o : Option Expr) : Prop := ∀ e, o = some e → Safe k s e

/-- The statement is replaced with several statements or with nothing: `if` with an
unreachable branch or a loop with an unreachable body. -/
def flat : Stmt → Bool
  | .ifT _ (.dead _) => true
  | .ifE _ (.dead _) _ => true
  | .ifE _ _ (.dead _) => true
  | .loop _ (.dead _) => true
  | .for_ _ _ _ (.dead _) => true
  | _ => false

/-- The last token of a statement is `}`. -/
def braced : Stmt → Prop
  | .block _ => True
  | .ifT _ t => braced t
  | .ifE _ _ e => braced e
  | .loop _ b => braced b
  | .for_ _ _ _ b => braced b
  | .forD _ _ _ _ b => braced b
  | _ => False

/-- Restriction on the remaining branch of `if`: a loop with a declaration ends
with `}`. -/
def BranchOk : Stmt → Prop
  | .forD x e c k b => braced (.forD x e c k b)
  | _ => True

/-- An unreachable body of `for` with a declaration is replaced with `;`. -/
def BodyOk : Stmt → Prop
  | .block _ => True
  | .expr _ | .brk | .cont | .ret _ => True
  | _ => False

/-- A statement is transformed correctly. A body or a branch is not replaced with
several statements unless it is inside of braces. -/
def SafeS : Stmt → Prop
  | .expr e => Safe .void true e
  | .empty | .skip | .brk | .cont | .dead _ => True
  | .seq a b => SafeS a ∧ SafeS b
  | .decl _ e r => Safe .val true e ∧ SafeS r
  | .block b => SafeS b
  | .ifT c (.dead _) => side c = true → Safe .void false c
  | .ifT c t => Safe .cond false c ∧ SafeS t ∧ flat t = false
  | .ifE c (.dead _) e => (side c = true → Safe .void false c) ∧ SafeS e ∧ BranchOk e
  | .ifE c t (.dead _) => (side c = true → Safe .void false c) ∧ SafeS t ∧ BranchOk t
  | .ifE c t e => Safe .cond false c ∧ SafeS t ∧ SafeS e ∧ flat t = false ∧ flat e = false
  | .loop c (.dead _) => side c = true → Safe .void false c
  | .loop c b => Safe .cond false c ∧ SafeS b ∧ flat b = false
  | .for_ i c k (.dead _) =>
    (oside i = true → oside c = true) ∧ (oside c = true → k = none) ∧
      (oside i = true → OSafe .void true i) ∧ (oside c = true → OSafe .void true c)
  | .for_ i c k b => OSafe .void true i ∧ OSafe .cond true c ∧ OSafe .void false k ∧
      SafeS b ∧ flat b = false
  | .forD _ e c _ (.dead b) => Safe .val true e ∧ OSafe .cond true c ∧ BodyOk b
  | .forD _ e c k b => Safe .val true e ∧ OSafe .cond true c ∧ OSafe .void false k ∧
      SafeS b ∧ flat b = false
  | .ret e => Safe .val true e

end Tsar.Unreach
