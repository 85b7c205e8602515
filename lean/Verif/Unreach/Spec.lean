import Verif.Unreach.Model
import Mathlib.Logic.Function.Basic

/-!
# Programs and their execution

Rules of the grammar of C which relate a text to a tree, and execution of a program.
Execution stops at a construct which is marked as unreachable, so a run which does not
stop there agrees with coverage data.
-/

namespace Tsar.Unreach

/-! ## Grammar -/

/-- Precedence of an expression in the grammar of C. -/
def lvl : Expr → Nat
  | .comma _ _ => 0
  | .asg _ _ => 1
  | .cond _ _ _ => 2
  | .lor _ _ => 3
  | .land _ _ => 4
  | .bin _ _ _ => 5
  | .inc _ => 6
  | .var _ | .num _ | .par _ | .call _ _ => 7
  | .dead e => lvl e

/-- The grammar of C reads tokens of the expression as this expression: there are no
missing parentheses. -/
def Proper : Expr → Prop
  | .var _ | .num _ | .inc _ => True
  | .bin _ a b => Proper a ∧ Proper b ∧ 5 ≤ lvl a ∧ 6 ≤ lvl b
  | .par e => Proper e
  | .asg _ e => Proper e ∧ 1 ≤ lvl e
  | .call _ e => Proper e ∧ 1 ≤ lvl e
  | .land a b => Proper a ∧ Proper b ∧ 4 ≤ lvl a ∧ 5 ≤ lvl b
  | .lor a b => Proper a ∧ Proper b ∧ 3 ≤ lvl a ∧ 4 ≤ lvl b
  | .cond c a b => Proper c ∧ Proper a ∧ Proper b ∧ 3 ≤ lvl c ∧ 2 ≤ lvl b
  | .comma a b => Proper a ∧ Proper b ∧ 1 ≤ lvl b
  | .dead e => Proper e

/-- An optional expression has no missing parentheses. -/
def OProper (o : Option Expr) : Prop := ∀ e, o = some e → Proper e

/-- A single statement, it can be a body of a loop or a branch. -/
def Single : Stmt → Prop
  | .empty | .seq _ _ | .decl _ _ _ => False
  | .dead s => Single s
  | _ => True

/-- `else` after the statement belongs to `if` inside of the statement. -/
def opens : Stmt → Bool
  | .ifT _ _ => true
  | .ifE _ _ e => opens e
  | .loop _ b => opens b
  | .for_ _ _ _ b => opens b
  | .forD _ _ _ _ b => opens b
  | .dead s => opens s
  | _ => false

/-- The grammar of C reads tokens of the statement as this statement. -/
def ProperS : Stmt → Prop
  | .expr e => Proper e
  | .empty | .skip | .brk | .cont => True
  | .seq a b => ProperS a ∧ ProperS b ∧ hasDecl a = false
  | .decl _ e r => Proper e ∧ 1 ≤ lvl e ∧ ProperS r
  | .block b => ProperS b
  | .ifT c t => Proper c ∧ ProperS t ∧ Single t
  | .ifE c t e => Proper c ∧ ProperS t ∧ ProperS e ∧ Single t ∧ Single e ∧ opens t = false
  | .loop c b => Proper c ∧ ProperS b ∧ Single b
  | .for_ i c k b => OProper i ∧ OProper c ∧ OProper k ∧ ProperS b ∧ Single b
  | .forD _ e c k b =>
    Proper e ∧ 1 ≤ lvl e ∧ OProper c ∧ OProper k ∧ ProperS b ∧ Single b
  | .ret e => Proper e
  | .dead s => ProperS s

/-! ## Execution -/

/-- Values of variables. -/
abbrev St := Nat → Int

/-- Meaning of operations and functions. -/
structure Env where
  op : Nat → Int → Int → Int
  fn : Nat → Int → St → Int × St

/-- The value of an expression and the state after its evaluation, there is no result
if an unreachable expression has to be evaluated. -/
def ev (E : Env) : Expr → St → Option (Int × St)
  | .var x, σ => some (σ x, σ)
  | .num k, σ => some (k, σ)
  | .bin o a b, σ => do
    let (u, σ) ← ev E a σ
    let (v, σ) ← ev E b σ
    pure (E.op o u v, σ)
  | .par e, σ => ev E e σ
  | .asg x e, σ => do
    let (v, σ) ← ev E e σ
    pure (v, Function.update σ x v)
  | .inc x, σ => some (σ x + 1, Function.update σ x (σ x + 1))
  | .call f e, σ => do
    let (v, σ) ← ev E e σ
    pure (E.fn f v σ)
  | .land a b, σ => do
    let (u, σ) ← ev E a σ
    if u = 0 then pure (0, σ) else
      let (v, σ) ← ev E b σ
      pure (if v = 0 then 0 else 1, σ)
  | .lor a b, σ => do
    let (u, σ) ← ev E a σ
    if u ≠ 0 then pure (1, σ) else
      let (v, σ) ← ev E b σ
      pure (if v = 0 then 0 else 1, σ)
  | .cond c a b, σ => do
    let (u, σ) ← ev E c σ
    if u ≠ 0 then ev E a σ else ev E b σ
  | .comma a b, σ => do
    let (_, σ) ← ev E a σ
    ev E b σ
  | .dead _, _ => none

/-- How execution of a statement ends. -/
inductive Out where
  | norm | brk | cont | ret (v : Int)
  deriving DecidableEq

/-- Result of execution: the end of the statement, an attempt to execute a construct
which is marked as unreachable, or a loop with too many iterations. -/
inductive Res where
  | ok (o : Out) (σ : St)
  | hit
  | more

/-- Continue with the state after evaluation of an expression. -/
def Res.ofE (r : Option (Int × St)) (f : Int → St → Res) : Res :=
  match r with
  | none => .hit
  | some (v, σ) => f v σ

/-- Continue if a statement ends normally. -/
def Res.andThen (r : Res) (f : St → Res) : Res :=
  match r with
  | .ok .norm σ => f σ
  | r => r

/-- Restore a variable which is hidden by a declaration. -/
def Res.scope (r : Res) (x : Nat) (v : Int) : Res :=
  match r with
  | .ok o σ => .ok o (Function.update σ x v)
  | r => r

/-- A loop which repeats at most `n` times: a condition, a body and an increment. -/
def iter (c : St → Option (Int × St)) (b : St → Res) (k : St → Option (Int × St)) :
    Nat → St → Res
  | n, σ => .ofE (c σ) fun v σ =>
    if v = 0 then .ok .norm σ else
      match b σ with
      | .ok .brk σ => .ok .norm σ
      | .ok (.ret v) σ => .ok (.ret v) σ
      | .ok _ σ =>
        match n with
        | 0 => .more
        | n + 1 => .ofE (k σ) fun _ σ => iter c b k n σ
      | r => r

/-- Evaluation of an optional expression with the default value `d`. -/
def oev (E : Env) (d : Int) : Option Expr → St → Option (Int × St)
  | none, σ => some (d, σ)
  | some e, σ => ev E e σ

/-- Execution of a statement, each loop repeats at most `n` times. -/
def run (E : Env) (n : Nat) : Stmt → St → Res
  | .expr e, σ => .ofE (ev E e σ) fun _ σ => .ok .norm σ
  | .empty, σ => .ok .norm σ
  | .skip, σ => .ok .norm σ
  | .seq a b, σ => (run E n a σ).andThen (run E n b)
  | .decl x e r, σ => .ofE (ev E e σ) fun v σ' =>
    (run E n r (Function.update σ' x v)).scope x (σ' x)
  | .block b, σ => run E n b σ
  | .ifT c t, σ => .ofE (ev E c σ) fun v σ => if v ≠ 0 then run E n t σ else .ok .norm σ
  | .ifE c t e, σ => .ofE (ev E c σ) fun v σ => if v ≠ 0 then run E n t σ else run E n e σ
  | .loop c b, σ => iter (ev E c) (run E n b) (fun σ => some (0, σ)) n σ
  | .for_ i c k b, σ => .ofE (oev E 0 i σ) fun _ σ =>
    iter (oev E 1 c) (run E n b) (oev E 0 k) n σ
  | .forD x e c k b, σ => .ofE (ev E e σ) fun v σ' =>
    (iter (oev E 1 c) (run E n b) (oev E 0 k) n (Function.update σ' x v)).scope x (σ' x)
  | .brk, σ => .ok .brk σ
  | .cont, σ => .ok .cont σ
  | .ret e, σ => .ofE (ev E e σ) fun v σ => .ok (.ret v) σ
  | .dead _, _ => .hit

/-! ## Programs without marks -/

/-- The expression without marks. -/
def Expr.plain : Expr → Expr
  | .var x => .var x
  | .num k => .num k
  | .bin o a b => .bin o a.plain b.plain
  | .par e => .par e.plain
  | .asg x e => .asg x e.plain
  | .inc x => .inc x
  | .call f e => .call f e.plain
  | .land a b => .land a.plain b.plain
  | .lor a b => .lor a.plain b.plain
  | .cond c a b => .cond c.plain a.plain b.plain
  | .comma a b => .comma a.plain b.plain
  | .dead e => e.plain

/-- The statement without marks. -/
def Stmt.plain : Stmt → Stmt
  | .expr e => .expr e.plain
  | .empty => .empty
  | .skip => .skip
  | .seq a b => .seq a.plain b.plain
  | .decl x e r => .decl x e.plain r.plain
  | .block b => .block b.plain
  | .ifT c t => .ifT c.plain t.plain
  | .ifE c t e => .ifE c.plain t.plain e.plain
  | .loop c b => .loop c.plain b.plain
  | .for_ i c k b => .for_ (i.map Expr.plain) (c.map Expr.plain) (k.map Expr.plain) b.plain
  | .forD x e c k b => .forD x e.plain (c.map Expr.plain) (k.map Expr.plain) b.plain
  | .brk => .brk
  | .cont => .cont
  | .ret e => .ret e.plain
  | .dead s => s.plain

end Tsar.Unreach
