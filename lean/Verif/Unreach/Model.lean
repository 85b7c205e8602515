/-!
# Elimination of unreachable code

Models the visitor of `lib/Transform/Clang/UnreachableCodeElimination.cpp` 71-556 and
`findSideEffect` (`lib/Support/Clang/Utils.cpp` 486-499). A program is a tree of
statements and expressions of C together with the marks which are set by coverage data,
the result of the visitor is the sequence of tokens of the new text.

Simplifications: a program has no macros, so `isMacroPrevent` is always false; the
visitor is inside of the region which is enabled by the directive (`mIsActive`); there
are no `switch`, `do`, labels, `if` with declarations in the header; a call has one
argument and always returns; all values are integers.
-/

namespace Tsar.Unreach

/-- Tokens of a program. -/
inductive Tok where
  | kif | kelse | kwhile | kfor | kint | kbrk | kcont | kret
  | lp | rp | lb | rb | semi | comma | quest | colon | oror | andand | eq | incr
  | op (o : Nat) | id (x : Nat) | num (k : Int)
  deriving DecidableEq

/-- An expression. `dead e` is the expression `e` whose source range is not executed
according to coverage data (`isUnreachable`, lines 558-598). -/
inductive Expr where
  | var (x : Nat)
  | num (k : Int)
  | bin (o : Nat) (a b : Expr)
  | par (e : Expr)
  | asg (x : Nat) (e : Expr)
  | inc (x : Nat)
  | call (f : Nat) (e : Expr)
  | land (a b : Expr)
  | lor (a b : Expr)
  | cond (c a b : Expr)
  | comma (a b : Expr)
  | dead (e : Expr)

/-- A statement or a sequence of statements. A declaration is followed by statements
in its scope. `dead s` is a statement which is not executed according to coverage
data. -/
inductive Stmt where
  | expr (e : Expr)
  | empty
  | skip
  | seq (a b : Stmt)
  | decl (x : Nat) (e : Expr) (rest : Stmt)
  | block (b : Stmt)
  | ifT (c : Expr) (t : Stmt)
  | ifE (c : Expr) (t e : Stmt)
  | loop (c : Expr) (b : Stmt)
  | for_ (i c k : Option Expr) (b : Stmt)
  | forD (x : Nat) (e : Expr) (c k : Option Expr) (b : Stmt)
  | brk
  | cont
  | ret (e : Expr)
  | dead (s : Stmt)

/-! ## The text of a program -/

/-- Tokens of an expression. -/
def Expr.toks : Expr → List Tok
  | .var x => [.id x]
  | .num k => [.num k]
  | .bin o a b => a.toks ++ [.op o] ++ b.toks
  | .par e => [.lp] ++ e.toks ++ [.rp]
  | .asg x e => [.id x, .eq] ++ e.toks
  | .inc x => [.incr, .id x]
  | .call f e => [.id f, .lp] ++ e.toks ++ [.rp]
  | .land a b => a.toks ++ [.andand] ++ b.toks
  | .lor a b => a.toks ++ [.oror] ++ b.toks
  | .cond c a b => c.toks ++ [.quest] ++ a.toks ++ [.colon] ++ b.toks
  | .comma a b => a.toks ++ [.comma] ++ b.toks
  | .dead e => e.toks

/-- Tokens of an optional expression. -/
def otoks : Option Expr → List Tok
  | none => []
  | some e => e.toks

/-- Tokens of a statement. -/
def Stmt.toks : Stmt → List Tok
  | .expr e => e.toks ++ [.semi]
  | .empty => []
  | .skip => [.semi]
  | .seq a b => a.toks ++ b.toks
  | .decl x e r => [.kint, .id x, .eq] ++ e.toks ++ [.semi] ++ r.toks
  | .block b => [.lb] ++ b.toks ++ [.rb]
  | .ifT c t => [.kif, .lp] ++ c.toks ++ [.rp] ++ t.toks
  | .ifE c t e => [.kif, .lp] ++ c.toks ++ [.rp] ++ t.toks ++ [.kelse] ++ e.toks
  | .loop c b => [.kwhile, .lp] ++ c.toks ++ [.rp] ++ b.toks
  | .for_ i c k b => [.kfor, .lp] ++ otoks i ++ [.semi] ++ otoks c ++ [.semi] ++ otoks k ++
      [.rp] ++ b.toks
  | .forD x e c k b => [.kfor, .lp, .kint, .id x, .eq] ++ e.toks ++ [.semi] ++ otoks c ++
      [.semi] ++ otoks k ++ [.rp] ++ b.toks
  | .brk => [.kbrk, .semi]
  | .cont => [.kcont, .semi]
  | .ret e => [.kret] ++ e.toks ++ [.semi]
  | .dead s => s.toks

/-! ## Transformation -/

/-- `findSideEffect` (`lib/Support/Clang/Utils.cpp` 486-499): there is a call, an
assignment or an increment in an expression. -/
def side : Expr → Bool
  | .var _ | .num _ => false
  | .bin _ a b => side a || side b
  | .par e => side e
  | .asg _ _ | .inc _ | .call _ _ => true
  | .land a b => side a || side b
  | .lor a b => side a || side b
  | .cond c a b => side c || side a || side b
  | .comma a b => side a || side b
  | .dead e => side e

/-- The optional expression has side effects. -/
def oside : Option Expr → Bool
  | none => false
  | some e => side e

/-- Insertion of a token before the last one. -/
def beforeLast (t : Tok) (ts : List Tok) : List Tok :=
  ts.dropLast ++ [t] ++ (ts.getLast?).toList

/-- Removal of the last token. -/
def noLast (ts : List Tok) : List Tok := ts.dropLast

/-- Text of a visited expression. `s` is true if the token after the expression is `;`
(`getEndLocWithSemi`, lines 600-609).

`TraverseStmt` (lines 86-132) removes an unreachable expression; `TraverseBinaryOperator`
(lines 184-200) removes an unreachable right operand of a logical operation;
`TraverseConditionalOperator` (lines 202-283) removes an unreachable operand and the
condition, or makes the comma operator if the condition has side effects. In the last
case `)` is inserted at the beginning of the token `;` after the expression or of
the last token of the expression if there is no `;`; the removal of the last operand
(lines 276-277) also removes `)` which is inserted before its last token. Edits inside
of a condition which has been removed are not modelled. -/
def editE (s : Bool) : Expr → List Tok
  | .var x => [.id x]
  | .num k => [.num k]
  | .bin o a b => editE false a ++ [.op o] ++ editE s b
  | .par e => [.lp] ++ editE false e ++ [.rp]
  | .asg x e => [.id x, .eq] ++ editE s e
  | .inc x => [.incr, .id x]
  | .call f e => [.id f, .lp] ++ editE false e ++ [.rp]
  | .land a (.dead _) => editE false a
  | .land a b => editE false a ++ [.andand] ++ editE s b
  | .lor a (.dead _) => editE false a
  | .lor a b => editE false a ++ [.oror] ++ editE s b
  | .cond c (.dead _) b =>
    if side c then
      if s then [.lp] ++ editE false c ++ [.comma] ++ editE s b ++ [.rp]
      else [.lp] ++ editE false c ++ [.comma] ++ beforeLast .rp (editE s b)
    else editE s b
  | .cond c a (.dead _) =>
    if side c then
      if s then [.lp] ++ editE false c ++ [.comma] ++ editE false a ++ [.rp]
      else [.lp] ++ editE false c ++ [.comma] ++ editE false a
    else editE false a
  | .cond c a b => editE false c ++ [.quest] ++ editE false a ++ [.colon] ++ editE s b
  | .comma a b => editE false a ++ [.comma] ++ editE s b
  | .dead _ => []

/-- Text of a visited optional expression. -/
def oedit (s : Bool) : Option Expr → List Tok
  | none => []
  | some e => editE s e

/-- There is a declaration among statements of a sequence (lines 334-336). -/
def hasDecl : Stmt → Bool
  | .seq a b => hasDecl a || hasDecl b
  | .decl _ _ _ => true
  | .dead s => hasDecl s
  | _ => false

/-- The condition of a removed `if` or `while` (lines 351-366, 418-444): a condition
with side effects becomes a statement. -/
def condPart (c : Expr) : List Tok :=
  if side c then editE false c ++ [.semi] else []

/-- Insertion of `}` at the beginning of the last token of a statement
(lines 345-346); `;` is not a part of a statement which is an expression. -/
def closeBrace (ts : List Tok) : List Tok :=
  if ts.getLast? = some .semi then beforeLast .rb ts.dropLast ++ [.semi]
  else beforeLast .rb ts

/-- The text of the reachable branch of a removed `if` (lines 333-347), `ts` is the
text of the visited branch: braces are removed if there are no declarations inside of
them, braces are inserted if the branch is a loop with a declaration. -/
def branch (ts : List Tok) : Stmt → List Tok
  | .block b => if hasDecl b then ts else (ts.drop 1).dropLast
  | .forD _ _ _ _ _ => [.lb] ++ closeBrace ts
  | .dead _ => []
  | _ => ts

/-- The rest of an unreachable body of `for` with a declaration (lines 494-499): `{…}`
is replaced with `;`, any other statement is removed without `;` after it. -/
def bodyRest : Stmt → List Tok
  | .block _ => [.semi]
  | .skip => []
  | .dead s => bodyRest s
  | b => if b.toks.getLast? = some .semi then [.semi] else []

/-- Text of `for` with an unreachable body and without declarations (lines 505-553).
If the initialization has side effects and the condition has not then the last token of
the initialization is removed together with `;` (lines 544-545). The range which has to
contain the increment is `)` only because of the comma operator (lines 548-550). -/
def forRest (i c k : Option Expr) : List Tok :=
  if oside i then
    if oside c then oedit true i ++ [.semi] ++ oedit true c ++ [.semi] ++ otoks k
    else noLast (oedit true i) ++ [.semi] ++ otoks k
  else if oside c then oedit true c ++ [.semi] ++ otoks k
  else []

/-- Text of a visited statement: `TraverseStmt` (lines 86-132), `TraverseIfStmt`
(285-403), `TraverseWhileStmt` (405-447), `TraverseForStmt` (449-556). -/
def edit : Stmt → List Tok
  | .expr e => editE true e ++ [.semi]
  | .empty => []
  | .skip => [.semi]
  | .seq a b => edit a ++ edit b
  | .decl x e r => [.kint, .id x, .eq] ++ editE true e ++ [.semi] ++ edit r
  | .block b => [.lb] ++ edit b ++ [.rb]
  | .ifT c (.dead _) => condPart c
  | .ifT c t => [.kif, .lp] ++ editE false c ++ [.rp] ++ edit t
  | .ifE c (.dead _) e => condPart c ++ branch (edit e) e
  | .ifE c t (.dead _) => condPart c ++ branch (edit t) t
  | .ifE c t e => [.kif, .lp] ++ editE false c ++ [.rp] ++ edit t ++ [.kelse] ++ edit e
  | .loop c (.dead _) => condPart c
  | .loop c b => [.kwhile, .lp] ++ editE false c ++ [.rp] ++ edit b
  | .for_ i c k (.dead _) => forRest i c k
  | .for_ i c k b => [.kfor, .lp] ++ oedit true i ++ [.semi] ++ oedit true c ++ [.semi] ++
      oedit false k ++ [.rp] ++ edit b
  | .forD x e c _ (.dead b) => [.kfor, .lp, .kint, .id x, .eq] ++ editE true e ++ [.semi] ++
      oedit true c ++ [.semi] ++ [.rp] ++ bodyRest b
  | .forD x e c k b => [.kfor, .lp, .kint, .id x, .eq] ++ editE true e ++ [.semi] ++
      oedit true c ++ [.semi] ++ oedit false k ++ [.rp] ++ edit b
  | .brk => [.kbrk, .semi]
  | .cont => [.kcont, .semi]
  | .ret e => [.kret] ++ editE true e ++ [.semi]
  | .dead _ => []

end Tsar.Unreach
