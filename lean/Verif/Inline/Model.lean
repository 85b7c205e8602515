import Verif.Inline.Lang
/-!
# Model of the source-level inliner

`ClangInliner` of lib/Transform/Clang/Inline.cpp. The text it produces is represented with a syntax tree:
the place a text is inserted to and presence of braces decide which tree a compiler will see.

Simplifications:
* conditions on macros, files, clauses and unreachable code (TraverseCallExpr, lines 441-567) are an input:
  the mark of a call;
* removal of unreachable `return` statements (lines 735-757) is not modelled;
* comments, `#pragma spf assert nomacro` and spacing are not modelled;
* new names are drawn in a different order, a number of nested braces in `{ ... { ... } }` and the braces around
  `R = e; goto L;` may differ.
-/
namespace Tsar.Inline

/-- Identifiers which are already in use (`RawInfo::Identifiers`). -/
abbrev Ids := List Name

/-- A compiled callee: `ClangInliner::compile`, Inline.cpp:576-786. `lab` is `IsNeedLabel`. -/
structure Tpl where
  ps : List Name
  R : Name
  L : Name
  lab : Bool
  void : Bool
  body : List Stmt

/-- Text of an instantiation: a declaration of the returned value (line 784), a body with assignments
to parameters at its beginning (lines 605, 767) and a label after the body (lines 765-766). -/
def Tpl.text (T : Tpl) (as : List Expr) : List Stmt :=
  (if T.void then [] else [.decl [(T.R, none)]]) ++
  (.block ((T.ps.zip as).map (fun p => .decl [(p.1, some p.2)]) ++ T.body) ::
  (if T.lab then [.label T.L .skip] else []))

/-- Compilation of a callee: functions which are currently expanded, a name of the callee,
used identifiers. `none` if the call should not be expanded. -/
abbrev Inl := List Name → Name → Ids → Option (Tpl × Ids)

/-- Result of a transformation of an expression: statements to insert before the statement with a
call, a text to replace the whole statement, the expression, used identifiers. -/
structure PE where
  pre : List Stmt
  rep : List Stmt
  e : Expr
  ids : Ids

/-- The same for a list of expressions. -/
structure PL where
  pre : List Stmt
  rep : List Stmt
  es : List Expr
  ids : Ids

mutual

/-- Calls inside an expression. `ok` is `false` if one of the flags `InCondOp`, `InLoopCond`, `InForInc`,
`InLogicRHS`, `InCommaOp` is set for calls inside the expression (TraverseCallExpr, Inline.cpp:383-435
and 543-567). `m` is a replacement of parameters (lines 606-609). If a callee returns a value the call
is replaced with it and the body is inserted before the statement, otherwise the whole statement is
replaced (lines 626-652 and 1191-1213). -/
def pE (inl : Inl) (st : List Name) (m : Name → Name) : Bool → Expr → Ids → PE
  | _, .val v, ids => ⟨[], [], .val v, ids⟩
  | _, .var x, ids => ⟨[], [], .var (m x), ids⟩
  | ok, .assign x e, ids =>
    let E := pE inl st m ok e ids
    ⟨E.pre, E.rep, .assign (m x) E.e, E.ids⟩
  | ok, .bin o l r, ids =>
    let A := pE inl st m ok l ids
    let B := pE inl st m (ok && o != .bor) r A.ids
    ⟨A.pre ++ B.pre, A.rep ++ B.rep, .bin o A.e B.e, B.ids⟩
  | ok, .land l r, ids =>
    let A := pE inl st m ok l ids
    let B := pE inl st m false r A.ids
    ⟨A.pre ++ B.pre, A.rep ++ B.rep, .land A.e B.e, B.ids⟩
  | ok, .lor l r, ids =>
    let A := pE inl st m ok l ids
    let B := pE inl st m false r A.ids
    ⟨A.pre ++ B.pre, A.rep ++ B.rep, .lor A.e B.e, B.ids⟩
  | ok, .comma l r, ids =>
    let A := pE inl st m false l ids
    let B := pE inl st m ok r A.ids
    ⟨A.pre ++ B.pre, A.rep ++ B.rep, .comma A.e B.e, B.ids⟩
  | _, .cond c a b, ids =>
    let E := pE inl st m false c ids
    let A := pE inl st m false a E.ids
    let B := pE inl st m false b A.ids
    ⟨E.pre ++ (A.pre ++ B.pre), E.rep ++ (A.rep ++ B.rep), .cond E.e A.e B.e, B.ids⟩
  | ok, .elvis c e, ids =>
    let A := pE inl st m ok c ids
    let B := pE inl st m ok e A.ids
    ⟨A.pre ++ B.pre, A.rep ++ B.rep, .elvis A.e B.e, B.ids⟩
  | ok, .size e, ids =>
    let E := pE inl st m ok e ids
    ⟨E.pre, E.rep, .size E.e, E.ids⟩
  | ok, .call k f as, ids =>
    let A := pL inl st m ok as ids
    match if k && ok then inl st f A.ids else none with
    | none => ⟨A.pre, A.rep, .call k f A.es, A.ids⟩
    | some (T, ids₁) =>
      if T.ps.length = as.length then
        if T.void then ⟨A.pre, A.rep ++ T.text A.es, .val none, ids₁⟩
        else ⟨A.pre ++ T.text A.es, A.rep, .var T.R, ids₁⟩
      else ⟨A.pre, A.rep, .call k f A.es, A.ids⟩

/-- Calls inside arguments of a call. -/
def pL (inl : Inl) (st : List Name) (m : Name → Name) : Bool → List Expr → Ids → PL
  | _, [], ids => ⟨[], [], [], ids⟩
  | ok, e :: es, ids =>
    let A := pE inl st m ok e ids
    let B := pL inl st m ok es A.ids
    ⟨A.pre ++ B.pre, A.rep ++ B.rep, A.e :: B.es, B.ids⟩

end

/-- Local declarations hide parameters. -/
def hide (m : Name → Name) (xs : List Name) : Name → Name :=
  fun y => if y ∈ xs then y else m y

/-- Result of a transformation of declarators. -/
structure PD where
  pre : List Stmt
  rep : List Stmt
  ds : List Init
  ids : Ids

/-- Calls inside initializers. A body of a callee is inserted before the whole declaration statement
(`StmtWithCall` is the outermost statement in a compound one, Inline.cpp:383-435). -/
def pD (inl : Inl) (st : List Name) : (Name → Name) → List Init → Ids → PD
  | _, [], ids => ⟨[], [], [], ids⟩
  | m, (x, none) :: ds, ids =>
    let B := pD inl st (hide m [x]) ds ids
    ⟨B.pre, B.rep, (x, none) :: B.ds, B.ids⟩
  | m, (x, some e) :: ds, ids =>
    let A := pE inl st m true e ids
    let B := pD inl st (hide m [x]) ds A.ids
    ⟨A.pre ++ B.pre, A.rep ++ B.rep, (x, some A.e) :: B.ds, B.ids⟩

/-- Result of a transformation of a statement: statements before it, the statement itself together
with a text which goes after it, is the statement replaced with a body of a `void` function? -/
structure PS where
  pre : List Stmt
  core : List Stmt
  rep : Bool
  ids : Ids

/-- The only statement of `if`, `else` or a loop. Braces are added if something is inserted before the
statement (`IsNeedBraces`, Inline.cpp:440-448, 631-644), however they are not added if the statement is
replaced with a body of a `void` function (lines 645-652). In the last case the statement is the first one
and the rest of a text goes after `if` or after the loop. -/
def single (r : PS) : Stmt × List Stmt :=
  if r.pre.isEmpty then
    match r.core with
    | [] => (.skip, [])
    | s :: sp => (s, sp)
  else (.block (r.pre ++ r.core), [])

/-- Name of the returned value, a label after a body, is a function `void`? -/
abbrev Rt := Option (Name × Name × Bool)

/-- Replacement of a `return` statement, Inline.cpp:684-734. The last statement of a function needs no
jump. -/
def lower (rt : Rt) (last : Bool) (e : Option Expr) : List Stmt :=
  match rt, e with
  | none, e => [.ret e]
  | some (R, L, false), some e =>
    if last then [.expr (.assign R e)] else [.block [.expr (.assign R e), .goto L]]
  | some (_, _, false), none => [.bad]
  | some (_, L, true), _ => if last then [] else [.goto L]

/-- Statements `StmtWithCall` goes outside of a label for (Inline.cpp:383-435). -/
def Stmt.simple : Stmt → Bool
  | .expr _ => true
  | .decl _ => true
  | .ret _ => true
  | _ => false

mutual

/-- Transformation of a statement, `last` is `true` for the last statement at the top level of a function
(Inline.cpp:334-346). `fr` generates a new identifier for a given prefix (`addSuffix`). A static
variable is copied together with a body it belongs to, so it becomes a new object. -/
def pS (fr : Name → Ids → Name) (inl : Inl) (st : List Name) (rt : Rt) :
    (Name → Name) → Bool → Stmt → Ids → PS
  | _, _, .skip, ids => ⟨[], [.skip], false, ids⟩
  | _, _, .bad, ids => ⟨[], [.bad], false, ids⟩
  | m, _, .expr e, ids =>
    let E := pE inl st m true e ids
    if E.rep.isEmpty then ⟨E.pre, [.expr E.e], false, E.ids⟩ else ⟨E.pre, E.rep, true, E.ids⟩
  | m, _, .decl ds, ids =>
    let D := pD inl st m ds ids
    if D.rep.isEmpty then ⟨D.pre, [.decl D.ds], false, D.ids⟩ else ⟨D.pre, D.rep, true, D.ids⟩
  | _, _, .static x o, ids =>
    if rt.isSome then
      let o' := fr o ids
      ⟨[], [.static x o'], false, o' :: ids⟩
    else ⟨[], [.static x o], false, ids⟩
  | m, _, .ift c t, ids =>
    let E := pE inl st m true c ids
    let T := pS fr inl st rt m false t E.ids
    if E.rep.isEmpty then ⟨E.pre, .ift E.e (single T).1 :: (single T).2, false, T.ids⟩
    else ⟨E.pre, E.rep, true, T.ids⟩
  | m, _, .ifte c t e, ids =>
    let E := pE inl st m true c ids
    let T := pS fr inl st rt m false t E.ids
    let F := pS fr inl st rt m false e T.ids
    if E.rep.isEmpty then
      if (single T).2.isEmpty then
        ⟨E.pre, .ifte E.e (single T).1 (single F).1 :: (single F).2, false, F.ids⟩
      else ⟨E.pre, [.bad], false, F.ids⟩
    else ⟨E.pre, E.rep, true, F.ids⟩
  | m, _, .loop c b, ids =>
    let E := pE inl st m false c ids
    let B := pS fr inl st rt m false b E.ids
    ⟨[], .loop E.e (single B).1 :: (single B).2, false, B.ids⟩
  | m, _, .doloop b c, ids =>
    let B := pS fr inl st rt m false b ids
    let E := pE inl st m false c B.ids
    if (single B).2.isEmpty then ⟨[], [.doloop (single B).1 E.e], false, E.ids⟩
    else ⟨[], [.bad], false, E.ids⟩
  | m, _, .for i c inc b, ids =>
    let I := pS fr inl st rt m false i ids
    let m₁ := hide m i.declared
    let E := pE inl st m₁ false c I.ids
    let G := pE inl st m₁ false inc E.ids
    let B := pS fr inl st rt m₁ false b G.ids
    if I.rep then ⟨I.pre, I.core, true, B.ids⟩
    else
      match I.core with
      | [i'] => ⟨I.pre, .for i' E.e G.e (single B).1 :: (single B).2, false, B.ids⟩
      | _ => ⟨[], [.bad], false, B.ids⟩
  | m, _, .block ss, ids =>
    let B := pSs fr inl st rt m false ss ids
    ⟨[], [.block B.1], false, B.2⟩
  | _, last, .ret none, ids => ⟨[], lower rt last none, false, ids⟩
  | m, last, .ret (some e), ids =>
    let E := pE inl st m true e ids
    if E.rep.isEmpty then ⟨E.pre, lower rt last (some E.e), false, E.ids⟩
    else ⟨E.pre, E.rep, true, E.ids⟩
  | _, _, .brk, ids => ⟨[], [.brk], false, ids⟩
  | _, _, .goto l, ids => ⟨[], [.goto l], false, ids⟩
  | m, _, .label l s, ids =>
    let S := pS fr inl st rt m false s ids
    if s.simple then
      if S.rep then S
      else
        match S.core with
        | s' :: sp => ⟨S.pre, .label l s' :: sp, false, S.ids⟩
        | [] => ⟨S.pre, [.label l .skip], false, S.ids⟩
    else ⟨[], .label l (single S).1 :: (single S).2, false, S.ids⟩

/-- Transformation of a compound statement, `top` is `true` for a body of a function. -/
def pSs (fr : Name → Ids → Name) (inl : Inl) (st : List Name) (rt : Rt) :
    (Name → Name) → Bool → List Stmt → Ids → List Stmt × Ids
  | _, _, [], ids => ([], ids)
  | m, top, s :: ss, ids =>
    let A := pS fr inl st rt m (top && ss.isEmpty) s ids
    let B := pSs fr inl st rt (hide m s.declared) top ss A.ids
    (A.pre ++ (A.core ++ B.1), B.2)

end

mutual

/-- Is there a `return` statement? -/
def Stmt.hasRet : Stmt → Bool
  | .ift _ t => t.hasRet
  | .ifte _ t e => t.hasRet || e.hasRet
  | .loop _ b => b.hasRet
  | .doloop b _ => b.hasRet
  | .for i _ _ b => i.hasRet || b.hasRet
  | .block ss => hasRets ss
  | .ret _ => true
  | .label _ s => s.hasRet
  | _ => false

/-- `Stmt.hasRet` for a sequence of statements. -/
def hasRets : List Stmt → Bool
  | [] => false
  | s :: ss => s.hasRet || hasRets ss

end

/-- `IsNeedLabel`: there is a `return` which is not the last statement at the top level of a body
(Inline.cpp:686-731). -/
def needLab : List Stmt → Bool
  | [] => false
  | [.ret _] => false
  | s :: ss => s.hasRet || needLab ss

mutual

/-- Names mentioned in an expression except variables which are declared in the function. -/
def freeE (bound : List Name) : Expr → List Name
  | .val _ => []
  | .var x => if x ∈ bound then [] else [x]
  | .assign x e => (if x ∈ bound then [] else [x]) ++ freeE bound e
  | .bin _ l r => freeE bound l ++ freeE bound r
  | .land l r => freeE bound l ++ freeE bound r
  | .lor l r => freeE bound l ++ freeE bound r
  | .comma l r => freeE bound l ++ freeE bound r
  | .cond c a b => freeE bound c ++ (freeE bound a ++ freeE bound b)
  | .elvis c e => freeE bound c ++ freeE bound e
  | .size e => freeE bound e
  | .call _ f as => (if f ∈ bound then [] else [f]) ++ freeL bound as

/-- `freeE` for a list of arguments. -/
def freeL (bound : List Name) : List Expr → List Name
  | [] => []
  | e :: es => freeE bound e ++ freeL bound es

end

/-- Free names in a declaration: a declared name is visible in the following initializers. -/
def freeD : List Name → List Init → List Name
  | _, [] => []
  | bound, (x, none) :: ds => freeD (x :: bound) ds
  | bound, (x, some e) :: ds => freeE bound e ++ freeD (x :: bound) ds

mutual

/-- Free names in a statement. -/
def freeS : List Name → Stmt → List Name
  | bound, .expr e => freeE bound e
  | bound, .decl ds => freeD bound ds
  | bound, .ift c t => freeE bound c ++ freeS bound t
  | bound, .ifte c t e => freeE bound c ++ (freeS bound t ++ freeS bound e)
  | bound, .loop c b => freeE bound c ++ freeS bound b
  | bound, .doloop b c => freeS bound b ++ freeE bound c
  | bound, .for i c inc b => freeS bound i ++ (freeE (i.declared ++ bound) c ++
      (freeE (i.declared ++ bound) inc ++ freeS (i.declared ++ bound) b))
  | bound, .block ss => freeSs bound ss
  | bound, .ret (some e) => freeE bound e
  | bound, .label _ s => freeS bound s
  | _, _ => []

/-- Free names in a sequence of statements: a declared name is visible in the following statements. -/
def freeSs : List Name → List Stmt → List Name
  | _, [] => []
  | bound, s :: ss => freeS bound s ++ freeSs (s.declared ++ bound) ss

end

/-- Global declarations a function refers to: `Template::getForwardDecls`, filled in
`visitNamedDecl`, Inline.cpp:277-293. -/
def Fun.forward (F : Fun) : List Name := freeSs F.params F.body

mutual

/-- Names of local declarations. -/
def Stmt.decls : Stmt → List Name
  | .decl ds => ds.map Prod.fst
  | .static x _ => [x]
  | .ift _ t => t.decls
  | .ifte _ t e => t.decls ++ e.decls
  | .loop _ b => b.decls
  | .doloop b _ => b.decls
  | .for i _ _ b => i.decls ++ b.decls
  | .block ss => declsL ss
  | .label _ s => s.decls
  | _ => []

/-- `Stmt.decls` for a sequence of statements. -/
def declsL : List Stmt → List Name
  | [] => []
  | s :: ss => s.decls ++ declsL ss

end

/-- Declarations which belong to a function (`FunctionDecl::decls`). -/
def Fun.decls (F : Fun) : List Name := F.params ++ declsL F.body

/-- The check that local declarations of functions which are being expanded do not hide global
declarations which are used in the callee (Inline.cpp:1018-1072). -/
def visible (P : Prog) (st : List Name) (F : Fun) : Bool :=
  st.all fun h =>
    match P h with
    | none => true
    | some H => H.decls.all fun x => !(F.forward.contains x)

/-- New names of parameters (Inline.cpp:594-597). -/
def freshes (fr : Name → Ids → Name) : List Name → Ids → List Name × Ids
  | [], ids => ([], ids)
  | x :: xs, ids =>
    let y := fr x ids
    let r := freshes fr xs (y :: ids)
    (y :: r.1, r.2)

/-- Replacement of names. -/
def ren : List (Name × Name) → Name → Name
  | [], x => x
  | (y, z) :: qs, x => if x = y then z else ren qs x

/-- Names `R` and `L` a suffix is added to. -/
def prefixR : Name := 0
/-- A name `L` a suffix is added to (a label of the end of an inlined body, Inline.cpp:576-786). -/
def prefixL : Name := 1

/-- `ClangInliner::compile`, Inline.cpp:576-786, together with `checkTemplateInstantiation`
(lines 899-909). `en` is `isNeedToInline` after `checkTemplates`. Depth of recursion is bounded: calls
which are too deep are not expanded. -/
def inline (P : Prog) (en : Name → Bool) (fr : Name → Ids → Name) : Nat → Inl
  | 0 => fun _ _ _ => none
  | d + 1 => fun st f ids =>
    match P f with
    | none => none
    | some F =>
      if en f && visible P st F then
        let ps := freshes fr F.params ids
        let L := fr prefixL ps.2
        let R := fr prefixR (L :: ps.2)
        let B := pSs fr (inline P en fr d) (f :: st) (some (R, L, F.void))
          (ren (F.params.zip ps.1).reverse) true F.body (R :: L :: ps.2)
        some (⟨ps.1, R, L, needLab F.body, F.void, B.1⟩, B.2)
      else none

/-- `ClangInliner::HandleTranslationUnit`, Inline.cpp:1149-1217: functions are processed one after
another, bodies of callees are taken from the original text. -/
def expand (P : Prog) (en : Name → Bool) (fr : Name → Ids → Name) (d : Nat) : List Name → Ids → Prog
  | [], _ => P
  | f :: fs, ids =>
    match P f with
    | none => expand P en fr d fs ids
    | some F =>
      let B := pSs fr (inline P en fr d) [f] none id false F.body ids
      fun h => if h = f then some ⟨F.params, F.void, B.1⟩ else expand P en fr d fs B.2 h

end Tsar.Inline
