import Verif.Inline.Model
/-!
# Programs the inliner handles correctly

Requirements which are not checked by the inliner. See `Fails.lean` for programs
which are expanded in a wrong way otherwise.
-/
namespace Tsar.Inline

section
/- `cand f`: calls of a function may be expanded. `vd f`: a function is `void`. `lab f`: there is a
`return` in the middle of a function. -/
variable (cand vd lab : Name → Bool)

mutual

/-- There are no calls which may be expanded. -/
def quietE : Expr → Bool
  | .val _ => true
  | .var _ => true
  | .assign _ e => quietE e
  | .bin _ l r => quietE l && quietE r
  | .land l r => quietE l && quietE r
  | .lor l r => quietE l && quietE r
  | .comma l r => quietE l && quietE r
  | .cond c a b => quietE c && (quietE a && quietE b)
  | .elvis c e => quietE c && quietE e
  | .size e => quietE e
  | .call k f as => !(k && cand f) && quietL as

def quietL : List Expr → Bool
  | [] => true
  | e :: es => quietE e && quietL es

end

mutual

/-- An expression may contain calls which are expanded if a function returns a value and the call is not
inside the right operand of a comma operator, the last operand of the GNU operator `?:` or the operand of
`sizeof`. -/
def okE : Expr → Bool
  | .val _ => true
  | .var _ => true
  | .assign _ e => okE e
  | .bin o l r => okE l && (o == .bor || okE r)
  | .land l _ => okE l
  | .lor l _ => okE l
  | .comma _ r => quietE cand r
  | .cond _ _ _ => true
  | .elvis c e => okE c && quietE cand e
  | .size e => quietE cand e
  | .call k f as => !(k && cand f && vd f) && okL as

def okL : List Expr → Bool
  | [] => true
  | e :: es => okE e && okL es

end

def quietD : List Init → Bool
  | [] => true
  | (_, none) :: ds => quietD ds
  | (_, some e) :: ds => quietE cand e && quietD ds

/-- Calls in initializers are expanded for the first declarator only. -/
def okD : List Init → Bool
  | [] => true
  | (_, none) :: ds => quietD cand ds
  | (_, some e) :: ds => okE cand vd e && quietD cand ds

/-- A statement which is an expression: it may be a call of a `void` function. A call of a function with
`return` in the middle should be inside a compound statement. -/
def okX (inL : Bool) : Expr → Bool
  | .call k f as => okL cand vd as && (inL || !(k && cand f && vd f && lab f))
  | e => okE cand vd e

/-- The first statement of `for`. -/
def okInit : Stmt → Bool
  | .skip => true
  | .expr e => okE cand vd e
  | .decl ds => okD cand vd ds
  | _ => false

mutual

/-- Statements: there are no labels, there are no declarations outside of a compound statement. -/
def okS : Bool → Stmt → Bool
  | _, .skip => true
  | _, .bad => true
  | inL, .expr e => okX cand vd lab inL e
  | inL, .decl ds => inL && okD cand vd ds
  | inL, .static _ _ => inL
  | _, .ift c t => okE cand vd c && okS false t
  | _, .ifte c t e => okE cand vd c && (okS false t && okS false e)
  | _, .loop _ b => okS false b
  | _, .doloop b _ => okS false b
  | _, .for i _ _ b => okInit cand vd i && okS false b
  | _, .block ss => okSs ss
  | _, .ret none => true
  | _, .ret (some e) => okE cand vd e
  | _, .brk => true
  | _, .goto _ => false
  | _, .label _ _ => false

def okSs : List Stmt → Bool
  | [] => true
  | s :: ss => okS true s && okSs ss

end

end

mutual

/-- Variables mentioned in an expression. -/
def usesE : Expr → List Name
  | .val _ => []
  | .var x => [x]
  | .assign x e => x :: usesE e
  | .bin _ l r => usesE l ++ usesE r
  | .land l r => usesE l ++ usesE r
  | .lor l r => usesE l ++ usesE r
  | .comma l r => usesE l ++ usesE r
  | .cond c a b => usesE c ++ (usesE a ++ usesE b)
  | .elvis c e => usesE c ++ usesE e
  | .size e => usesE e
  | .call _ _ as => usesL as

def usesL : List Expr → List Name
  | [] => []
  | e :: es => usesE e ++ usesL es

end

mutual

/-- Functions called in an expression. -/
def fnsE : Expr → List Name
  | .val _ => []
  | .var _ => []
  | .assign _ e => fnsE e
  | .bin _ l r => fnsE l ++ fnsE r
  | .land l r => fnsE l ++ fnsE r
  | .lor l r => fnsE l ++ fnsE r
  | .comma l r => fnsE l ++ fnsE r
  | .cond c a b => fnsE c ++ (fnsE a ++ fnsE b)
  | .elvis c e => fnsE c ++ fnsE e
  | .size e => fnsE e
  | .call _ f as => f :: fnsL as

def fnsL : List Expr → List Name
  | [] => []
  | e :: es => fnsE e ++ fnsL es

end

/-- Expressions of declarators. -/
def exprsD (ds : List Init) : List Expr := ds.filterMap Prod.snd

mutual

/-- Expressions of a statement. -/
def exprsS : Stmt → List Expr
  | .expr e => [e]
  | .decl ds => exprsD ds
  | .ift c t => c :: exprsS t
  | .ifte c t e => c :: (exprsS t ++ exprsS e)
  | .loop c b => c :: exprsS b
  | .doloop b c => c :: exprsS b
  | .for i c inc b => c :: inc :: (exprsS i ++ exprsS b)
  | .block ss => exprsSs ss
  | .ret (some e) => [e]
  | .label _ s => exprsS s
  | _ => []

def exprsSs : List Stmt → List Expr
  | [] => []
  | s :: ss => exprsS s ++ exprsSs ss

end

mutual

/-- There are no static variables and each `return` has a value if and only if a function is not
`void`. -/
def bodyOk (void : Bool) : Stmt → Bool
  | .static _ _ => false
  | .ift _ t => bodyOk void t
  | .ifte _ t e => bodyOk void t && bodyOk void e
  | .loop _ b => bodyOk void b
  | .doloop b _ => bodyOk void b
  | .for i _ _ b => bodyOk void i && bodyOk void b
  | .block ss => bodyOks void ss
  | .ret e => e.isNone == void
  | .label _ s => bodyOk void s
  | _ => true

def bodyOks (void : Bool) : List Stmt → Bool
  | [] => true
  | s :: ss => bodyOk void s && bodyOks void ss

end

mutual

/-- There is no `break` outside of a loop. -/
def Stmt.noBrk : Stmt → Bool
  | .ift _ t => t.noBrk
  | .ifte _ t e => t.noBrk && e.noBrk
  | .for i _ _ _ => i.noBrk
  | .block ss => noBrks ss
  | .brk => false
  | .label _ s => s.noBrk
  | _ => true

def noBrks : List Stmt → Bool
  | [] => true
  | s :: ss => s.noBrk && noBrks ss

end

/-- Calls of a function may be expanded: it is defined and nothing prevents its expansion. -/
def cand (P : Prog) (en : Name → Bool) (f : Name) : Bool := en f && (P f).isSome

def isVoid (P : Prog) (f : Name) : Bool := (P f).elim false Fun.void

def hasLab (P : Prog) (f : Name) : Bool := (P f).elim false fun F => needLab F.body

/-- Requirements to a function: the shape of statements, variables and functions which are mentioned are
known identifiers, functions are not hidden with local variables, a function which is expanded has no static
variables, has proper `return` statements and `break` statements. -/
structure Good (P : Prog) (en : Name → Bool) (ids : Ids) (f : Name) (F : Fun) : Prop where
  shape : okSs (cand P en) (isVoid P) (hasLab P) F.body = true
  uses : ∀ e ∈ exprsSs F.body, ∀ x ∈ usesE e, x ∈ ids
  fns : ∀ e ∈ exprsSs F.body, ∀ h ∈ fnsE e, h ∈ ids ∧ h ∉ F.decls
  decls : ∀ x ∈ F.decls, x ∈ ids
  body : en f = true → bodyOks F.void F.body = true
  brk : en f = true → noBrks F.body = true

end Tsar.Inline
