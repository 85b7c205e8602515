/-!
# A small C language with calls in expressions

The language the source-level inliner is applied to.  It is part of the specification: it says what a
C program does, and it does not depend on the inliner.

* The order in which operands of an operator and arguments of a call are evaluated is not specified
  (C11 6.5p3): an expression is reduced one step at a time and any part of it which is not separated by
  a sequence point may be reduced next.  `&&`, `||`, `,`, `?:` and the GNU operator `?:` without the
  middle operand evaluate the first operand first.
* A call is executed without interleaving with the rest of the expression it belongs to.
* A value is an integer or is indeterminate.
* A statement may be interrupted at any moment (`cut`), so all prefixes of an infinite execution are
  observed too.  `err` is an execution which has undefined behaviour or a text which is not compiled.

Not modelled: pointers, types, `switch`, `continue`, arithmetic overflow.
-/
namespace Tsar.Inline

/-- An identifier. -/
abbrev Name := Nat

/-- A value, `none` is an indeterminate one. -/
abbrev Val := Option Int

/-- An observable event: a call of a function which is not defined in the program. -/
abbrev Ev := Name × List Val

inductive Op
  | add | sub | mul | lt | ne | bor
deriving DecidableEq, Repr

/-- Value of an operation. -/
def Op.sem : Op → Val → Val → Val
  | .add, some a, some b => some (a + b)
  | .sub, some a, some b => some (a - b)
  | .mul, some a, some b => some (a * b)
  | .lt, some a, some b => some (if a < b then 1 else 0)
  | .ne, some a, some b => some (if a = b then 0 else 1)
  | .bor, some a, some b => some (if a = 0 then b else a)
  | _, _, _ => none

/-- An expression. `mark` of a call is `true` if all textual requirements of the inliner are fulfilled:
the call is covered with an `inline` clause, there are no macros nearby and so on. It has no influence on
an execution. -/
inductive Expr
  | val (v : Val)
  | var (x : Name)
  | assign (x : Name) (e : Expr)
  | bin (o : Op) (l r : Expr)
  | land (l r : Expr)
  | lor (l r : Expr)
  | comma (l r : Expr)
  | cond (c t e : Expr)
  | elvis (c e : Expr)
  | size (e : Expr)
  | call (mark : Bool) (f : Name) (as : List Expr)

/-- A declarator with an optional initializer. -/
abbrev Init := Name × Option Expr

/-- A statement. `static x o` declares a static local variable `x`, `o` is the object it denotes.
`bad` is a text which is not compiled. -/
inductive Stmt
  | skip
  | bad
  | expr (e : Expr)
  | decl (ds : List Init)
  | static (x o : Name)
  | ift (c : Expr) (t : Stmt)
  | ifte (c : Expr) (t e : Stmt)
  | loop (c : Expr) (b : Stmt)
  | doloop (b : Stmt) (c : Expr)
  | for (i : Stmt) (c inc : Expr) (b : Stmt)
  | block (ss : List Stmt)
  | ret (e : Option Expr)
  | brk
  | goto (l : Name)
  | label (l : Name) (s : Stmt)

/-- A function. -/
structure Fun where
  params : List Name
  void : Bool
  body : List Stmt

/-- A program: definitions of functions. -/
abbrev Prog := Name → Option Fun

/-- A cell of a frame: a local variable with its value or a name of a static object. -/
inductive Cell
  | auto (v : Val)
  | alias (o : Name)
deriving DecidableEq

/-- Variables in scope, the innermost ones first. -/
abbrev Frame := List (Name × Cell)

/-- Global variables and static objects. -/
abbrev Glob := Name → Val

structure St where
  g : Glob
  l : Frame

/-- The innermost declaration of a name. -/
def find : Frame → Name → Option Cell
  | [], _ => none
  | (y, c) :: l, x => if x = y then some c else find l x

/-- Update of the innermost declaration of a name. -/
def setF : Frame → Name → Val → Frame
  | [], _, _ => []
  | (y, c) :: l, x, v => if x = y then (y, .auto v) :: l else (y, c) :: setF l x v

def setG (g : Glob) (x : Name) (v : Val) : Glob := fun y => if y = x then v else g y

/-- Value of a variable. -/
def get (σ : St) (x : Name) : Val :=
  match find σ.l x with
  | some (.auto v) => v
  | some (.alias o) => σ.g o
  | none => σ.g x

/-- Assignment to a variable. -/
def set (σ : St) (x : Name) (v : Val) : St :=
  match find σ.l x with
  | some (.auto _) => ⟨σ.g, setF σ.l x v⟩
  | some (.alias o) => ⟨setG σ.g o v, σ.l⟩
  | none => ⟨setG σ.g x v, σ.l⟩

/-- Entries of a frame which are left if the innermost declarations are forgotten, so `n` of them
survive. -/
def bot (n : Nat) (l : Frame) : Frame := l.drop (l.length - n)

/-- Is a value not zero? An indeterminate value should not be examined. -/
def truth : Val → Option Bool
  | none => none
  | some i => some (decide (i ≠ 0))

/-- A reason to stop. -/
inductive Halt
  | cut | err
deriving DecidableEq

/-- Result of a call. -/
inductive CRes
  | ret (v : Val) (g : Glob)
  | halt (h : Halt)

/-- What calls do: a function, values of arguments, global variables, events and a result. -/
abbrev Calls := Name → List Val → Glob → List Ev → CRes → Prop

/-- Result of a step of an evaluation. -/
inductive SRes
  | ok (e : Expr) (σ : St)
  | halt (h : Halt)

/-- A place where the next step may be made. -/
inductive Hole
  | assign (x : Name)
  | binL (o : Op) (r : Expr)
  | binR (o : Op) (l : Expr)
  | land (r : Expr)
  | lor (r : Expr)
  | comma (r : Expr)
  | cond (t e : Expr)
  | elvis (e : Expr)
  | arg (k : Bool) (f : Name) (pre post : List Expr)

def Hole.plug : Hole → Expr → Expr
  | .assign x, e => .assign x e
  | .binL o r, e => .bin o e r
  | .binR o l, e => .bin o l e
  | .land r, e => .land e r
  | .lor r, e => .lor e r
  | .comma r, e => .comma e r
  | .cond a b, e => .cond e a b
  | .elvis a, e => .elvis e a
  | .arg k f pre post, e => .call k f (pre ++ e :: post)

def SRes.plug (F : Hole) : SRes → SRes
  | .ok e σ => .ok (F.plug e) σ
  | .halt h => .halt h

/-- Result of a call as a result of a step. -/
def CRes.step (l : Frame) : CRes → SRes
  | .ret v g => .ok (.val v) ⟨g, l⟩
  | .halt h => .halt h

/-- Choice of an operand after the first operand is known. -/
def choose (σ : St) (v : Val) (a b : Expr) : SRes :=
  match truth v with
  | none => .halt .err
  | some true => .ok a σ
  | some false => .ok b σ

/-- A step of an expression which operands are known. -/
def Head (C : Calls) : Expr → St → List Ev → SRes → Prop
  | .var x, σ, t, r => t = [] ∧ r = .ok (.val (get σ x)) σ
  | .assign x (.val v), σ, t, r => t = [] ∧ r = .ok (.val v) (set σ x v)
  | .bin o (.val a) (.val b), σ, t, r => t = [] ∧ r = .ok (.val (o.sem a b)) σ
  | .land (.val v) b, σ, t, r => t = [] ∧ r = choose σ v (.bin .ne b (.val (some 0))) (.val (some 0))
  | .lor (.val v) b, σ, t, r => t = [] ∧ r = choose σ v (.val (some 1)) (.bin .ne b (.val (some 0)))
  | .comma (.val _) b, σ, t, r => t = [] ∧ r = .ok b σ
  | .cond (.val v) a b, σ, t, r => t = [] ∧ r = choose σ v a b
  | .elvis (.val v) b, σ, t, r => t = [] ∧ r = choose σ v (.val v) b
  | .size _, σ, t, r => t = [] ∧ r = .ok (.val (some 4)) σ
  | .call _ f as, σ, t, r => ∃ vs, as = vs.map .val ∧
      match find σ.l f with
      | some _ => t = [] ∧ r = .halt .err
      | none => ∃ cr, C f vs σ.g t cr ∧ r = cr.step σ.l
  | _, _, _, _ => False

/-- A step of an evaluation of an expression. -/
inductive Step (C : Calls) : Expr → St → List Ev → SRes → Prop
  | head {e σ t r} (h : Head C e σ t r) : Step C e σ t r
  | hole {e₀ e σ t r r₀} (F : Hole) (he : e₀ = F.plug e) (h : Step C e σ t r)
      (hr : r₀ = r.plug F) : Step C e₀ σ t r₀

/-- Some steps of an evaluation of an expression. -/
inductive Steps (C : Calls) : Expr → St → List Ev → SRes → Prop
  | refl (e σ) : Steps C e σ [] (.ok e σ)
  | cut (e σ) : Steps C e σ [] (.halt .cut)
  | halt {e σ t h} (hs : Step C e σ t (.halt h)) : Steps C e σ t (.halt h)
  | step {e σ t₁ e₁ σ₁ t₂ r} (h : Step C e σ t₁ (.ok e₁ σ₁)) (hs : Steps C e₁ σ₁ t₂ r) :
      Steps C e σ (t₁ ++ t₂) r

/-- Result of a complete evaluation. -/
inductive ERes
  | val (v : Val) (σ : St)
  | halt (h : Halt)

/-- A complete evaluation of an expression. -/
inductive Eval (C : Calls) (e : Expr) (σ : St) (t : List Ev) : ERes → Prop
  | val {v σ₁} (h : Steps C e σ t (.ok (.val v) σ₁)) : Eval C e σ t (.val v σ₁)
  | halt {h} (hs : Steps C e σ t (.halt h)) : Eval C e σ t (.halt h)

/-- Outcome of a statement. -/
inductive Out
  | norm (σ : St)
  | brk (σ : St)
  | ret (v : Val) (σ : St)
  | jump (l : Name) (σ : St)
  | halt (h : Halt)

/-- An outcome after the end of a scope with `n` variables outside. -/
def Out.bot (n : Nat) : Out → Out
  | .norm σ => .norm ⟨σ.g, Inline.bot n σ.l⟩
  | .brk σ => .brk ⟨σ.g, Inline.bot n σ.l⟩
  | .ret v σ => .ret v ⟨σ.g, Inline.bot n σ.l⟩
  | .jump l σ => .jump l ⟨σ.g, Inline.bot n σ.l⟩
  | .halt h => .halt h

def Out.isNorm : Out → Bool
  | .norm _ => true
  | _ => false

/-- Evaluation of declarators. -/
inductive ExecD (C : Calls) : List Init → St → List Ev → Out → Prop
  | nil (σ) : ExecD C [] σ [] (.norm σ)
  | none {x ds σ t r} (h : ExecD C ds ⟨σ.g, (x, .auto none) :: σ.l⟩ t r) :
      ExecD C ((x, none) :: ds) σ t r
  | some {x e ds σ t₁ v σ₁ t₂ r} (he : Eval C e σ t₁ (.val v σ₁))
      (h : ExecD C ds ⟨σ₁.g, (x, .auto v) :: σ₁.l⟩ t₂ r) :
      ExecD C ((x, some e) :: ds) σ (t₁ ++ t₂) r
  | halt {x e ds σ t h} (he : Eval C e σ t (.halt h)) : ExecD C ((x, some e) :: ds) σ t (.halt h)

/-- Names declared by a statement in the enclosing scope. -/
def Stmt.declared : Stmt → List Name
  | .decl ds => ds.map Prod.fst
  | .static x _ => [x]
  | _ => []

/-- Search for a label below the current statement of a list: variables which declarations are skipped
and the rest of the list. -/
def skipTo (l : Name) : List Stmt → Option (List Name × List Stmt)
  | [] => none
  | .label m s :: ss =>
    if l = m then some ([], .label m s :: ss) else skipTo l ss
  | s :: ss => (skipTo l ss).map fun p => (s.declared ++ p.1, p.2)

/-- Skipped declarations leave variables without values. -/
def pushUndef (σ : St) (xs : List Name) : St :=
  ⟨σ.g, (xs.map fun x => (x, Cell.auto none)).reverse ++ σ.l⟩

mutual

/-- Execution of a statement. -/
inductive Exec (C : Calls) : Stmt → St → List Ev → Out → Prop
  | cut (s σ) : Exec C s σ [] (.halt .cut)
  | skip (σ) : Exec C .skip σ [] (.norm σ)
  | bad (σ) : Exec C .bad σ [] (.halt .err)
  | expr {e σ t v σ₁} (h : Eval C e σ t (.val v σ₁)) : Exec C (.expr e) σ t (.norm σ₁)
  | exprH {e σ t h} (he : Eval C e σ t (.halt h)) : Exec C (.expr e) σ t (.halt h)
  | decl {ds σ t r} (h : ExecD C ds σ t r) : Exec C (.decl ds) σ t r
  | static (x o σ) : Exec C (.static x o) σ [] (.norm ⟨σ.g, (x, .alias o) :: σ.l⟩)
  | ift {c s σ t r} (h : Exec C (.ifte c s .skip) σ t r) : Exec C (.ift c s) σ t r
  | ifteT {c a b σ t₁ v σ₁ t₂ r} (hc : Eval C c σ t₁ (.val v σ₁)) (hv : truth v = some true)
      (h : Exec C a σ₁ t₂ r) : Exec C (.ifte c a b) σ (t₁ ++ t₂) r
  | ifteF {c a b σ t₁ v σ₁ t₂ r} (hc : Eval C c σ t₁ (.val v σ₁)) (hv : truth v = some false)
      (h : Exec C b σ₁ t₂ r) : Exec C (.ifte c a b) σ (t₁ ++ t₂) r
  | ifteU {c a b σ t v σ₁} (hc : Eval C c σ t (.val v σ₁)) (hv : truth v = none) :
      Exec C (.ifte c a b) σ t (.halt .err)
  | ifteH {c a b σ t h} (hc : Eval C c σ t (.halt h)) : Exec C (.ifte c a b) σ t (.halt h)
  | loopF {c b σ t v σ₁} (hc : Eval C c σ t (.val v σ₁)) (hv : truth v = some false) :
      Exec C (.loop c b) σ t (.norm σ₁)
  | loopU {c b σ t v σ₁} (hc : Eval C c σ t (.val v σ₁)) (hv : truth v = none) :
      Exec C (.loop c b) σ t (.halt .err)
  | loopH {c b σ t h} (hc : Eval C c σ t (.halt h)) : Exec C (.loop c b) σ t (.halt h)
  | loopN {c b σ t₁ v σ₁ t₂ σ₂ t₃ r} (hc : Eval C c σ t₁ (.val v σ₁)) (hv : truth v = some true)
      (hb : Exec C b σ₁ t₂ (.norm σ₂)) (h : Exec C (.loop c b) σ₂ t₃ r) :
      Exec C (.loop c b) σ (t₁ ++ (t₂ ++ t₃)) r
  | loopB {c b σ t₁ v σ₁ t₂ σ₂} (hc : Eval C c σ t₁ (.val v σ₁)) (hv : truth v = some true)
      (hb : Exec C b σ₁ t₂ (.brk σ₂)) : Exec C (.loop c b) σ (t₁ ++ t₂) (.norm σ₂)
  | loopA {c b σ t₁ v σ₁ t₂ r} (hc : Eval C c σ t₁ (.val v σ₁)) (hv : truth v = some true)
      (hb : Exec C b σ₁ t₂ r) (hn : ∀ σ, r ≠ .norm σ) (hk : ∀ σ, r ≠ .brk σ) :
      Exec C (.loop c b) σ (t₁ ++ t₂) r
  | doN {b c σ t₁ σ₁ t₂ r} (hb : Exec C b σ t₁ (.norm σ₁)) (h : Exec C (.loop c b) σ₁ t₂ r) :
      Exec C (.doloop b c) σ (t₁ ++ t₂) r
  | doB {b c σ t σ₁} (hb : Exec C b σ t (.brk σ₁)) : Exec C (.doloop b c) σ t (.norm σ₁)
  | doA {b c σ t r} (hb : Exec C b σ t r) (hn : ∀ σ, r ≠ .norm σ) (hk : ∀ σ, r ≠ .brk σ) :
      Exec C (.doloop b c) σ t r
  | for {i c inc b σ t r} (h : Exec C (.block [i, .loop c (.block [b, .expr inc])]) σ t r) :
      Exec C (.for i c inc b) σ t r
  | block {ss σ t r} (h : ExecB C ss σ.l.length ss σ t r) :
      Exec C (.block ss) σ t (r.bot σ.l.length)
  | retN (σ) : Exec C (.ret none) σ [] (.ret none σ)
  | ret {e σ t v σ₁} (h : Eval C e σ t (.val v σ₁)) : Exec C (.ret (some e)) σ t (.ret v σ₁)
  | retH {e σ t h} (he : Eval C e σ t (.halt h)) : Exec C (.ret (some e)) σ t (.halt h)
  | brk (σ) : Exec C .brk σ [] (.brk σ)
  | goto (l σ) : Exec C (.goto l) σ [] (.jump l σ)
  | label {l s σ t r} (h : Exec C s σ t r) : Exec C (.label l s) σ t r

/-- Execution of a list of statements, jumps may be made to labels which are below in the list. -/
inductive ExecL (C : Calls) : List Stmt → St → List Ev → Out → Prop
  | nil (σ) : ExecL C [] σ [] (.norm σ)
  | cons {s ss σ t₁ σ₁ t₂ r} (h : Exec C s σ t₁ (.norm σ₁)) (hs : ExecL C ss σ₁ t₂ r) :
      ExecL C (s :: ss) σ (t₁ ++ t₂) r
  | stop {s ss σ t r} (h : Exec C s σ t r) (hn : ∀ σ, r ≠ .norm σ)
      (hj : ∀ l σ, r = .jump l σ → skipTo l ss = none) : ExecL C (s :: ss) σ t r
  | jump {s ss σ t₁ l σ₁ xs ss₁ t₂ r} (h : Exec C s σ t₁ (.jump l σ₁))
      (hj : skipTo l ss = some (xs, ss₁)) (hs : ExecL C ss₁ (pushUndef σ₁ xs) t₂ r) :
      ExecL C (s :: ss) σ (t₁ ++ t₂) r

/-- Execution of a part `sf` of a block `ss`, jumps may be made to labels which are above. There are `n`
variables outside of the block. -/
inductive ExecB (C : Calls) : List Stmt → Nat → List Stmt → St → List Ev → Out → Prop
  | fin {ss n sf σ t r} (h : ExecL C sf σ t r)
      (hj : ∀ l σ, r = .jump l σ → skipTo l ss = none) : ExecB C ss n sf σ t r
  | back {ss n sf σ t₁ l σ₁ xs ss₁ t₂ r} (h : ExecL C sf σ t₁ (.jump l σ₁))
      (hj : skipTo l ss = some (xs, ss₁))
      (hb : ExecB C ss n ss₁ ⟨σ₁.g, bot (n + xs.length) σ₁.l⟩ t₂ r) :
      ExecB C ss n sf σ (t₁ ++ t₂) r

end

/-- Parameters of a function, the last one is the innermost. -/
def frame (ps : List Name) (vs : List Val) : Frame :=
  ((ps.zip vs).map fun p => (p.1, Cell.auto p.2)).reverse

/-- Outcome of a body as a result of a call. -/
def Out.call : Out → CRes
  | .norm σ => .ret none σ.g
  | .ret v σ => .ret v σ.g
  | .brk _ => .halt .err
  | .jump _ _ => .halt .err
  | .halt h => .halt h

/-- Calls of depth at most `n`. A function which is not defined in the program is external, `X` says
what external functions do. -/
def calls (P : Prog) (X : Calls) : Nat → Calls
  | 0 => fun _ _ _ t r => t = [] ∧ r = .halt .cut
  | n + 1 => fun f vs g t cr => (t = [] ∧ cr = .halt .cut) ∨
    match P f with
    | none => X f vs g t cr
    | some F =>
      if F.params.length = vs.length then
        ∃ r, Exec (calls P X n) (.block F.body) ⟨g, frame F.params vs⟩ t r ∧ cr = r.call
      else t = [] ∧ cr = .halt .err

/-- What a program does if a function is called. -/
def Runs (P : Prog) (X : Calls) (f : Name) (vs : List Val) (g : Glob) (t : List Ev) (r : CRes) : Prop :=
  ∃ n, calls P X n f vs g t r

end Tsar.Inline
