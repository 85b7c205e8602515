import Verif.Propagate.Avail
/-!
# Witnesses and examples for expression propagation, targets of assignments
-/
namespace Tsar.Propagate

/-! ## Replacements -/

/-- Declarations 0, 1, 2 are local, the declaration `d` has the name `d`. -/
def src : Src := ⟨id, fun _ => false, []⟩

def uses2 (dl : Nat) : Option (List Usage) := if dl = 0 then some [⟨1, [1], [0]⟩, ⟨2, [1], []⟩] else none

/-- `{ int a, x; x = a; use(x); ...; use(x); }` (the value of `a` is changed between usages). -/
def prog2 : List Ev :=
  [.enter, .decl 0, .decl 1, .assign 0 (.ref true 0), .expr (.loc 1 (.ref true 1)), .expr (.loc 2 (.ref true 1)), .exit]

theorem prog2_right (s : Env) (hs : s.var 1 = 1) : Right src arith uses2 (fun _ => none) prog2 5 (.loc 2 (.ref true 1)) s := by
  refine ⟨by decide, by simp [src], rfl, ?_, ?_, ?_⟩
  · intro d hd; simp [E.refs] at hd; subst hd; decide
  · intro l _ rs h; cases h
  · intro j hj dl rhs us u h hd hu hl
    match j, hj with
    | 0, _ => simp [prog2] at h
    | 1, _ => simp [prog2] at h
    | 2, _ => simp [prog2] at h
    | 4, _ => simp [prog2] at h
    | 3, _ =>
      simp [prog2] at h
      obtain ⟨rfl, rfl⟩ := h
      simp only [uses2, if_true, Option.some.injEq] at hd
      subst hd
      simp only [E.locs, List.mem_singleton] at hl
      refine ⟨⟨fun _ => 1, s.mem⟩, ?_, ?_, by simp [E.reads]⟩
      · intro D hD
        simp at hu
        rcases hu with rfl | rfl
        · cases hl
        · simp at hD; subst hD; simpa [E.eval] using hs
      · intro v _ hv
        simp at hu
        rcases hu with rfl | rfl
        · cases hl
        · simp [src] at hv

/-- **C112, negation.** `htail` of `propagate_partial` cannot be omitted: availability of references is checked for the
first usage of a definition only (`DeclRefIdx` is not reset), so `x` is replaced with `(a)` in the second usage,
although `a` has been changed. -/
theorem second_fails : ∃ S op defs direct evs i e s, Right S op defs direct evs i e s ∧
    (∀ d, Ev.decl d ∈ evs → ∀ g ∈ S.globals, S.name d ≠ S.name g) ∧
    ∃ t, (traverse S defs (initial direct) evs)[i]? = some (some t) ∧
      t.eval op (resolve S (scopes [] (evs.take i))) s ≠ some (e.eval op s) :=
  ⟨src, arith, uses2, fun _ => none, prog2, 5, .loc 2 (.ref true 1), ⟨fun d => if d = 1 then 1 else 2, fun _ => 0⟩,
    prog2_right _ rfl, by simp [src], .name 0, by decide, by decide⟩

/-- The declaration 0 is global, the declaration 2 is local and has the same name. -/
def srcG : Src := ⟨fun d => if d = 2 then 0 else d, fun _ => false, [0]⟩

def usesG (dl : Nat) : Option (List Usage) := if dl = 0 then some [⟨1, [1], [0]⟩] else none

/-- `int G; { int x; x = G; { int G; use(x); } }`. -/
def progG : List Ev :=
  [.enter, .decl 1, .assign 0 (.ref true 0), .enter, .decl 2, .expr (.loc 1 (.ref true 1)), .exit, .exit]

theorem progG_right : Right srcG arith usesG (fun _ => none) progG 5 (.loc 1 (.ref true 1))
    ⟨fun d => if d = 2 then 7 else 3, fun _ => 0⟩ := by
  refine ⟨by decide, by simp [srcG], rfl, ?_, ?_, ?_⟩
  · intro d hd; simp [E.refs] at hd; subst hd; decide
  · intro l _ rs h; cases h
  · intro j hj dl rhs us u h hd hu hl
    match j, hj with
    | 0, _ => simp [progG] at h
    | 1, _ => simp [progG] at h
    | 3, _ => simp [progG] at h
    | 4, _ => simp [progG] at h
    | 2, _ =>
      simp [progG] at h
      obtain ⟨rfl, rfl⟩ := h
      simp only [usesG, if_true, Option.some.injEq] at hd
      subst hd
      simp at hu
      subst hu
      refine ⟨⟨fun d => if d = 2 then 7 else 3, fun _ => 0⟩, ?_, fun _ _ _ => rfl, fun _ => rfl⟩
      intro D hD
      simp at hD; subst hD; rfl

/-- **C112, negation.** `hhide` of `propagate_partial` cannot be omitted: a global declaration is accepted even if a
local declaration with the same name is visible, so `x` is replaced with `(G)` which is the other `G`. -/
theorem hidden_fails : ∃ S op defs direct evs i e s, Right S op defs direct evs i e s ∧
    (∀ dl rhs us u, Ev.assign dl rhs ∈ evs → defs dl = some us → u ∈ us.tail →
      ∀ r ∈ rhs.refs, S.enum r = true ∨ r ∈ u.avail) ∧
    ∃ t, (traverse S defs (initial direct) evs)[i]? = some (some t) ∧
      t.eval op (resolve S (scopes [] (evs.take i))) s ≠ some (e.eval op s) := by
  refine ⟨srcG, arith, usesG, fun _ => none, progG, 5, .loc 1 (.ref true 1), _, progG_right, ?_, .name 0, by decide, by decide⟩
  intro dl rhs us u _ hd hu
  simp only [usesG] at hd
  split at hd
  · cases hd; simp at hu
  · cases hd

/-- `{ int a, x; x = a * 2; { int y; use(x + y); } { int a; use(x); } }`: the first usage is replaced, the second one is
not because `a` is hidden. -/
def progE : List Ev :=
  [.enter, .decl 0, .decl 1, .assign 0 (.bin 0 (.ref true 0) (.num 2)), .enter, .decl 2,
    .expr (.loc 1 (.bin 1 (.ref true 1) (.ref true 2))), .exit, .enter, .decl 3, .expr (.loc 2 (.ref true 1)), .exit, .exit]

def srcE : Src := ⟨fun d => if d = 3 then 0 else d, fun _ => false, []⟩

def usesE (dl : Nat) : Option (List Usage) := if dl = 0 then some [⟨1, [1], [0]⟩, ⟨2, [1], [0]⟩] else none

example : traverse srcE usesE (initial fun _ => none) progE =
    [none, none, none, some (.bin 0 (.name 0) (.num 2)), none, none,
      some (.bin 1 (.bin 0 (.name 0) (.num 2)) (.name 2)), none, none, none, some (.name 1), none, none] := by
  decide

example (s : Env) (a : Int) (ha : s.var 0 = a) (hx : s.var 1 = a * 2) :
    ∃ t, (traverse srcE usesE (initial fun _ => none) progE)[6]? = some (some t) ∧
      t.eval arith (resolve srcE (scopes [] (progE.take 6))) s = some (s.var 1 + s.var 2) := by
  refine propagate_partial (e := .loc 1 (.bin 1 (.ref true 1) (.ref true 2))) ⟨by decide, by simp [srcE], rfl, ?_, ?_, ?_⟩ ?_ ?_
  · intro d hd
    simp [E.refs] at hd
    rcases hd with rfl | rfl <;> decide
  · intro l _ rs h; cases h
  · intro j hj dl rhs us u h hd hu hl
    match j, hj with
    | 0, _ => simp [progE] at h
    | 1, _ => simp [progE] at h
    | 2, _ => simp [progE] at h
    | 4, _ => simp [progE] at h
    | 5, _ => simp [progE] at h
    | 3, _ =>
      simp [progE] at h
      obtain ⟨rfl, rfl⟩ := h
      simp only [usesE, if_true, Option.some.injEq] at hd
      subst hd
      refine ⟨s, ?_, fun _ _ _ => rfl, fun _ => rfl⟩
      intro D hD
      simp at hu
      rcases hu with rfl | rfl <;> (simp at hD; subst hD; simp [E.eval, arith, hx, ha])
  · intro d _ g hg; simp [srcE] at hg
  · intro dl rhs us u hm hd hu r hr
    simp [progE] at hm
    obtain ⟨rfl, rfl⟩ := hm
    simp only [usesE, if_true, Option.some.injEq] at hd
    subst hd
    simp at hu
    subst hu
    simp [E.refs] at hr
    subst hr
    right; simp

/-! ## Negative constants -/

/-- A text of a sum or a difference without spaces and a replacement of its second operand (`Rewriter::ReplaceText`):
`unparseReplacement` (ExprPropagation.cpp:855-868) does not enclose constants in parentheses. -/
def replaceSecond (a : List Char) (o : Char) (repl : List Char) : List Char := a ++ o :: repl

/-- Tokens of C: `++` and `--` are single tokens, the longest token is taken. -/
def lex : List Char → List (List Char)
  | [] => []
  | [c] => [[c]]
  | c :: d :: cs => if c = d ∧ (c = '-' ∨ c = '+') then [c, d] :: lex cs else [c] :: lex (d :: cs)

/-- **C112, negation.** If `y` is -1 then `x-y` becomes `x--1`: the text is read as a decrement of `x`. -/
theorem negative_fails : lex (replaceSecond ['x'] '-' ['-', '1']) = [['x'], ['-', '-'], ['1']] ∧
    lex (replaceSecond ['x'] '-' ['(', '-', '1', ')']) = [['x'], ['-'], ['('], ['-'], ['1'], [')']] := by decide

/-! ## Targets of assignments -/

/-- A left-hand side of an assignment or an operand of an increment. `ref r` is the reference number `r` in a program.
`leaf` has no references (a literal, `this`). -/
inductive Lhs where
  | ref (r : Nat)
  | paren (a : Lhs)
  | member (a : Lhs)
  | deref (a : Lhs)
  | sub (a i : Lhs)
  | comma (a b : Lhs)
  | cond (c a b : Lhs)
  | call (f : Lhs)
  | leaf

/-- What `excludeIfAssignment` does: a reference is excluded from propagation, nothing is done, an assertion is
violated. -/
inductive Excl where
  | ref (r : Nat)
  | nothing
  | failure
deriving DecidableEq

/-- `excludeIfAssignment`, ExprPropagation.cpp:543-565: the first child is visited. -/
def exclude : Lhs → Excl
  | .ref r => .ref r
  | .paren a => exclude a
  | .member a => exclude a
  | .deref a => exclude a
  | .sub _ _ => .nothing
  | .comma _ _ => .nothing
  | .cond c _ _ => exclude c
  | .call _ => .nothing
  | .leaf => .failure

/-- References to variables which get a new value (or a new value of a member). -/
def written : Lhs → List Nat
  | .ref r => [r]
  | .paren a => written a
  | .member a => written a
  | .deref _ => []
  | .sub _ _ => []
  | .comma _ b => written b
  | .cond _ a b => written a ++ written b
  | .call _ => []
  | .leaf => []

/-- There are no conditional and comma operators: they are not lvalues in C. -/
def isC : Lhs → Bool
  | .paren a => isC a
  | .member a => isC a
  | .comma _ _ => false
  | .cond _ _ _ => false
  | _ => true

/-- **C114.** A reference to a variable which gets a new value is never replaced, if an assignment is valid in C. -/
theorem target_partial : ∀ (a : Lhs), isC a = true → ∀ r ∈ written a, exclude a = .ref r := by
  intro a
  induction a with
  | ref r => intro _ x hx; simp [written] at hx; simp [exclude, hx]
  | paren a ih => intro h r hr; exact ih h r hr
  | member a ih => intro h r hr; exact ih h r hr
  | deref a ih => intro _ r hr; cases hr
  | sub a i _ _ => intro _ r hr; cases hr
  | comma a b _ _ => intro h; cases h
  | cond c a b _ _ _ => intro h; cases h
  | call f _ => intro _ r hr; cases hr
  | leaf => intro _ r hr; cases hr

/-- **C114, negation.** In C++ `(a, x) = 1` and `(c ? x : y) = 1` are assignments to `x`, but `x` is not excluded. -/
theorem target_fails : (2 ∈ written (.paren (.comma (.ref 1) (.ref 2))) ∧
      exclude (.paren (.comma (.ref 1) (.ref 2))) = .nothing) ∧
    (2 ∈ written (.paren (.cond (.ref 1) (.ref 2) (.ref 3))) ∧
      exclude (.paren (.cond (.ref 1) (.ref 2) (.ref 3))) = .ref 1) := by decide

/-- **C114, negation.** The assertion in `excludeIfAssignment` is violated for `*(int *)0 = 1` and `this->x = 1`: there is
no reference to a variable. -/
theorem target_crash_fails : exclude (.deref (.paren .leaf)) = .failure ∧ exclude (.member .leaf) = .failure := by decide

example : isC (.paren (.member (.ref 4))) = true ∧ written (.paren (.member (.ref 4))) = [4] := by decide

end Tsar.Propagate
