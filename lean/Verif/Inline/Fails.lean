import Verif.Inline.Check
import Verif.Inline.Props
/-!
# Requirements of the inliner which are not checked

Each theorem presents a program which satisfies all requirements except the one which is under
consideration, so calls are expanded in a wrong way.
-/
namespace Tsar.Inline

/-- A new identifier. -/
def fresh (_ : Name) (ids : Ids) : Name := ids.foldr max 0 + 1

theorem fresh_new (p : Name) (ids : Ids) : fresh p ids ∉ ids := by
  have : ∀ (ids : List Nat), ∀ y ∈ ids, y ≤ ids.foldr max 0 := by
    intro ids
    induction ids with
    | nil => intro y hy; cases hy
    | cons a ids ih =>
      intro y hy
      simp only [List.foldr_cons]
      rcases List.mem_cons.1 hy with rfl | hy
      · exact Nat.le_max_left _ _
      · exact Nat.le_trans (ih y hy) (Nat.le_max_right _ _)
  intro h
  exact absurd (this ids _ h) (Nat.not_succ_le_self _)

/-- Expansion of calls preserves behavior of a program. -/
def Keeps (P : Prog) (en : Name → Bool) (ids : Ids) (order : List Name) : Prop :=
  ∀ X f vs g t r, Runs (expand P en fresh 5 order ids) X f vs g t r → Runs P X f vs g t r

/-- A program with two functions. -/
def two (main f : Fun) : Prog := fun n => if n = 10 then some main else if n = 11 then some f else none

/-- The function to expand. -/
def only (n : Name) : Bool := n == 11

/-- Identifiers. -/
def ids₁ : Ids := [10, 11, 12, 13, 20, 21, 22, 23, 24]

/-- Requirements to names (see `Good`). -/
def Named (P : Prog) (ids : Ids) : Prop := ∀ f F, P f = some F →
  (∀ e ∈ exprsSs F.body, (∀ x ∈ usesE e, x ∈ ids) ∧ ∀ h ∈ fnsE e, h ∈ ids ∧ h ∉ F.decls) ∧
  ∀ x ∈ F.decls, x ∈ ids

/-- Names are correct, however calls are expanded in a wrong way. -/
def Broken (main f : Fun) : Prop := Named (two main f) ids₁ ∧ ¬ Keeps (two main f) only ids₁ [10]

theorem named_two {main f : Fun}
    (hm : (∀ e ∈ exprsSs main.body, (∀ x ∈ usesE e, x ∈ ids₁) ∧ ∀ h ∈ fnsE e, h ∈ ids₁ ∧ h ∉ main.decls) ∧
      ∀ x ∈ main.decls, x ∈ ids₁)
    (hf : (∀ e ∈ exprsSs f.body, (∀ x ∈ usesE e, x ∈ ids₁) ∧ ∀ h ∈ fnsE e, h ∈ ids₁ ∧ h ∉ f.decls) ∧
      ∀ x ∈ f.decls, x ∈ ids₁) : Named (two main f) ids₁ := by
  intro n F h
  unfold two at h
  split at h
  · cases h; exact hm
  · split at h
    · cases h; exact hf
    · cases h

/-- External functions `12` and `13` return `5`. -/
def five : Name → List Val → Val := fun _ _ => some 5

/-- Global variables have the same value. -/
def glob (v : Int) : Glob := fun _ => some v

theorem not_keeps {main f : Fun} {n d : Nat} {g : Glob} (k : List Ev → CRes → Bool)
    (hm : (∀ e ∈ exprsSs main.body, (∀ x ∈ usesE e, x ∈ ids₁) ∧ ∀ h ∈ fnsE e, h ∈ ids₁ ∧ h ∉ main.decls) ∧
      ∀ x ∈ main.decls, x ∈ ids₁)
    (hf : (∀ e ∈ exprsSs f.body, (∀ x ∈ usesE e, x ∈ ids₁) ∧ ∀ h ∈ fnsE e, h ∈ ids₁ ∧ h ∉ f.decls) ∧
      ∀ x ∈ f.decls, x ∈ ids₁)
    (hP : ((oneCalls (expand (two main f) only fresh 5 [10] ids₁) (oneExt five) n d 10 [] g).map
      fun p => k p.1 p.2) = some false)
    (hQ : allCalls (two main f) (allExt five) n d 10 [] g k = true) : Broken main f := by
  refine ⟨named_two hm hf, fun h => ?_⟩
  obtain ⟨t, r, h₁, h₂⟩ := differ five k hP hQ
  exact h₂ (h _ _ _ _ _ _ h₁)

def isErr : CRes → Bool
  | .halt .err => true
  | _ => false

def returns (v : Val) : CRes → Bool
  | .ret w _ => w == v
  | _ => false

/-- `int f() { return h₂(); }` -/
def callee : Fun := ⟨[], false, [.ret (some (.call false 13 []))]⟩
/-- `void f() { h₂(); }` -/
def calleeV : Fun := ⟨[], true, [.expr (.call false 13 [])]⟩
/-- `h₁()` -/
def h₁ : Expr := .call false 12 []
/-- `f()` which may be expanded -/
def f₁ : Expr := .call true 11 []

/-- `x = (h₁(), f());`: a call in the right operand of a comma operator is moved before the left one
(Inline.cpp:427-431 examines the wrong operand). -/
theorem comma_fails : Broken ⟨[], true, [.expr (.assign 20 (.comma h₁ f₁))]⟩ callee :=
  not_keeps (n := 30) (d := 3) (g := glob 0) (fun t _ => t != [(13, []), (12, [])])
    (by decide +kernel) (by decide +kernel) (by decide +kernel) (by decide +kernel)

/-- `h₁(), f();`: if `f` is `void` then the whole statement is replaced. -/
theorem comma_void_fails : Broken ⟨[], true, [.expr (.comma h₁ f₁)]⟩ calleeV :=
  not_keeps (n := 30) (d := 3) (g := glob 0) (fun t _ => t != [(13, [])])
    (by decide +kernel) (by decide +kernel) (by decide +kernel) (by decide +kernel)

/-- `x = h₁() ?: f();`: the second operand is evaluated in any case. -/
theorem elvis_fails : Broken ⟨[], true, [.expr (.assign 20 (.elvis h₁ f₁))]⟩ callee :=
  not_keeps (n := 30) (d := 3) (g := glob 0) (fun t _ => t != [(13, []), (12, [])])
    (by decide +kernel) (by decide +kernel) (by decide +kernel) (by decide +kernel)

/-- `x = sizeof(f());`: the operand is evaluated. -/
theorem sizeof_fails : Broken ⟨[], true, [.expr (.assign 20 (.size f₁))]⟩ callee :=
  not_keeps (n := 30) (d := 3) (g := glob 0) (fun t _ => t == [])
    (by decide +kernel) (by decide +kernel) (by decide +kernel) (by decide +kernel)

/-- `int a = h₁(), b = f(a);`: arguments are evaluated before `a` is declared. -/
theorem declarator_fails : Broken ⟨[], true, [.decl [(21, some h₁), (22, some (.call true 11 [.var 21]))]]⟩
    ⟨[23], false, [.ret (some (.call false 13 [.var 23]))]⟩ :=
  not_keeps (n := 30) (d := 3) (g := glob 0)
    (fun t _ => t == [] || t == [(12, [])] || t == [(12, []), (13, [some 5])])
    (by decide +kernel) (by decide +kernel) (by decide +kernel) (by decide +kernel)

/-- `goto L; L: f();`: the label is lost if `f` is `void`. -/
theorem label_fails : Broken ⟨[], true, [.goto 24, .label 24 (.expr f₁)]⟩ calleeV :=
  not_keeps (n := 30) (d := 3) (g := glob 0) (fun _ r => !isErr r)
    (by decide +kernel) (by decide +kernel) (by decide +kernel) (by decide +kernel)

/-- `for (f(); x; x = 0) h₁();`: the whole loop is replaced if `f` is `void`. -/
theorem for_init_fails : Broken ⟨[], true, [.for (.expr f₁) (.var 20) (.assign 20 (.val (some 0)))
    (.expr h₁)]⟩ calleeV :=
  not_keeps (n := 30) (d := 3) (g := glob 1)
    (fun t r => !(t == [(13, [])] && returns none r)) (by decide +kernel) (by decide +kernel) (by decide +kernel) (by decide +kernel)

/-- `void f() { x = x + 1; if (1) return; h₂(); }` -/
def early : Fun := ⟨[], true, [.expr (.assign 20 (.bin .add (.var 20) (.val (some 1)))),
  .ift (.val (some 1)) (.ret none), .expr (.call false 13 [])]⟩

/-- `while (x < 2) f(); return x;`: there are no braces, so the label for `return` statements of `f` is
placed after the loop. -/
theorem loop_body_fails : Broken ⟨[], false, [.loop (.bin .lt (.var 20) (.val (some 2))) (.expr f₁),
    .ret (some (.var 20))]⟩ early :=
  not_keeps (n := 40) (d := 3) (g := glob 0) (fun _ r => !returns (some 1) r)
    (by decide +kernel) (by decide +kernel) (by decide +kernel) (by decide +kernel)

/-- `if (x) f(); else h₁();`: there are no braces, so `else` has no corresponding `if`. -/
theorem else_fails : Broken ⟨[], true, [.ifte (.var 20) (.expr f₁) (.expr h₁)]⟩ early :=
  not_keeps (n := 40) (d := 3) (g := glob 0) (fun _ r => !isErr r)
    (by decide +kernel) (by decide +kernel) (by decide +kernel) (by decide +kernel)

/-- `f() { static int s; return s = s + 1; }`, `h₁(f()); h₁(f());`: each copy of a body has its own
variable. -/
theorem static_fails : Broken ⟨[], true, [.expr (.call false 12 [f₁]), .expr (.call false 12 [f₁])]⟩
    ⟨[], false, [.static 21 22, .ret (some (.assign 21 (.bin .add (.var 21) (.val (some 1)))))]⟩ :=
  not_keeps (n := 40) (d := 3) (g := glob 0)
    (fun t _ => t == [] || t == [(12, [some 1])] || t == [(12, [some 1]), (12, [some 2])])
    (by decide +kernel) (by decide +kernel) (by decide +kernel) (by decide +kernel)

end Tsar.Inline
