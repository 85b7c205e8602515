import Verif.DeadDecls.Complete

/-
Examples and cases when elimination of dead declarations changes a program (C104).
-/

namespace Tsar
namespace DeadDecls

namespace Demo

/-- Other functions increment the variable 100 (it is visible) and return its previous value, 200 is volatile, 300 is a
reference to 100. -/
def W : World where
  vis d := d == 100 || d == 101
  vol d := d == 200
  target d := if d = 300 then 100 else d
  op o a b := if o = 0 then some (a + b) else if b = 0 then none else some (a / b)
  addr d := d
  size _ := 4
  enumConst _ k := k
  load a m := m a.toNat
  store a x m := some fun d => if (d : Int) = a then some x else m d
  call _ _ _ m := some ((m 100).getD 0, fun d => if d = 100 then (m 100).map (· + 1) else m d)
  elems _ _ := [1, 2]

def σ₀ : State := ⟨fun d => if d < 100 then none else some 0, []⟩

def var (d : Nat) (i : Option Expr := none) (ts : List Nat := []) : Decl := ⟨d, .var .auto, ts, none, i⟩

/-- `int f(int p) { typedef int T; int x = 1, y = p; struct S { int a; } ; T z; x = p / 2; for (int i = 0; i < 3;
++i) { y = i; z = call(z); } { x = 7; } return call(p); }` with a dead structure and dead `x` and `y`. -/
def f : Func Unit :=
  ⟨[var 1], .block false (.seq (.decls [⟨2, .tag 20 true false, [], none, none⟩])
    (.seq (.decls [var 3 (some (.const 1)), var 4 (some (.var 1))])
    (.seq (.decls [⟨5, .tag 21 true false, [], none, none⟩])
    (.seq (.decls [var 6 (some (.const 0)) [20]])
    (.seq (.expr () (.assign 3 (.op 1 (.var 1) (.const 2))))
    (.seq (.loopFor false [var 7 (some (.const (-3)))] (.var 7) (.incr 0 7)
      (.block false (.seq (.expr () (.assign 4 (.var 7)))
        (.seq (.expr () (.assign 6 (.call 9 (.var 6) (.const 0)))) .nop))))
    (.seq (.block false (.seq (.expr () (.assign 3 (.const 7))) .nop))
    (.ret (.call 9 (.var 1) (.addr 100))))))))))⟩

def G : List Name := [.var 100, .var 101, .var 200]

/-- The result: `x`, `y` and the structure are removed with assignments. -/
example : removed f = [5, 4, 3] ∧ (eliminate f).params = f.params := ⟨rfl, rfl⟩

example : (eliminate f).body = .block false (.seq (.decls [⟨2, .tag 20 true false, [], none, none⟩])
    (.seq (.decls []) (.seq (.decls []) (.seq (.decls [var 6 (some (.const 0)) [20]]) (.seq .nop
    (.seq (.loopFor false [var 7 (some (.const (-3)))] (.var 7) (.incr 0 7)
      (.block false (.seq .nop (.seq (.expr () (.assign 6 (.call 9 (.var 6) (.const 0)))) .nop))))
    (.seq (.block false (.seq .nop .nop)) (.ret (.call 9 (.var 1) (.addr 100)))))))))) := rfl

theorem valid : f.Valid G where
  ids := show ([1, 2, 3, 4, 5, 6, 7] : List Nat).Nodup by decide
  names := show ([.var 1, .type 20, .complete 20, .var 3, .var 4, .type 21, .complete 21, .var 6, .var 7] :
    List Name).Nodup by decide
  outer := by decide +kernel
  ok := by
    simp [Func.Ok, DeclsOk, Ok, f, G, afterDecls, after, Decl.names, Decl.provides, Expr.names, optNames, var]

theorem harmless : Harmless W f := by
  have hr : f.reads = [.var 1, .type 20, .complete 20, .var 1, .var 7, .var 7, .var 7, .var 6, .var 1,
      .var 100] := rfl
  have hd : ∀ d ∈ f.decls, d.id < 100 ∧ d.size = none ∧ ∀ e ∈ d.init, Quiet W e := by
    intro d hd
    simp only [f, Func.decls, declsOf, List.mem_append, List.mem_cons, List.not_mem_nil, or_false, false_or] at hd
    rcases hd with rfl | rfl | (rfl | rfl) | rfl | rfl | rfl <;>
      exact ⟨by decide, rfl, by simp [var, Quiet, W]⟩
  refine ⟨?_, ?_, ?_, ?_, ?_⟩
  · intro d _ hm
    rw [hr] at hm
    simp at hm
  · intro d hd
    simp [f, eachVars] at hd
  · intro d h1 _
    obtain ⟨h2, h3, h4⟩ := hd d h1
    refine ⟨?_, ?_, ?_, h4, by intro e he; rw [h3] at he; cases he⟩
    · simp [W]; omega
    · simp [W]; omega
    · simp [W]; omega
  · intro p hp d _ _ _
    simp only [f, assigns, List.mem_append, List.mem_cons, List.not_mem_nil, or_false, false_or] at hp
    rcases hp with rfl | (rfl | rfl) | rfl <;> simp_all [Func.Unused, Quiet, W]
  · intro x hx d h1 h2
    obtain ⟨h3, -, -⟩ := hd d h1
    by_cases h300 : x = 300
    · subst h300
      rw [h2] at h3
      exact absurd h3 (by decide)
    · simp [W, h300] at hx

/-- The theorem is applicable: the result makes the same calls. -/
example : ∃ r', run W 10 (eliminate f).body (σ₀.set 1 (some 8)) = some r' ∧ r'.1 = .ret 3 ∧
    r'.2.trace = [.call 9 0 0, .call 9 0 0, .call 9 1 0, .call 9 8 100] := by
  obtain ⟨r', h1, h2, h3, -⟩ := (eliminate_partial valid harmless).2.2.2 10 (σ₀.set 1 (some 8)) _ rfl
  exact ⟨r', h1, h2.trans rfl, h3.trans (by rfl)⟩

/-- `eliminate_complete` is applicable to `x` and `y`. -/
example : (3 : Nat) ∈ removed f ∧ (4 : Nat) ∈ removed f := by
  have := eliminate_complete valid (S := fun d => d = var 3 (some (.const 1)) ∨ d = var 4 (some (.var 1)))
    (by
      intro d hd
      rcases hd with rfl | rfl <;>
        refine ⟨by simp [f, noMacro, var], by simp [var, sideEffect], ?_, ?_⟩ <;>
        simp [f, touches, var, sideEffect, stmtReads, Expr.names, Decl.names, optNames, Func.Untouched, Decl.provides])
    (by
      intro g hg d hd hS d' hd'
      simp only [f, groups, List.mem_append, List.mem_cons, List.not_mem_nil, or_false, false_or] at hg
      rcases hg with rfl | rfl | rfl | rfl | rfl
      · rw [List.mem_singleton.1 hd] at hS; simp [var] at hS
      · simpa using hd'
      · rw [List.mem_singleton.1 hd] at hS; simp [var] at hS
      · rw [List.mem_singleton.1 hd] at hS; simp [var] at hS
      · rw [List.mem_singleton.1 hd] at hS; simp [var] at hS)
  exact ⟨this _ (.inl rfl), this _ (.inr rfl)⟩

end Demo

/-! ### Cases when the result is wrong -/

/-- The function has defined behaviour and the result behaves differently. -/
def Breaks (W : World) (f : Func Unit) : Prop :=
  ∃ n σ r, run W n f.body σ = some r ∧ ∀ r', run W n (eliminate f).body σ = some r' → ¬ Same f r r'

open Demo in
/-- **Volatile variables.** `{ volatile int x; x = 5; }`: the access disappears. -/
theorem volatile_fails : ∃ f : Func Unit, f.Valid G ∧ Breaks { W with vol := fun d => d == 3 } f := by
  refine ⟨⟨[], .block false (.seq (.decls [var 3]) (.expr () (.assign 3 (.const 5))))⟩, ?_, 0, σ₀, _, rfl, ?_⟩
  · exact ⟨by decide, by decide, by decide, by
      simp [Func.Ok, DeclsOk, Ok, afterDecls, after, Decl.names, Decl.provides, Expr.names, optNames, var]⟩
  · intro r' hr' hs
    have hr : r' = (.normal, σ₀) := (Option.some.inj hr').symm
    subst hr
    have : ([] : List Ev) = [.write 3 5] := hs.2.1
    cases this

open Demo in
/-- **Reads of volatile variables.** `{ int t = port; }`: the access disappears. -/
theorem volatile_read_fails : ∃ f : Func Unit, f.Valid G ∧ Breaks W f := by
  refine ⟨⟨[], .block false (.decls [var 3 (some (.var 200))])⟩, ?_, 0, σ₀, _, rfl, ?_⟩
  · exact ⟨by decide, by decide, by decide, by
      simp [Func.Ok, DeclsOk, Ok, afterDecls, Decl.names, Decl.provides, Expr.names, optNames, var, G]⟩
  · intro r' hr' hs
    have hr : r' = (.normal, σ₀) := (Option.some.inj hr').symm
    subst hr
    have : ([] : List Ev) = [.read 200 0] := hs.2.1
    cases this

open Demo in
/-- **External variables.** `{ extern int g; g = 5; return call(); }`: other functions use a wrong value. -/
theorem extern_fails : ∃ f : Func Unit, f.Valid [] ∧ Breaks W f := by
  refine ⟨⟨[], .block false (.seq (.decls [⟨100, .var .extern, [], none, none⟩])
    (.seq (.expr () (.assign 100 (.const 5))) (.ret (.call 9 (.const 0) (.const 0)))))⟩, ?_, 0, σ₀, _, rfl, ?_⟩
  · exact ⟨by decide, by decide, by decide, by
      simp [Func.Ok, DeclsOk, Ok, afterDecls, after, Decl.names, Decl.provides, Expr.names, optNames]⟩
  · intro r' hr' hs
    have h1 : r'.1 = .ret 0 := by rw [← Option.some.inj hr']; rfl
    have h2 : r'.1 = .ret 5 := hs.1
    rw [h1] at h2
    exact absurd h2 (by decide)

open Demo in
/-- **References of C++.** `{ int &r = y; r = 5; }`: the variable `y` is not changed. -/
theorem reference_fails : ∃ f : Func Unit, f.Valid G ∧ Breaks W f := by
  refine ⟨⟨[], .block false (.seq (.decls [var 300 (some (.addr 100))]) (.expr () (.assign 300 (.const 5))))⟩, ?_, 0,
    σ₀, _, rfl, ?_⟩
  · exact ⟨by decide, by decide, by decide, by
      simp [Func.Ok, DeclsOk, Ok, afterDecls, after, Decl.names, Decl.provides, Expr.names, optNames, var, G]⟩
  · intro r' hr' hs
    have hr : r' = (.normal, σ₀) := (Option.some.inj hr').symm
    subst hr
    have h1 : some (0 : Int) = some 5 := hs.2.2 100 (by intro x hx; rw [List.mem_singleton.1 hx]; decide)
    cases h1

open Demo in
/-- **Constructors.** `{ Guard g(m); }`: a constructor is not called. -/
theorem constructor_fails : ∃ f : Func Unit, f.Valid G ∧ Breaks W f := by
  refine ⟨⟨[], .block false (.decls [var 3 (some (.ctor 8 (.addr 100) (.const 0)))])⟩, ?_, 0, σ₀, _, rfl, ?_⟩
  · exact ⟨by decide, by decide, by decide, by
      simp [Func.Ok, DeclsOk, Ok, afterDecls, Decl.names, Decl.provides, Expr.names, optNames, var, G]⟩
  · intro r' hr' hs
    have hr : r' = (.normal, σ₀) := (Option.some.inj hr').symm
    subst hr
    have : ([] : List Ev) = [.ctor 8 100 0] := hs.2.1
    cases this

open Demo in
/-- **Variable length arrays.** `{ int a[call()]; }`: a function is not called. -/
theorem array_size_fails : ∃ f : Func Unit, f.Valid G ∧ Breaks W f := by
  refine ⟨⟨[], .block false (.decls [⟨3, .var .auto, [], some (.call 8 (.const 1) (.const 0)), none⟩])⟩, ?_, 0, σ₀, _,
    rfl, ?_⟩
  · exact ⟨by decide, by decide, by decide, by
      simp [Func.Ok, DeclsOk, Ok, afterDecls, Decl.names, Decl.provides, Expr.names, optNames]⟩
  · intro r' hr' hs
    have hr : r' = (.normal, σ₀) := (Option.some.inj hr').symm
    subst hr
    have : ([] : List Ev) = [.call 8 1 0] := hs.2.1
    cases this

open Demo in
/-- **Enumerations.** `{ enum { A }; return A; }`: the enumeration is removed, its constant is used. -/
theorem enumeration_fails : ∃ f : Func Unit, f.Valid G ∧ ¬ (eliminate f).Ok G := by
  refine ⟨⟨[], .block false (.seq (.decls [⟨3, .tag 20 true true, [], none, none⟩]) (.ret (.enumConst 3 0)))⟩, ?_, ?_⟩
  · exact ⟨by decide, by decide, by decide, by
      simp [Func.Ok, DeclsOk, Ok, afterDecls, after, Decl.names, Decl.provides, Expr.names, optNames]⟩
  · intro h
    have h1 : Name.consts 3 ∈ G := h.2.2 (.consts 3) (List.mem_singleton.2 rfl)
    exact absurd h1 (by decide)

open Demo in
/-- **Declarations before definitions.** `{ struct S; struct S { int a; }; struct S s; return call(s); }`: the
definition is removed, its first declaration is preserved. -/
theorem redeclaration_fails : ∃ f : Func Unit, (f.decls.map (·.id)).Nodup ∧ f.Ok G ∧ ¬ (eliminate f).Ok G := by
  refine ⟨⟨[], .block false (.seq (.decls [⟨3, .tag 20 false false, [], none, none⟩])
    (.seq (.decls [⟨4, .tag 20 true false, [], none, none⟩])
    (.seq (.decls [var 5 none [20]]) (.ret (.var 5)))))⟩, by decide, ?_, ?_⟩
  · simp [Func.Ok, DeclsOk, Ok, afterDecls, after, Decl.names, Decl.provides, Expr.names, optNames, var]
  · intro h
    have h1 := h.2.2.2.1.1 (.complete 20) (List.mem_cons_of_mem _ (List.mem_singleton.2 rfl))
    exact absurd h1 (by decide +kernel)

open Demo in
/-- **Range-based loops.** `for (int x : a) call();`: a declaration of the variable of the loop is removed. -/
theorem range_loop_fails : ∃ f : Func Unit, f.Valid G ∧ ¬ (eliminate f).Ok G := by
  refine ⟨⟨[], .block false (.each (some (var 3)) 100 (.expr () (.call 9 (.const 0) (.const 0))))⟩, ?_, ?_⟩
  · exact ⟨by decide, by decide, by decide, by
      simp [Func.Ok, DeclsOk, Ok, afterDecls, Decl.names, Decl.provides, Expr.names, optNames, var, G]⟩
  · exact fun h => h.2

end DeadDecls
end Tsar
