import Verif.Inline.Fails
/-!
# The theorem about expansion of calls is not vacuous

`int f(int a) { if (a) return a + 1; h₂(); return 1; }`
`int main() { int y = f(x); while (y < 3) { y = f(y); } h₁(y); return y; }`
-/
namespace Tsar.Inline

def exF : Fun := ⟨[23], false, [.ift (.var 23) (.ret (some (.bin .add (.var 23) (.val (some 1))))),
  .expr (.call false 13 []), .ret (some (.val (some 1)))]⟩

def exMain : Fun := ⟨[], false, [.decl [(21, some (.call true 11 [.var 20]))],
  .loop (.bin .lt (.var 21) (.val (some 3))) (.block [.expr (.assign 21 (.call true 11 [.var 21]))]),
  .expr (.call false 12 [.var 21]), .ret (some (.var 21))]⟩

theorem ex_good : ∀ f F, two exMain exF f = some F → Good (two exMain exF) only ids₁ f F := by
  intro n F h
  unfold two at h
  split at h
  · cases h
    constructor
    · decide +kernel
    · decide +kernel
    · decide +kernel
    · decide +kernel
    · intro; decide +kernel
    · intro; decide +kernel
  · split at h
    · cases h
      constructor
      · decide +kernel
      · decide +kernel
      · decide +kernel
      · decide +kernel
      · intro; decide +kernel
      · intro; decide +kernel
    · cases h

/-- Two calls are expanded: there are no calls of `f` any more and the bodies are inserted. -/
example : ((expand (two exMain exF) only fresh 5 [10] ids₁ 10).map fun F =>
    (F.body.length, (exprsSs F.body).flatMap fnsE)) = some (7, [13, 13, 12]) := by decide +kernel

/-- The expanded program calls `h₂` and `h₁(3)`, it returns `3`. -/
example : ((oneCalls (expand (two exMain exF) only fresh 5 [10] ids₁) (oneExt five) 100 4 10 [] (glob 0)).map
    fun p => (p.1, returns (some 3) p.2)) = some ([(13, []), (12, [some 3])], true) := by decide +kernel

/-- The original program has this behavior as well. -/
example (t r) (h : Runs (expand (two exMain exF) only fresh 5 [10] ids₁) (Ext five) 10 [] (glob 0) t r) :
    Runs (two exMain exF) (Ext five) 10 [] (glob 0) t r :=
  inline_partial _ _ _ _ fresh_new ex_good 5 [10] _ _ _ _ _ _ h

end Tsar.Inline
