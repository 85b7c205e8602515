import Verif.Unreach.Props

/-! # A program which meets the restrictions -/

namespace Tsar.Unreach

/-- ```
int t = a;
while (t) {
  if (e && unreachable) { unreachable }
  else { x = x + t; t = t + d; }
  if (f(x) || unreachable) { int z = x; y = z; } else unreachable
}
x = g(t) ? unreachable : b;
for (i = 0; h(i); ) { unreachable }
if (c) return y; else { unreachable }
``` -/
def sample : Stmt :=
  .decl 1 (.var 0) <|
  .seq (.loop (.var 1) (.block (.seq
      (.ifE (.land (.var 10) (.dead (.var 8))) (.dead (.block (.expr (.inc 8))))
        (.block (.seq (.expr (.asg 2 (.bin 0 (.var 2) (.var 1))))
          (.expr (.asg 1 (.bin 0 (.var 1) (.num (-1))))))))
      (.ifE (.lor (.call 6 (.var 2)) (.dead (.var 8)))
        (.block (.decl 3 (.var 2) (.expr (.asg 4 (.var 3)))))
        (.dead (.expr (.inc 8)))))))
  (.seq (.expr (.asg 2 (.cond (.call 6 (.var 1)) (.dead (.var 8)) (.var 5))))
  (.seq (.for_ (some (.asg 7 (.num 0))) (some (.call 6 (.var 7))) none
      (.dead (.block (.expr (.inc 8)))))
  (.ifE (.num 1) (.ret (.var 4)) (.dead (.block (.expr (.inc 8)))))))

example : SafeS sample ∧ ProperS sample := by
  constructor
  · simp [sample, SafeS, Safe, side, BranchOk, oside, OSafe, flat]
  · simp [sample, ProperS, Proper, lvl, Single, opens, hasDecl, OProper]

/-- The returned value. -/
def Res.value : Res → Option Int
  | .ok (.ret v) _ => some v
  | _ => none

/-- The run of the example does not contradict coverage data and returns 3, the text
without unreachable code is given. -/
example : (run exEnv 9 sample (fun x => if x = 0 then 2 else 0)).value = some 3 ∧
    edit sample =
      [.kint, .id 1, .eq, .id 0, .semi, .kwhile, .lp, .id 1, .rp, .lb,
       .id 2, .eq, .id 2, .op 0, .id 1, .semi, .id 1, .eq, .id 1, .op 0, .num (-1), .semi] ++
      [.id 6, .lp, .id 2, .rp, .semi, .lb, .kint, .id 3, .eq, .id 2, .semi,
       .id 4, .eq, .id 3, .semi, .rb, .rb] ++
      [.id 2, .eq, .lp, .id 6, .lp, .id 1, .rp, .comma, .id 5, .rp, .semi] ++
      [.id 7, .eq, .num 0, .semi, .id 6, .lp, .id 7, .rp, .semi, .kret, .id 4, .semi] := by
  constructor
  · decide +kernel
  · rfl

end Tsar.Unreach
