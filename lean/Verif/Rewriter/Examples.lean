import Verif.Rewriter.Props

/-!
# Examples of rewriting and cases in which it is wrong
-/

namespace Tsar.Rewriter

/-- `f(a,b)`: requests which satisfy `rewrite_partial`. A replaced range is
replaced again together with its neighbours. -/
def exOps : List Op :=
  [.insert 2 "(".toList true, .replace 4 1 "xy".toList, .insert 2 "/*".toList false,
    .insert 4 "<".toList false, .replace 3 2 ";z".toList, .insert 5 " ".toList true]

example : AllAllowed "f(a,b)".toList.length [] exOps := by
  simp [exOps, AllAllowed, Allowed, replaced]

example : (run (init "f(a,b)".toList) exOps).map (fun r => (r.buf,
    getRewrittenText r 2 3, getRewrittenText r 3 2)) =
    some ("f(/*(a;z )".toList, some "(a;z".toList, some ";z".toList) := by decide +kernel

/-- Ranges are replaced in any order. -/
example : AllAllowed "a+b".toList.length []
    ([.insert 0 "(".toList true] ++ [.replace 0 1 "xy".toList, .replace 2 1 "z".toList]) := by
  simp [AllAllowed, Allowed, replaced]

/-- `  x; \nb` without `x;`. -/
example : removeRange "a\n  x; \nb".toList 4 2 true = (2, 6) := by decide +kernel
example : removeRange "a\n  x; c\nb".toList 4 2 true = (4, 2) := by decide +kernel

/-- C95 fails: text is inserted into the middle of a replacement of a single
character, `x + y` becomes `fo(o + y`. -/
theorem single_fails :
    (run (init "x + y".toList) [.replace 0 1 "foo".toList, .insert 0 "(".toList true]).map
      Rw.buf = some "fo(o + y".toList := by decide +kernel

/-- C95 fails: text inserted at the location of a removed character is placed
before the previous character which has not been touched. -/
theorem empty_fails :
    (run (init "ab".toList) [.replace 1 1 [], .insert 1 "x".toList true]).map
      Rw.buf = some "xa".toList := by decide +kernel

/-- C95 fails: a request inside of a replaced range damages text outside of it.
The argument of `f` is replaced, a later request inside of it destroys `=`. -/
theorem inner_fails :
    (run (init "f(xyz+1)=2;".toList) [.replace 2 5 "y".toList, .replace 4 1 "2".toList]).map
      Rw.buf = some "f(y)22;".toList := by decide +kernel

/-- C95 fails: text inserted at the first character of a range is lost when the
range is replaced. -/
theorem lost_fails :
    (run (init "ab".toList) [.insert 0 "/*keep*/".toList true, .replace 0 1 "x".toList]).map
      Rw.buf = some "xb".toList := by decide +kernel

/-- C95 fails: `InsertTextBefore` inserts text after text which has been inserted
already. -/
theorem before_fails :
    ((insertTextAfter (init "x".toList) 0 "A".toList).bind
      fun r => insertTextBefore r 0 "B".toList).map Rw.buf = some "ABx".toList ∧
    (run (init "x".toList) [.insert 0 "A".toList true, .insert 0 "B".toList false]).map
      Rw.buf = some "BAx".toList := by decide +kernel

/-- C95 fails: replacement of an empty range removes the rest of a text. -/
theorem zero_fails :
    (run (init "abcd".toList) [.insert 2 "++".toList false, .replace 2 0 "x".toList]).map
      Rw.buf = some "ab++x".toList := by decide +kernel

/-- C95 fails: text can not be inserted after the last token of a range. -/
theorem end_fails (t s : List Char) : insertText (init t) t.length s true = none := by
  have : (init t).map[2 * t.length + 1]? = none := by
    rw [List.getElem?_eq_none]; simp [init]
  simp [insertText, this]

/-- C95 fails: a line which starts before the rewritten text is removed. -/
theorem line_fails :
    removeText (init "x;\n".toList) "  x;\n".toList 2 2 2 true = none ∧
    (removeText (init "x;\n".toList) "  x;\n".toList 2 2 2 false).map Rw.buf =
      some "\n".toList := by decide +kernel

end Tsar.Rewriter
