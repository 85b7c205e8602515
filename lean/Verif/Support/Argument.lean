import Mathlib.Data.List.Nodup

/-!
# Search for an argument of a function (C46)

Models `getArgument` from `/repo/lib/Support/Utils.cpp:93-98`.
-/

namespace Tsar.Support

/-- The loop of `getArgument` (`Utils.cpp:96`): iterator over the remaining arguments and the counter
`I`; the iterator is advanced while `I <= ArgNo`. -/
def advance {α : Type*} (argNo : ℕ) : List α → ℕ → List α
  | [], _ => []
  | a :: rest, i => if i ≤ argNo then advance argNo rest (i + 1) else a :: rest

/-- `getArgument` (`Utils.cpp:93-98`): the argument under the iterator or null. -/
def getArgument {α : Type*} (args : List α) (argNo : ℕ) : Option α :=
  (advance argNo args 0).head?

theorem advance_eq {α : Type*} (argNo : ℕ) (args : List α) (i : ℕ) :
    advance argNo args i = args.drop (argNo + 1 - i) := by
  induction args generalizing i with
  | nil => simp [advance]
  | cons a rest ih =>
    unfold advance
    split
    · rw [ih, show argNo + 1 - i = (argNo + 1 - (i + 1)) + 1 by omega, List.drop_succ_cons]
    · rw [show argNo + 1 - i = 0 by omega, List.drop_zero]

/-- What the function really returns: the argument after the requested one. -/
theorem getArgument_eq {α : Type*} (args : List α) (argNo : ℕ) :
    getArgument args argNo = args[argNo + 1]? := by
  unfold getArgument
  rw [advance_eq, Nat.sub_zero, List.head?_drop]

/-- **C46**, the part which holds: null is returned when the function has no such argument.  Missing:
an existing argument (`getArgument_fails`). -/
theorem getArgument_none_partial {α : Type*} (args : List α) (argNo : ℕ)
    (h : args.length ≤ argNo) : getArgument args argNo = none := by
  rw [getArgument_eq]
  exact List.getElem?_eq_none (by omega)

example : getArgument ["a", "b"] 2 = none := getArgument_none_partial _ _ (by decide)

/-- The full property C46 is false for every function with different arguments and each existing
argument: the returned argument is never the requested one, whether arguments are counted from
zero, or the last argument is requested. -/
theorem getArgument_fails {α : Type*} (args : List α) (hn : args.Nodup) (argNo : ℕ)
    (h : argNo < args.length) : getArgument args argNo ≠ args[argNo]? := by
  rw [getArgument_eq, List.getElem?_eq_getElem h]
  intro he
  obtain ⟨h1, h2⟩ := List.getElem?_eq_some_iff.1 he
  have := (List.Nodup.getElem_inj_iff hn).1 h2
  omega

/-- The first argument is unreachable: it is not returned for any number. -/
theorem getArgument_first_fails {α : Type*} (a : α) (args : List α) (hn : (a :: args).Nodup)
    (argNo : ℕ) : getArgument (a :: args) argNo ≠ some a := by
  rw [getArgument_eq, List.getElem?_cons_succ]
  intro he
  exact (List.nodup_cons.1 hn).1 (List.mem_of_getElem? he)

example : getArgument ["a", "b", "c"] 0 = some "b" := by decide

end Tsar.Support
