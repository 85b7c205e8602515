import Verif.ToolRun.Props

/-!
# Options of the tool (C188)

Models assignments of weights and the check of options which are incompatible with LLVM IR in
`Tool::storeCLOptions()` from `/repo/lib/Core/Tool.cpp`.
-/

namespace Tsar.ToolRun

/-- Weights in global options (`GlobalOptions.h:83-85`). -/
structure Weights where
  func : ℕ
  builtin : ℕ
  deriving DecidableEq

/-- Assignments of weights (`Tool.cpp:631-632`), arguments are values of `-unknown-function-weight` and
`-unknown-builtin-weight`. -/
def storeWeights (f b : ℕ) (g : Weights) : Weights :=
  let g := { g with func := f }
  { g with func := b }

/-- `sys::path::extension()`: an extension with the leading dot, an extension without the dot is
given. -/
def extension (e : List Char) : List Char := '.' :: e

/-- The check of options which are incompatible with LLVM IR (`Tool.cpp:688-699`), sources are given by
their extensions, `isIR` is `getInputKindForExtension()`. The result is true if the tool is stopped. -/
def llRejected (isIR : List Char → Bool) (langUnset : Bool) (incompatible : List ℕ)
    (exts : List (List Char)) : Bool :=
  langUnset && !incompatible.isEmpty && exts.any fun e => isIR (extension e)

/-- **C188**: weights from a command line are not always used: the weight of builtins replaces the
weight of functions (with default values too). -/
theorem weights_fails :
    (¬ ∀ (f b : ℕ) (g : Weights), storeWeights f b g = ⟨f, b⟩) ∧
    ∀ D : ℕ, D ≠ 20 → storeWeights D 20 ⟨D, 20⟩ ≠ ⟨D, 20⟩ := by
  refine ⟨fun h => ?_, fun D hD h => ?_⟩
  · have := h 1 2 ⟨0, 0⟩
    revert this
    decide
  · have := congrArg Weights.func h
    exact hD this.symm

/-- **C188**: values which are used: `-unknown-function-weight` never has an effect,
`-unknown-builtin-weight` is the weight of functions and the weight of builtins is not changed. Hence
values are correct exactly if both options are equal and equal to the initial weight of builtins. -/
theorem weights_partial (f b : ℕ) (g : Weights) :
    storeWeights f b g = ⟨b, g.builtin⟩ ∧ (storeWeights f b g = ⟨f, b⟩ ↔ f = b ∧ g.builtin = b) := by
  refine ⟨rfl, ?_⟩
  simp only [storeWeights, Weights.mk.injEq]
  constructor
  · rintro ⟨h1, h2⟩
    exact ⟨h1.symm, h2⟩
  · rintro ⟨h1, h2⟩
    exact ⟨h1.symm, h2⟩

/-- **C188**: the tool is stopped only if the language is not specified, an incompatible option is set
and there are sources. Missing: it is stopped if there is a file with LLVM IR (see `ll_fails`). -/
theorem ll_partial {isIR : List Char → Bool} {langUnset : Bool} {incompatible : List ℕ}
    {exts : List (List Char)} (h : llRejected isIR langUnset incompatible exts = true) :
    langUnset = true ∧ incompatible ≠ [] ∧ ∃ e ∈ exts, isIR (extension e) = true := by
  simp only [llRejected, Bool.and_eq_true, Bool.not_eq_true', List.any_eq_true,
    List.isEmpty_eq_false_iff] at h
  exact ⟨h.1.1, h.1.2, h.2⟩

/-- **C188**: extensions of LLVM IR files have no leading dot in Clang, so the tool is never stopped and
an incompatible option is accepted together with a file with LLVM IR. -/
theorem ll_fails (isIR : List Char → Bool) (hdot : ∀ e, isIR ('.' :: e) = false) :
    (∀ langUnset incompatible exts, llRejected isIR langUnset incompatible exts = false) ∧
    ((∃ e, isIR e = true) → ¬ ∀ (incompatible : List ℕ) (exts : List (List Char)),
      incompatible ≠ [] → (∃ e ∈ exts, isIR e = true) →
        llRejected isIR true incompatible exts = true) := by
  have key : ∀ langUnset incompatible exts,
      llRejected isIR langUnset incompatible exts = false := by
    intro u i es
    simp [llRejected, extension, hdot]
  refine ⟨key, ?_⟩
  rintro ⟨e, he⟩ h
  have := h [0] [e] (by simp) ⟨e, by simp, he⟩
  rw [key] at this
  cases this

example : ∀ e : List Char, (fun x : List Char => x == ['l', 'l'] || x == ['b', 'c']) ('.' :: e) = false := by
  intro e
  simp
example : storeWeights 5 7 ⟨100, 20⟩ = ⟨7, 20⟩ := by decide
example : llRejected (fun x => x == ['.', 'l', 'l']) true [1] [['c'], ['l', 'l']] = true := by decide

end Tsar.ToolRun
