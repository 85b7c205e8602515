import Verif.ToolRun.Model

namespace Tsar.ToolRun

/-! ## C186 -/

/-- Sources of a kind in the order of the command line. -/
def ofKind (kind : ℕ → Kind) (k : Kind) (srcs : List ℕ) : List ℕ :=
  srcs.filter fun s => kind s == k

theorem foldl_unset (flang : Bool) (kind : ℕ → Kind) : ∀ (srcs : List ℕ) (l : Lists),
    srcs.foldl (add flang .unset kind) l =
      { noAst := l.noAst ++ ofKind kind .c srcs
        merge := l.merge ++ ofKind kind .ast srcs
        ll := l.ll ++ ofKind kind .ir srcs
        c := l.c ++ ofKind kind .c srcs
        fortran := l.fortran ++ if flang then ofKind kind .fortran srcs else []
        skipped := l.skipped ++ srcs.filter fun s =>
          kind s == .unknown || (!flang && kind s == .fortran) }
  | [], l => by cases flang <;> simp [ofKind]
  | s :: srcs, l => by
    rw [List.foldl_cons, foldl_unset flang kind srcs]
    cases flang <;> cases h : kind s <;> simp [add, h, ofKind]

/-- **C186**: if a language is not specified, then C/C++ sources are analysed, then Fortran sources if
Flang is available, and then LLVM IR, in the order of the command line. A message is printed for each
source with an unknown language and only for such sources. -/
theorem unset_exact (flang : Bool) (kind : ℕ → Kind) (srcs : List ℕ) :
    analysed flang (classify flang .unset kind srcs) =
      ofKind kind .c srcs ++ (if flang then ofKind kind .fortran srcs else []) ++
        ofKind kind .ir srcs ∧
    (classify flang .unset kind srcs).skipped = srcs.filter fun s =>
      kind s == .unknown || (!flang && kind s == .fortran) := by
  unfold classify
  rw [foldl_unset]
  cases flang <;> simp [analysed]

/-- **C186**: each source is analysed as many times as it is specified, or a message is printed.
Missing: files with Clang AST (see `ast_fails`). -/
theorem accounted_partial (flang : Bool) (kind : ℕ → Kind) (srcs : List ℕ)
    (h : ∀ s ∈ srcs, kind s ≠ .ast) (s : ℕ) :
    (analysed flang (classify flang .unset kind srcs)).count s +
      (classify flang .unset kind srcs).skipped.count s = srcs.count s := by
  obtain ⟨h1, h2⟩ := unset_exact flang kind srcs
  rw [h1, h2]
  by_cases hs : s ∈ srcs
  · have ha := h s hs
    have key : ∀ p : ℕ → Bool, (srcs.filter p).count s = if p s then srcs.count s else 0 := by
      intro p
      by_cases hp : p s = true
      · rw [List.count_filter hp, if_pos hp]
      · rw [if_neg hp]
        exact List.count_eq_zero.2 fun hm => hp (List.mem_filter.1 hm).2
    cases flang <;> cases hk : kind s <;>
      first
      | exact absurd hk ha
      | simp [ofKind, List.count_append, key, hk]
  · have z : ∀ p : ℕ → Bool, (srcs.filter p).count s = 0 := fun p =>
      List.count_eq_zero.2 fun hm => hs (List.mem_filter.1 hm).1
    rw [List.count_eq_zero.2 hs]
    cases flang <;> simp [ofKind, List.count_append, z]

theorem foldl_lang (flang : Bool) (lang : Lang) (kind : ℕ → Kind)
    (h : lang = .ast ∨ lang = .c ∨ lang = .llvm ∨ lang = .fortran) :
    ∀ (srcs : List ℕ) (l : Lists),
    let r := srcs.foldl (add flang lang kind) l
    r.c = l.c ++ (if lang = .ast ∨ lang = .c then srcs else []) ∧
    r.ll = l.ll ++ (if lang = .llvm then srcs else []) ∧
    r.fortran = l.fortran ++ (if lang = .fortran then srcs else [])
  | [], l => by simp
  | s :: srcs, l => by
    have := foldl_lang flang lang kind h srcs (add flang lang kind l s)
    simp only [List.foldl_cons] at this ⊢
    obtain ⟨h1, h2, h3⟩ := this
    rw [h1, h2, h3]
    rcases h with rfl | rfl | rfl | rfl <;> simp [add]

/-- **C186**: if a known language is specified, then all sources are analysed in the order of the
command line and extensions are ignored. -/
theorem lang_exact (flang : Bool) (lang : Lang) (kind : ℕ → Kind) (srcs : List ℕ)
    (h : lang = .ast ∨ lang = .c ∨ lang = .llvm ∨ (lang = .fortran ∧ flang = true)) :
    analysed flang (classify flang lang kind srcs) = srcs := by
  have h' : lang = .ast ∨ lang = .c ∨ lang = .llvm ∨ lang = .fortran := by
    rcases h with h | h | h | h
    · exact Or.inl h
    · exact Or.inr (Or.inl h)
    · exact Or.inr (Or.inr (Or.inl h))
    · exact Or.inr (Or.inr (Or.inr h.1))
  obtain ⟨h1, h2, h3⟩ := foldl_lang flang lang kind h' srcs ⟨[], [], [], [], [], []⟩
  unfold analysed classify
  rw [h1, h2, h3]
  rcases h with rfl | rfl | rfl | ⟨rfl, rfl⟩ <;> simp

/-- A file with Clang AST is neither analysed nor reported if the language and `-merge-ast` are not
specified. -/
theorem ast_fails : ¬ ∀ (flang : Bool) (kind : ℕ → Kind) (srcs : List ℕ) (s : ℕ), s ∈ srcs →
    s ∈ analysed flang (classify flang .unset kind srcs) ∨
      s ∈ (classify flang .unset kind srcs).skipped := by
  intro h
  have := h true (fun s => if s = 1 then .ast else .c) [0, 1] 1 (by decide)
  revert this
  decide

/-- Without Flang, or for an unknown name of a language, sources are neither analysed nor reported. -/
theorem lang_fails : ¬ ∀ (flang : Bool) (lang : Lang) (kind : ℕ → Kind) (srcs : List ℕ) (s : ℕ),
    lang ≠ .unset → s ∈ srcs → s ∈ analysed flang (classify flang lang kind srcs) ∨
      s ∈ (classify flang lang kind srcs).skipped := by
  intro h
  have := h false .fortran (fun _ => .fortran) [0, 1] 1 (by decide) (by decide)
  revert this
  decide

example : analysed true (classify true .unset
    (fun s => if s = 1 then .ir else if s = 2 then .fortran else if s = 3 then .unknown else .c)
    [1, 0, 2, 3, 4]) = [0, 4, 2, 1] := by decide
example : analysed false (classify false .llvm (fun _ => .unknown) [5, 3]) = [5, 3] := by decide

/-! ## C187 -/

theorem irLoop_eq (parse : ℕ → Bool) : ∀ (srcs : List ℕ) (ok : ℕ) (done : List ℕ),
    irLoop parse srcs (ok, done) =
      (ok - (srcs.filter fun s => !parse s).length, done ++ srcs.filter parse)
  | [], ok, done => by simp [irLoop]
  | s :: srcs, ok, done => by
    rw [irLoop]
    by_cases h : parse s = true
    · rw [if_pos h, irLoop_eq]
      simp [h]
    · rw [if_neg h, irLoop_eq]
      simp [h]
      omega

theorem ir_counter (parse : ℕ → Bool) (srcs : List ℕ) :
    (irLoop parse srcs (srcs.length, [])).1 = (srcs.filter parse).length := by
  rw [irLoop_eq]
  have : ∀ l : List ℕ, l.length = (l.filter parse).length + (l.filter fun s => !parse s).length := by
    intro l
    induction l with
    | nil => rfl
    | cons a l ih => by_cases h : parse a = true <;> simp [h] <;> omega
  have := this srcs
  simp only
  omega

/-- **C187**: queries are processed exactly for files which have been parsed, in the order of the
command line; a file with errors does not prevent the analysis of other files. -/
theorem ir_processed (parse : ℕ → Bool) (srcs : List ℕ) :
    (executeIR parse srcs).2 = srcs.filter parse := by
  simp [executeIR, irLoop_eq]

/-- **C187**: the return code for LLVM IR. -/
theorem ir_code (parse : ℕ → Bool) (srcs : List ℕ) :
    ((executeIR parse srcs).1 = 0 ↔ ∀ s ∈ srcs, parse s = true) ∧
    ((executeIR parse srcs).1 = 1 ↔ srcs ≠ [] ∧ ∀ s ∈ srcs, parse s = false) ∧
    ((executeIR parse srcs).1 = 2 ↔ (∃ s ∈ srcs, parse s = true) ∧ ∃ s ∈ srcs, parse s = false) := by
  have hall : (srcs.filter parse).length = srcs.length ↔ ∀ s ∈ srcs, parse s = true :=
    List.length_filter_eq_length_iff
  have hnone : (srcs.filter parse).length = 0 ↔ ∀ s ∈ srcs, parse s = false := by
    rw [List.length_eq_zero_iff, List.filter_eq_nil_iff]
    simp
  have hsome : (∃ s ∈ srcs, parse s = true) ↔ ¬ ∀ s ∈ srcs, parse s = false := by simp
  have hbad : (∃ s ∈ srcs, parse s = false) ↔ ¬ ∀ s ∈ srcs, parse s = true := by simp
  have hnil : srcs = [] ↔ srcs.length = 0 := List.length_eq_zero_iff.symm
  have hle := List.length_filter_le parse srcs
  rw [hsome, hbad, ← hall, ← hnone, Ne, hnil]
  simp only [executeIR, ir_counter]
  generalize (srcs.filter parse).length = a at *
  generalize srcs.length = b at *
  by_cases h1 : a = b
  · simp [h1]
  · by_cases h2 : a = 0
    · subst h2
      have h3 : b ≠ 0 := fun e => h1 e.symm
      simp [h1, h3]
    · simp [h1, h2]

/-- **C187**: the exit code is zero exactly if Clang and Flang have succeeded and all files with LLVM IR
have been parsed; otherwise it is 1 or 2. -/
theorem exit_zero (flang : Bool) (ct ft : List ℕ → ℕ) (parse : ℕ → Bool) (l : Lists) :
    (exitCode flang ct ft parse l = 0 ↔
      ct l.c = 0 ∧ (flang = true → ft l.fortran = 0) ∧ ∀ s ∈ l.ll, parse s = true) ∧
    exitCode flang ct ft parse l ≤ 2 := by
  rw [← (ir_code parse l.ll).1]
  unfold exitCode
  generalize (executeIR parse l.ll).1 = i
  generalize ct l.c = c
  generalize ft l.fortran = f
  cases flang
  · simp only [Bool.false_eq_true, if_false]
    split <;> (try split) <;> simp <;> omega
  · simp only [if_true]
    split <;> (try split) <;> simp <;> omega

/-- **C187**: the exit code is 2 exactly if one of tools has returned a code greater than 1 or some but
not all files with LLVM IR have been parsed. -/
theorem exit_two (flang : Bool) (ct ft : List ℕ → ℕ) (parse : ℕ → Bool) (l : Lists) :
    exitCode flang ct ft parse l = 2 ↔
      ct l.c > 1 ∨ (flang = true ∧ ft l.fortran > 1) ∨
        ((∃ s ∈ l.ll, parse s = true) ∧ ∃ s ∈ l.ll, parse s = false) := by
  rw [← (ir_code parse l.ll).2.2]
  have hi : (executeIR parse l.ll).1 ≤ 2 := by
    simp only [executeIR]
    split <;> (try split) <;> omega
  unfold exitCode
  generalize (executeIR parse l.ll).1 = i at *
  generalize ct l.c = c
  generalize ft l.fortran = f
  cases flang
  · simp only [Bool.false_eq_true, if_false, false_and, false_or]
    split <;> (try split) <;> simp <;> omega
  · simp only [if_true, true_and]
    split <;> (try split) <;> simp <;> omega

example : executeIR (fun s => s != 2) [1, 2, 3] = (2, [1, 3]) := by decide
example : executeIR (fun _ => false) [1, 2] = (1, []) := by decide
example : exitCode true (fun _ => 0) (fun _ => 1) (fun _ => true) ⟨[], [], [1], [2], [3], []⟩ = 1 := by
  decide
example : exitCode false (fun _ => 0) (fun _ => 1) (fun _ => true) ⟨[], [], [1], [2], [3], []⟩ = 0 := by
  decide

end Tsar.ToolRun
