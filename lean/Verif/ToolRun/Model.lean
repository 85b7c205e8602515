import Mathlib.Data.Nat.Notation

/-!
# Processing of input files by the tool (C186, C187)

Models the classification of sources and the exit code in `Tool::run()` from
`/repo/lib/Core/Tool.cpp` and `executeIRAction()` from `/repo/lib/Core/IRAction.cpp`.
The options `-emit-ast`, `-merge-ast`, `-dump-ast` and `-print-ast` are not used.
A source is a number.
-/

namespace Tsar.ToolRun

/-- Kind of a source which is determined by its extension (`Tool.cpp:709-711, 736-739`). -/
inductive Kind
  | c | ir | ast | fortran | unknown
  deriving DecidableEq

/-- The language from a command line (`mLanguage`, `Tool.cpp:712-724`), `other` is any other name. -/
inductive Lang
  | unset | ast | llvm | c | fortran | other
  deriving DecidableEq

/-- Lists of sources in `Tool::run()` (`Tool.cpp:703-707`), `skipped` are sources for which a message
is printed (`Tool.cpp:742`). -/
structure Lists where
  noAst : List ℕ
  merge : List ℕ
  ll : List ℕ
  c : List ℕ
  fortran : List ℕ
  skipped : List ℕ

/-- An iteration of the loop over sources (`Tool.cpp:708-744`), `flang` means that Flang is available
at the build time. -/
def add (flang : Bool) (lang : Lang) (kind : ℕ → Kind) (l : Lists) (s : ℕ) : Lists :=
  match lang with
  | .ast => { l with c := l.c ++ [s], merge := l.merge ++ [s] }
  | .llvm => { l with ll := l.ll ++ [s] }
  | .c => { l with c := l.c ++ [s], noAst := l.noAst ++ [s] }
  | .fortran => { l with fortran := l.fortran ++ [s] }
  | .other => l
  | .unset => match kind s with
    | .c => { l with c := l.c ++ [s], noAst := l.noAst ++ [s] }
    | .ir => { l with ll := l.ll ++ [s] }
    | .ast => { l with merge := l.merge ++ [s] }
    | .fortran =>
      if flang then { l with fortran := l.fortran ++ [s] } else { l with skipped := l.skipped ++ [s] }
    | .unknown => { l with skipped := l.skipped ++ [s] }

/-- The loop over sources (`Tool.cpp:703-745`). -/
def classify (flang : Bool) (lang : Lang) (kind : ℕ → Kind) (srcs : List ℕ) : Lists :=
  srcs.foldl (add flang lang kind) ⟨[], [], [], [], [], []⟩

/-- Sources which are passed to Clang, Flang and to the analysis of LLVM IR (`Tool.cpp:834-855`). -/
def analysed (flang : Bool) (l : Lists) : List ℕ :=
  l.c ++ (if flang then l.fortran else []) ++ l.ll

/-- The loop over files with LLVM IR (`IRAction.cpp:239-292`): the counter `IsOk` and files for which
queries have been processed. -/
def irLoop (parse : ℕ → Bool) : List ℕ → ℕ × List ℕ → ℕ × List ℕ
  | [], st => st
  | s :: ss, (ok, done) =>
    if parse s then irLoop parse ss (ok, done ++ [s]) else irLoop parse ss (ok - 1, done)

/-- `executeIRAction()` (`IRAction.cpp:230-294`): the return code and processed files. Creation of
transformation contexts is not modelled. -/
def executeIR (parse : ℕ → Bool) (srcs : List ℕ) : ℕ × List ℕ :=
  let r := irLoop parse srcs (srcs.length, [])
  (if r.1 ≠ srcs.length then (if r.1 ≠ 0 then 2 else 1) else 0, r.2)

/-- The exit code (`Tool.cpp:843-858`), return codes of Clang and Flang tools are parameters. -/
def exitCode (flang : Bool) (clangTool flangTool : List ℕ → ℕ) (parse : ℕ → Bool) (l : Lists) : ℕ :=
  let c := clangTool l.c
  let f := if flang then flangTool l.fortran else 0
  let i := (executeIR parse l.ll).1
  if c ≠ 0 ∨ f ≠ 0 ∨ i ≠ 0 then (if c > 1 ∨ f > 1 ∨ i > 1 then 2 else 1) else 0

end Tsar.ToolRun
