/-
Model of handlers of pragmas: lib/Frontend/Clang/PragmaHandlers.cpp:156-271,
include/tsar/Frontend/Clang/PragmaHandlers.h,
include/tsar/Frontend/Clang/DefaultPragmaHandlers.h:35-56.
-/
import Verif.Directives.Spec

namespace Tsar.Directives

/-- A name of a directive or of a clause: an identifier or a keyword
(PragmaHandlers.cpp:162-169 and 213-220). -/
def tokName (tk : Token) : Option String :=
  match tk.kind with
  | .identifier => some tk.text
  | .keyword s => some s
  | _ => none

/-- `PragmaReplacerNode::FindHandler(Name, false)` (PragmaHandlers.h:50-57):
`handlers` are names and identifiers of registered handlers. -/
def findHandler (handlers : List (String × Nat)) (name : String) : Option Nat :=
  match handlers.find? (·.1 == name) with
  | some h => some h.2
  | none => (handlers.find? (·.1 == "")).map (·.2)

/-- Handlers which are registered for a namespace by `AddPragmaHandlers`
(DefaultPragmaHandlers.h:42-48): there are no handlers for directives of the
namespace `Dvm`. -/
def dirHandlers (R : Records) (ns : Nat) : List (String × Nat) :=
  (R.directives.zipIdx 1).filterMap fun (d, i) =>
    if nsEnum R d.parent = ns ∧ nsEnum R d.parent ≠ nsEnum R "Dvm" then some (d.name, i) else none

/-- Handlers which are registered for a directive by `AddPragmaHandlers`
(DefaultPragmaHandlers.h:49-52). -/
def clauseHandlers (R : Records) (dir : Nat) : List (String × Nat) :=
  (R.clauses.zipIdx 1).filterMap fun (c, i) =>
    if dirEnum R c.parent = dir then some (c.name, i) else none

/-- Result of processing of a line or of a part of the line.
* `assertion`: an assertion is violated;
* `running`: the number of steps is not enough;
* `done`: the last token, the replacement and the number of diagnostics. -/
inductive LineResult
  | assertion
  | running
  | done (tok : Token) (repl : List Token) (errs : Nat)
  deriving DecidableEq, Repr

/-- The loop of `PragmaReplacer::HandlePragma` (PragmaHandlers.cpp:210-241) and
`ClauseReplacer::HandleClause` (PragmaHandlers.cpp:250-271). `body` is the
value of `HandleDirectiveBody`, `g` is the number of steps for a visitor of a
clause. Locations of tokens are not modelled. -/
def handleClauses (R : Records) (dir : Nat) (toks : List Token) (body : Bool) (g : Nat) :
    Nat → Nat → Token → List Token → Nat → LineResult
  | 0, _, _, _, _ => .running
  | f + 1, pos, tok, repl, errs =>
    if tok.kind = .eod then .done tok (repl ++ [mk .rBrace]) errs
    else
      match (if body then some "" else tokName tok) with
      | none => .done tok repl (errs + 1)
      | some name =>
        match getTsarClause R dir name with
        | .assertion => .assertion
        | .notFound => .done tok repl (errs + 1)
        | .found _ =>
          match findHandler (clauseHandlers R dir) name with
          | none => .done tok repl (errs + 1)
          | some h =>
            match getClauseName R h, prototype R h with
            | some cname, some P =>
              match visitBody P toks pos tok
                  (repl ++ [mk .lBrace, mkString cname, mk .semi]) g with
              | .accept s =>
                handleClauses R dir toks body g f (lex toks s).pos (lex toks s).tok
                  (s.repl ++ [mk .rBrace]) errs
              | .reject s =>
                handleClauses R dir toks body g f (lex toks s).pos (lex toks s).tok
                  (s.repl ++ [mk .rBrace]) (errs + 1)
              | .ub => .assertion
              | _ => .running
            | _, _ => .assertion

/-- `PragmaReplacer::HandlePragma` (PragmaHandlers.cpp:195-241) with a name of
the directive `first`; tokens after the name are `toks`. -/
def handleDirective (R : Records) (dir : Nat) (first : Token) (toks : List Token)
    (repl : List Token) (n : Nat) : LineResult :=
  match getDirName R dir, hasBody R dir with
  | some dname, some body =>
    let repl := repl ++ [mk .lBrace, mkString dname, mk .semi]
    if body then handleClauses R dir toks true n n 0 first repl 0
    else
      match toks with
      | [] => handleClauses R dir toks false n n 0 first repl 0
      | tk :: _ => handleClauses R dir toks false n n 1 tk repl 0
  | _, _ => .assertion

/-- Result of processing of a pragma.
* `assertion`: an assertion is violated;
* `running`: the number of steps is not enough;
* `kept`: diagnostics are emitted, the pragma is not replaced;
* `replaced`: the pragma is replaced, the number of diagnostics. -/
inductive PragmaResult
  | assertion
  | running
  | kept
  | replaced (repl : List Token) (errs : Nat)
  deriving DecidableEq, Repr

/-- `PragmaNamespaceReplacer::HandlePragma` (PragmaHandlers.cpp:156-193) for a
namespace `ns`: `first` is a token after the name of the namespace, `line` is a
list of tokens between `first` and the end of the line. -/
def handlePragma (R : Records) (ns : Nat) (first : Token) (line : List Token) (n : Nat) :
    PragmaResult :=
  match getNsName R ns with
  | none => .assertion
  | some nsname =>
    match tokName first with
    | none => .kept
    | some name =>
      match getTsarDirective R ns name with
      | .assertion => .assertion
      | .notFound => .kept
      | .found _ =>
        match findHandler (dirHandlers R ns) name with
        | none => .kept
        | some h =>
          match handleDirective R h first (line ++ [mk .eod])
              [mk .lBrace, mkString nsname, mk .semi] n with
          | .assertion => .assertion
          | .running => .running
          | .done tok repl errs =>
            if tok.kind = .eod then .replaced (repl ++ [mk .rBrace]) errs else .kept

/-! ### Specification of a line -/

/-- A compound statement with a name. -/
def group (name : String) (out : List Token) : List Token :=
  mk .lBrace :: mkString name :: mk .semi :: (out ++ [mk .rBrace])

/-- `Clauses R d line out`: the line is a sequence of clauses of the directive
`d`, each clause is a name and tokens from the language of the clause, `out`
represents these clauses. -/
inductive Clauses (R : Records) (d : Nat) :
    List Token → List Token → Prop
  | nil : Clauses R d [] []
  | cons {i : Nat} {c : ClauseRec} {tk w out rest out'} : R.clauses[i]? = some c → dirEnum R c.parent = d →
      tokName tk = some c.name → Lang .seq c.exprs w out → Clauses R d rest out' →
      Clauses R d (tk :: (w ++ rest)) (group c.name out ++ out')

end Tsar.Directives
