/-
Model of the visitor which checks syntax of a clause according to its prototype
and builds a replacement.

Modelled code:
* include/tsar/Frontend/Clang/ClauseVisitor.h:47-333,
* include/tsar/Frontend/Clang/ExternalPreprocessor.h:38-101,
* lib/Support/Clang/Utils.cpp:53-65 (getTokenKind),
* lib/Frontend/Clang/PragmaHandlers.cpp:36-145 (DefaultClauseVisitor).

Not modelled: locations and lengths of tokens, debug output, the text of
diagnostics.
-/
import Verif.Directives.Model

namespace Tsar.Directives

/-! ### Tokens -/

/-- Kinds of tokens (clang::tok::TokenKind). `keyword s` is a keyword with the
spelling `s`, `other` represents kinds which are not mentioned in the modelled
code. -/
inductive TokKind
  | eod | identifier | numericConstant | comma | colon | arrow | lParen | rParen
  | lSquare | rSquare | lBrace | rBrace | period | equal | semi | amp | stringLiteral
  | keyword (s : String)
  | other (n : Nat)
  deriving DecidableEq, Repr

/-- A token; `text` is a name of an identifier, a spelling of a number or the
content of a string literal. -/
structure Token where
  kind : TokKind
  text : String := ""
  deriving DecidableEq, Repr

/-- `getTokenKind` (lib/Support/Clang/Utils.cpp:53-65), the field `ClangTok` of
single expressions (Directives.td:32-46). -/
def getTokenKind : Single → TokKind
  | .Identifier => .identifier
  | .PPIdentifier => .identifier
  | .NumericConstant => .numericConstant
  | .Comma => .comma
  | .Colon => .colon
  | .Arrow => .arrow
  | .LParen => .lParen
  | .RParen => .rParen
  | .LSquare => .lSquare
  | .RSquare => .rSquare
  | .LBrace => .lBrace
  | .RBrace => .rBrace
  | .Period => .period
  | .Equal => .equal

/-! ### DefaultClauseVisitor -/

/-- `AddToken` (PragmaHandlers.cpp:37-45). -/
def mk (k : TokKind) : Token := { kind := k }

/-- `AddStringToken` (PragmaHandlers.cpp:47-55). -/
def mkString (s : String) : Token := { kind := .stringLiteral, text := s }

/-- `visitSingleExpr` (ClauseVisitor.h:181-195) with handlers
`visitEK_Identifier`, `visitEK_PPIdentifier`, `visitEK_NumericConstant`
(PragmaHandlers.cpp:89-140) and `visitDefault` (ClauseVisitor.h:207): tokens
which are added to the replacement. -/
def visitSingle (k : Single) (tok : Token) : List Token :=
  match k with
  | .Identifier =>
    [mk .lParen, mk (.keyword "void"), mk .rParen, mk .lParen, mk (.keyword "sizeof"),
     mk .lParen, mk .amp, tok, mk .rParen, mk .rParen, mk .semi]
  | .PPIdentifier => [mkString tok.text, mk .semi]
  | .NumericConstant => [mk .lParen, mk (.keyword "void"), mk .rParen, tok, mk .semi]
  | _ => []

/-! ### State of the visitor -/

/-- `ExprLevel` (ClauseVisitor.h:57-79), `ptr` and `occ` are components of
`Occurrence`. -/
structure Level where
  ptr : Nat
  occ : Bool
  replIdx : Nat
  tok : Token
  deriving DecidableEq, Repr

/-- State of the visitor and of the external preprocessor: the current
position `i` in the prototype, the position `pos` of the next token
(`mNextPtr`, ExternalPreprocessor.h:129), the last token `tok`, the stack of
levels (`mExprStack`), the stack of backtrack positions (`mBacktrackPositions`,
ExternalPreprocessor.h:131) and the replacement. The top of a stack is the head
of a list. -/
structure St where
  i : Nat
  pos : Nat
  tok : Token
  levels : List Level
  bts : List Nat
  repl : List Token
  deriving DecidableEq, Repr

/-- Configuration: at the beginning of an iteration of the loop in `visitBody`
(`run`), at the beginning of an iteration of the loop in `backtrack` (`fail`),
after successful processing (`accept`), after a diagnostic (`reject`), after a
violated assertion or an access out of the prototype (`ub`). -/
inductive Conf
  | run (s : St)
  | fail (s : St)
  | accept (s : St)
  | reject (s : St)
  | ub
  deriving DecidableEq, Repr

/-- `ExternalPreprocessor::Lex` (ExternalPreprocessor.h:49-55): at the end of
the stream the token is not changed. -/
def lex (toks : List Token) (s : St) : St :=
  match toks[s.pos]? with
  | some tk => { s with tok := tk, pos := s.pos + 1 }
  | none => s

/-- Kind of a complex expression which corresponds to a level
(`*Level.Occurrence.getPointer()`). -/
def levelKind (P : List EK) (L : Level) : Option Block :=
  match P[L.ptr]? with
  | some (.block b) => some b
  | _ => none

/-- Does the top level correspond to `EK_OneOf` (ClauseVisitor.h:150-151,
256-257)? -/
def topIsOneOf (P : List EK) : List Level → Bool
  | [] => false
  | L :: _ => levelKind P L == some .OneOf

/-- The loop of `visitAnchor` (ClauseVisitor.h:256-262). -/
def popOneOf (P : List EK) : Nat → List Level → List Nat → Option (Nat × List Level × List Nat)
  | i, [], bts => some (i, [], bts)
  | i, L :: ls, bts =>
    if levelKind P L = some .OneOf then
      match findAnchor P L.ptr, bts with
      | some a, _ :: bts => popOneOf P a ls bts
      | _, _ => none
    else some (i, L :: ls, bts)

/-- Processing of an anchor: `visitEK_Anchor` (PragmaHandlers.cpp:72-79) and
`visitAnchor` (ClauseVisitor.h:233-264). -/
def stepAnchor (P : List EK) (s : St) : Conf :=
  match s.levels, s.bts with
  | L :: ls, _ :: bts =>
    match levelKind P L with
    | some .ZeroOrMore | some .OneOrMore =>
      .run { s with
        i := L.ptr + 1
        levels := { L with occ := true, replIdx := s.repl.length } :: ls
        bts := s.pos :: bts }
    | some b =>
      let repl := if b = .One then s.repl ++ [mk .rBrace] else s.repl
      match popOneOf P s.i ls bts with
      | some (i, ls, bts) => .run { s with i := i + 1, levels := ls, bts := bts, repl := repl }
      | none => .ub
    | none => .ub
  | _, _ => .ub

/-- An iteration of the loop in `visitBody` (ClauseVisitor.h:118-178). -/
def stepRun (P : List EK) (toks : List Token) (s : St) : Conf :=
  match P[s.i]? with
  | none =>
    if s.i = P.length then
      match s.levels, s.bts with
      | [], _ :: bts => .accept { s with bts := bts }
      | _, _ => .ub
    else .ub
  | some (.block b) =>
    .run { s with
      i := s.i + 1
      levels := { ptr := s.i, occ := false, replIdx := s.repl.length, tok := s.tok } :: s.levels
      bts := s.pos :: s.bts
      repl := if b = .One then s.repl ++ [mk .lBrace] else s.repl }
  | some .anchor => stepAnchor P s
  | some (.single k) =>
    let s' := lex toks s
    if s'.tok.kind = getTokenKind k then
      let repl := s'.repl ++ visitSingle k s'.tok
      if topIsOneOf P s'.levels then
        match findAnchor P s'.i with
        | some a => .run { s' with i := a, repl := repl }
        | none => .ub
      else .run { s' with i := s'.i + 1, repl := repl }
    else if s'.levels = [] ∧ s'.tok.kind = .eod then
      match s'.bts with
      | b :: bts => if b < s'.pos then .reject { s' with pos := s'.pos - 1, bts := bts } else .ub
      | [] => .ub
    else .fail s'

/-- Search of the anchor of the current level (ClauseVisitor.h:297-299 and
302-304). -/
def skipToAnchor (P : List EK) : Nat → Nat → Option Nat
  | 0, _ => none
  | fuel + 1, i =>
    match P[i + 1]? with
    | none => none
    | some e =>
      if isSingle e then findAnchor P (i + 1)
      else
        match findAnchor P (i + 1) with
        | some a => skipToAnchor P fuel a
        | none => none

/-- An iteration of the loop in `backtrack` (ClauseVisitor.h:274-321), and the
end of `visitBody` if the stack of levels is empty (ClauseVisitor.h:162-168). -/
def stepFail (P : List EK) (s : St) : Conf :=
  match s.levels, s.bts with
  | [], _ :: bts => .reject { s with bts := bts }
  | L :: ls, b :: bts =>
    match levelKind P L with
    | some .OneOf =>
      match P[s.i + 1]? with
      | some .anchor =>
        .fail { s with i := s.i + 1, tok := L.tok, levels := ls, pos := b, bts := bts }
      | some _ =>
        .run { s with i := s.i + 1, pos := b, bts := b :: bts, repl := s.repl.take L.replIdx }
      | none => .ub
    | some .One =>
      match findAnchor P s.i with
      | some a => .fail { s with i := a, tok := L.tok, levels := ls, pos := b, bts := bts }
      | none => .ub
    | some .ZeroOrMore | some .ZeroOrOne =>
      match skipToAnchor P (P.length + 1) s.i with
      | some a =>
        .run { s with
          i := a + 1, tok := L.tok, levels := ls, pos := b, bts := bts
          repl := s.repl.take L.replIdx }
      | none => .ub
    | some .OneOrMore =>
      match skipToAnchor P (P.length + 1) s.i with
      | some a =>
        if L.occ then
          .run { s with
            i := a + 1, tok := L.tok, levels := ls, pos := b, bts := bts
            repl := s.repl.take L.replIdx }
        else .fail { s with i := a, tok := L.tok, levels := ls, pos := b, bts := bts }
      | none => .ub
    | none => .ub
  | _, _ => .ub

/-- One step of the visitor. -/
def step (P : List EK) (toks : List Token) : Conf → Conf
  | .run s => stepRun P toks s
  | .fail s => stepFail P s
  | c => c

/-- Some number of steps of the visitor. -/
def steps (P : List EK) (toks : List Token) : Nat → Conf → Conf
  | 0, c => c
  | n + 1, c => steps P toks n (step P toks c)

/-- `visitBody` (ClauseVisitor.h:112-178) is called for a prototype `P` when
the next token is at the position `pos`, the current token is `tok` and the
replacement is `repl`. -/
def visitBody (P : List EK) (toks : List Token) (pos : Nat) (tok : Token) (repl : List Token)
    (fuel : Nat) : Conf :=
  steps P toks fuel
    (.run { i := 0, pos := pos, tok := tok, levels := [], bts := [pos], repl := repl })

end Tsar.Directives
