/-
Specification of the language of clauses: which sequences of tokens are
described by a prototype and how these sequences are represented in a
replacement.
-/
import Verif.Directives.Visitor

namespace Tsar.Directives

/-- How a list of expressions is treated: as a sequence, as a list of
alternatives (`OneOf`) or as a sequence which is repeated zero or more times. -/
inductive Mode
  | seq | alt | rep
  deriving DecidableEq, Repr

/-- `Lang .seq es w out`: the sequence `w` of tokens is described by `es` and
`out` represents it. -/
inductive Lang : Mode → Exprs → List Token → List Token → Prop
  | nil : Lang .seq .nil [] []
  | tok {k r tk w out} : tk.kind = getTokenKind k → Lang .seq r w out →
      Lang .seq (.tok k r) (tk :: w) (visitSingle k tk ++ out)
  | zeroOrOneNo {b r w out} : Lang .seq r w out → Lang .seq (.block .ZeroOrOne b r) w out
  | zeroOrOneYes {b r w₁ w₂ o₁ o₂} : Lang .seq b w₁ o₁ → Lang .seq r w₂ o₂ →
      Lang .seq (.block .ZeroOrOne b r) (w₁ ++ w₂) (o₁ ++ o₂)
  | zeroOrMore {b r w₁ w₂ o₁ o₂} : Lang .rep b w₁ o₁ → Lang .seq r w₂ o₂ →
      Lang .seq (.block .ZeroOrMore b r) (w₁ ++ w₂) (o₁ ++ o₂)
  | oneOrMore {b r w₀ w₁ w₂ o₀ o₁ o₂} : Lang .seq b w₀ o₀ → Lang .rep b w₁ o₁ →
      Lang .seq r w₂ o₂ →
      Lang .seq (.block .OneOrMore b r) (w₀ ++ (w₁ ++ w₂)) (o₀ ++ (o₁ ++ o₂))
  | one {b r w₁ w₂ o₁ o₂} : Lang .seq b w₁ o₁ → Lang .seq r w₂ o₂ →
      Lang .seq (.block .One b r) (w₁ ++ w₂) (mk .lBrace :: (o₁ ++ mk .rBrace :: o₂))
  | oneOf {b r w₁ w₂ o₁ o₂} : Lang .alt b w₁ o₁ → Lang .seq r w₂ o₂ →
      Lang .seq (.block .OneOf b r) (w₁ ++ w₂) (o₁ ++ o₂)
  | repNil {b} : Lang .rep b [] []
  | repCons {b w₁ w₂ o₁ o₂} : Lang .seq b w₁ o₁ → Lang .rep b w₂ o₂ →
      Lang .rep b (w₁ ++ w₂) (o₁ ++ o₂)
  | altTok {k r tk} : tk.kind = getTokenKind k → Lang .alt (.tok k r) [tk] (visitSingle k tk)
  | altTokLater {k r w out} : Lang .alt r w out → Lang .alt (.tok k r) w out
  | altBlock {k b r w out} : Lang .seq (.block k b .nil) w out → Lang .alt (.block k b r) w out
  | altBlockLater {k b r w out} : Lang .alt r w out → Lang .alt (.block k b r) w out

/-- `visitBody` finishes in the configuration `c` after some number of steps
and this configuration is not changed any more. -/
def Finishes (P : List EK) (toks : List Token) (pos : Nat) (tok : Token) (repl : List Token)
    (c : Conf) : Prop :=
  (∃ N, ∀ n, N ≤ n → visitBody P toks pos tok repl n = c)

/-- `visitBody` recognizes the clause, the next token after the clause has the
position `pos'` and `out` is added to the replacement. All the levels are left. -/
def Accepts (P : List EK) (toks : List Token) (pos : Nat) (tok : Token) (repl : List Token)
    (pos' : Nat) (out : List Token) : Prop :=
  ∃ s, Finishes P toks pos tok repl (.accept s) ∧ s.pos = pos' ∧ s.repl = repl ++ out ∧
    s.levels = [] ∧ s.bts = []

/-- `visitBody` emits a diagnostic and stops; all the levels are left. -/
def Rejects (P : List EK) (toks : List Token) (pos : Nat) (tok : Token) (repl : List Token) :
    Prop :=
  ∃ s, Finishes P toks pos tok repl (.reject s) ∧ s.levels = [] ∧ s.bts = []

/-- Is it possible that no tokens correspond to expressions? -/
def nullable : Mode → Exprs → Bool
  | .rep, _ => true
  | .seq, .nil => true
  | .seq, .tok _ _ => false
  | .seq, .block .ZeroOrOne _ r => nullable .seq r
  | .seq, .block .ZeroOrMore _ r => nullable .seq r
  | .seq, .block .OneOrMore b r => nullable .seq b && nullable .seq r
  | .seq, .block .One b r => nullable .seq b && nullable .seq r
  | .seq, .block .OneOf b r => nullable .alt b && nullable .seq r
  | .alt, .nil => false
  | .alt, .tok _ r => nullable .alt r
  | .alt, .block .ZeroOrOne _ _ => true
  | .alt, .block .ZeroOrMore _ _ => true
  | .alt, .block .OneOrMore b r => nullable .seq b || nullable .alt r
  | .alt, .block .One b r => nullable .seq b || nullable .alt r
  | .alt, .block .OneOf b r => nullable .alt b || nullable .alt r

/-- Prototypes which the visitor supports:
* a body of a repetition contains at least one token;
* an alternative is a token or `One<...>`, there is at least one alternative;
* if `inOne` is set then `One`, `OneOf` and `OneOrMore` are not allowed
  (a body of `One` contains tokens, `ZeroOrOne` and `ZeroOrMore`). -/
def supported : Mode → Bool → Exprs → Bool
  | .rep, _, _ => false
  | .seq, _, .nil => true
  | .seq, inOne, .tok _ r => supported .seq inOne r
  | .seq, inOne, .block .ZeroOrOne b r => supported .seq false b && supported .seq inOne r
  | .seq, inOne, .block .ZeroOrMore b r =>
    supported .seq false b && !nullable .seq b && supported .seq inOne r
  | .seq, inOne, .block .OneOrMore b r =>
    !inOne && supported .seq false b && !nullable .seq b && supported .seq inOne r
  | .seq, inOne, .block .One b r => !inOne && supported .seq true b && supported .seq inOne r
  | .seq, inOne, .block .OneOf b r =>
    !inOne && b ≠ .nil && supported .alt false b && supported .seq inOne r
  | .alt, _, .nil => true
  | .alt, _, .tok _ r => supported .alt false r
  | .alt, _, .block k b r => k == .One && supported .seq true b && supported .alt false r

/-- Kinds of tokens which may be the first ones. -/
def first : Mode → Exprs → List TokKind
  | .rep, _ => []
  | .seq, .nil => []
  | .seq, .tok k _ => [getTokenKind k]
  | .seq, .block .ZeroOrOne b r => first .seq b ++ first .seq r
  | .seq, .block .ZeroOrMore b r => first .seq b ++ first .seq r
  | .seq, .block .OneOrMore b r =>
    first .seq b ++ (if nullable .seq b then first .seq r else [])
  | .seq, .block .One b r =>
    first .seq b ++ (if nullable .seq b then first .seq r else [])
  | .seq, .block .OneOf b r =>
    first .alt b ++ (if nullable .alt b then first .seq r else [])
  | .alt, .nil => []
  | .alt, .tok k r => getTokenKind k :: first .alt r
  | .alt, .block k b r => (if k = .OneOf then first .alt b else first .seq b) ++ first .alt r

/-- Kinds of tokens which may follow a part of a sequence if `r` is the rest of
the sequence and `F` follows the whole sequence. -/
def followOf (r : Exprs) (F : TokKind → Bool) : TokKind → Bool :=
  fun k => (first .seq r).contains k || (nullable .seq r && F k)

/-- A choice whether to enter or to leave a block depends on the next token
only (the prototype is LL(1)); `F` is a set of kinds of tokens which may follow
the expressions. -/
def deterministic : Mode → Exprs → (TokKind → Bool) → Bool
  | .rep, _, _ => false
  | .seq, .nil, _ => true
  | .seq, .tok _ r, F => deterministic .seq r F
  | .seq, .block .ZeroOrOne b r, F =>
    !nullable .seq b && (first .seq b).all (fun k => !followOf r F k) &&
      deterministic .seq b (followOf r F) && deterministic .seq r F
  | .seq, .block .ZeroOrMore b r, F =>
    !nullable .seq b && (first .seq b).all (fun k => !followOf r F k) &&
      deterministic .seq b (fun k => (first .seq b).contains k || followOf r F k) &&
      deterministic .seq r F
  | .seq, .block .OneOrMore b r, F =>
    !nullable .seq b && (first .seq b).all (fun k => !followOf r F k) &&
      deterministic .seq b (fun k => (first .seq b).contains k || followOf r F k) &&
      deterministic .seq r F
  | .seq, .block .One b r, F =>
    deterministic .seq b (followOf r F) && deterministic .seq r F
  | .seq, .block .OneOf b r, F =>
    deterministic .alt b (followOf r F) && deterministic .seq r F
  | .alt, .nil, _ => true
  | .alt, .tok k r, F => !(first .alt r).contains (getTokenKind k) && deterministic .alt r F
  | .alt, .block _ b r, F =>
    !nullable .seq b && (first .seq b).all (fun k => !(first .alt r).contains k) &&
      deterministic .seq b F && deterministic .alt r F

end Tsar.Directives
