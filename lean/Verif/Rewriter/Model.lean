import Mathlib.Data.List.Basic

/-!
# Rewriting of a copy of a source text

A model of `RewriterBaseImpl` (lib/Support/RewriterBase.cpp,
include/tsar/Support/RewriterBase.h) and of the parts of `ExternalRewriter`
(lib/Support/Clang/Utils.cpp, lines 186-287) which are built on it.

Locations are offsets in the initial text. `none` is an access outside of
`mMapping` or a position outside of `mBuffer` (undefined behaviour or an
exception in the code). Values of `std::size_t` are integers here: all sums and
differences in the code are modulo `2 ^ 64`, so `-1` stands for `2 ^ 64 - 1`.
-/

namespace Tsar.Rewriter

/-- State of a rewriter, `mBuffer` and `mMapping`
(include/tsar/Support/RewriterBase.h, lines 58-60). -/
structure Rw where
  buf : List Char
  map : List Int
deriving DecidableEq, Repr

/-- Constructor of `ExternalRewriter` (lib/Support/Clang/Utils.cpp, lines
186-196): two equal entries for each character. The text of the range is a
parameter. -/
def init (t : List Char) : Rw :=
  ⟨t, (List.range (2 * t.length)).map fun i => ((i / 2 : Nat) : Int)⟩

/-- Add `d` to all entries starting from `k`: loops in
lib/Support/RewriterBase.cpp, lines 37-42 and 52-53. -/
def shift (k : Nat) (d : Int) (m : List Int) : List Int :=
  m.mapIdx fun i v => if k ≤ i then v + d else v

/-- `std::string::replace(pos, count, str)`: a position outside of the string is
an error, a huge `count` (negative here) means everything up to the end. -/
def bufReplace (buf : List Char) (pos cnt : Int) (s : List Char) :
    Option (List Char) :=
  if pos < 0 ∨ (buf.length : Int) < pos then none
  else
    let p := pos.toNat
    some (buf.take p ++ s ++ if cnt < 0 then [] else buf.drop (p + cnt.toNat))

/-- `RewriterBaseImpl::ReplaceText` (lib/Support/RewriterBase.cpp, lines 28-44).
Two branches which enlarge and reduce values of entries are the same addition
here. -/
def replaceText (r : Rw) (b len : Nat) (s : List Char) : Option Rw :=
  if b + len = 0 then none
  else
    let e := 2 * (b + len - 1) + 1
    match r.map[2 * b]?, r.map[e]? with
    | some bg, some last =>
      let cnt := last + 1 - bg
      match bufReplace r.buf bg cnt s with
      | some buf => some ⟨buf, shift e ((s.length : Int) - cnt) r.map⟩
      | none => none
    | _, _ => none

/-- `RewriterBaseImpl::InsertText` (lib/Support/RewriterBase.cpp, lines 46-54). -/
def insertText (r : Rw) (b : Nat) (s : List Char) (after : Bool) : Option Rw :=
  let k := if after then 2 * b + 1 else 2 * b
  match r.map[k]? with
  | some p =>
    match bufReplace r.buf p 0 s with
    | some buf => some ⟨buf, shift k s.length r.map⟩
    | none => none
  | none => none

/-- `RewriterBaseImpl::getRewrittenText` (include/tsar/Support/RewriterBase.h,
lines 51-55). The returned reference must be inside of the buffer. -/
def getRewrittenText (r : Rw) (b len : Nat) : Option (List Char) :=
  if b + len = 0 then none
  else
    match r.map[2 * b]?, r.map[2 * (b + len - 1) + 1]? with
    | some bg, some last =>
      if 0 ≤ bg ∧ bg ≤ last + 1 ∧ last + 1 ≤ r.buf.length then
        some ((r.buf.drop bg.toNat).take (last + 1 - bg).toNat)
      else none
    | _, _ => none

/-- `RewriterBase::InsertText` (include/tsar/Support/RewriterBase.h, lines
78-81): the last argument is not passed to the derived class, its default value
is `true` (include/tsar/Support/Clang/Utils.h, line 142). -/
def baseInsertText (r : Rw) (b : Nat) (s : List Char) (_after : Bool) :
    Option Rw :=
  insertText r b s true

/-- `RewriterBase::InsertTextBefore` (include/tsar/Support/RewriterBase.h, lines
88-90). -/
def insertTextBefore (r : Rw) (b : Nat) (s : List Char) : Option Rw :=
  baseInsertText r b s false

/-- `RewriterBase::InsertTextAfter` (include/tsar/Support/RewriterBase.h, lines
97-99). -/
def insertTextAfter (r : Rw) (b : Nat) (s : List Char) : Option Rw :=
  baseInsertText r b s true

/-- Requests to a rewriter. -/
inductive Op
  | replace (b len : Nat) (s : List Char)
  | insert (b : Nat) (s : List Char) (after : Bool)
deriving DecidableEq, Repr

/-- Execution of a request. -/
def apply (r : Rw) : Op → Option Rw
  | .replace b len s => replaceText r b len s
  | .insert b s a => insertText r b s a

/-- Execution of a sequence of requests. -/
def run (r : Rw) : List Op → Option Rw
  | [] => some r
  | o :: os => (apply r o).bind fun r' => run r' os

/-! ### Removal of a range together with an empty line -/

/-- `clang::isWhitespace`. -/
def isWhitespace (c : Char) : Bool :=
  c = ' ' || c = '\t' || c = '\x0c' || c = '\x0b' || c = '\n' || c = '\r'

/-- `clang::isHorizontalWhitespace`. -/
def isHorizontal (c : Char) : Bool :=
  c = ' ' || c = '\t' || c = '\x0c' || c = '\x0b'

/-- The scan after a removed range (lib/Support/Clang/Utils.cpp, lines 262-274):
the number of characters before the end of a line if there are only whitespaces
before it. -/
def lineEnd : List Char → Nat → Option Nat
  | [], _ => none
  | c :: cs, n =>
    if isHorizontal c || c = '\r' then lineEnd cs (n + 1)
    else if c = '\n' then some n
    else none

/-- The offset of the beginning of a line, `getStartOfLine`
(include/tsar/Support/Clang/Utils.h, lines 234-246): the column number is the
number of characters after the last end of a line. -/
def lineStart (file : List Char) (b : Nat) : Nat :=
  b - ((file.take b).reverse.takeWhile (· ≠ '\n')).length

/-- The range to remove in terms of offsets in a file, `ExternalRewriter::
RemoveText` (lib/Support/Clang/Utils.cpp, lines 232-275). -/
def removeRange (file : List Char) (b len : Nat) (lineIfEmpty : Bool) :
    Nat × Nat :=
  if lineIfEmpty then
    let ls := lineStart file b
    if ((file.take b).drop ls).all isWhitespace then
      match lineEnd (file.drop (b + len)) 0 with
      | some n => (ls, len + (b - ls + n + 1))
      | none => (b, len)
    else (b, len)
  else (b, len)

/-- `ExternalRewriter::RemoveText` for a rewriter of the text which starts at
`base` in a file (lib/Support/Clang/Utils.cpp, lines 232-278). An offset before
`base` becomes a huge unsigned value (include/tsar/Support/Clang/Utils.h, lines
178-182), which is outside of `mMapping`. -/
def removeText (r : Rw) (file : List Char) (base b len : Nat)
    (lineIfEmpty : Bool) : Option Rw :=
  let (o, l) := removeRange file b len lineIfEmpty
  if o < base then none else replaceText r (o - base) l []

/-! ### Specification -/

/-- A piece of a rewritten text. It stands for `count` characters of the initial
text. `pre` is text inserted before its location, `mid` is text inserted after
`pre` at its location, `body` is the initial character or a replacement. -/
structure Piece where
  count : Nat
  pre : List Char
  mid : List Char
  body : List Char
  orig : Bool
deriving DecidableEq, Repr

/-- Text of a piece. -/
def Piece.text (p : Piece) : List Char := p.pre ++ p.mid ++ p.body

/-- Rewritten text. -/
def render (d : List Piece) : List Char := d.flatMap Piece.text

/-- The number of characters of the initial text. -/
def size (d : List Piece) : Nat := (d.map Piece.count).sum

/-- The document before all requests. -/
def doc (t : List Char) : List Piece := t.map fun c => ⟨1, [], [], [c], true⟩

/-- The meaning of a request. A location is the number of initial characters
before it. -/
inductive Step : List Piece → Op → List Piece → Prop
  | before {l : List Piece} {p : Piece} {r : List Piece} {s : List Char} :
      Step (l ++ p :: r) (.insert (size l) s false)
        (l ++ { p with pre := p.pre ++ s } :: r)
  | after {l : List Piece} {p : Piece} {r : List Piece} {s : List Char}
      (h : p.orig = true) :
      Step (l ++ p :: r) (.insert (size l) s true)
        (l ++ { p with mid := p.mid ++ s } :: r)
  | replace {l : List Piece} {p : Piece} {m r : List Piece} {s : List Char} :
      Step (l ++ (p :: m) ++ r) (.replace (size l) (size (p :: m)) s)
        (l ++ ⟨size (p :: m), p.pre, [], s, false⟩ :: r)

/-- The meaning of a sequence of requests. -/
inductive Steps : List Piece → List Op → List Piece → Prop
  | nil {d : List Piece} : Steps d [] d
  | cons {d d' d'' : List Piece} {o : Op} {os : List Op} (h : Step d o d')
      (t : Steps d' os d'') : Steps d (o :: os) d''

/-- A request does not touch the inside of ranges which have been replaced
already: a replaced range is disjoint from each of them or contains it, text is
inserted not inside of them, and text is inserted "after" not at their beginning.
`n` is the size of the initial text. -/
def Allowed (n : Nat) (reps : List (Nat × Nat)) : Op → Prop
  | .replace b len _ => 0 < len ∧ b + len ≤ n ∧
      ∀ q ∈ reps, q.1 + q.2 ≤ b ∨ b + len ≤ q.1 ∨
        (b ≤ q.1 ∧ q.1 + q.2 ≤ b + len)
  | .insert b _ after => b < n ∧
      ∀ q ∈ reps, q.1 + q.2 ≤ b ∨ b < q.1 ∨ (b = q.1 ∧ after = false)

/-- Replaced ranges after a request. -/
def replaced (reps : List (Nat × Nat)) : Op → List (Nat × Nat)
  | .replace b len _ => (b, len) :: reps
  | .insert .. => reps

/-- All requests are allowed. -/
def AllAllowed (n : Nat) : List (Nat × Nat) → List Op → Prop
  | _, [] => True
  | reps, o :: os => Allowed n reps o ∧ AllAllowed n (replaced reps o) os

end Tsar.Rewriter
