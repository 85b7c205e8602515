/-!
# Regions around DVMH parallel loops

Model of `mergeSiblingRegions()`, `mergeRegions()`, `sanitizeAcrossLoops()` and `optimizeLevelImpl()`
(lib/Transform/Clang/DVMHSMAutoPar.cpp:325-620).

Simplifications.
* Directives at the beginning of a loop (`ParallelLocation::Entry` of its header) and directives at its end
  (`ParallelLocation::Exit` of its exiting block) are two lists. A block without directives is the same as a removed one.
* `none` means that a null reference is dereferenced: a required directive is not found.
* Lists of variables are sets, insertion is represented as concatenation.
-/

namespace Tsar.DvmhRegions

/-- Clauses of a region: `ReadOccurred`, `WriteOccurred` and `Private`. -/
structure Clauses where
  ins : List Nat
  outs : List Nat
  priv : List Nat
  deriving DecidableEq, Repr

/-- Directives. -/
inductive Item
  | actual (vs : List Nat)
  | region (host : Bool) (c : Clauses)
  | parallel
  | marker
  | getActual (vs : List Nat)
  | other
  deriving DecidableEq, Repr

/-- `ParallelItem::getKind()`. -/
def Item.kind : Item → Nat
  | .actual _ => 0
  | .region .. => 1
  | .parallel => 2
  | .marker => 3
  | .getActual _ => 4
  | .other => 5

/-- Directives of a loop. -/
structure Blk where
  entry : List Item
  exit : List Item
  deriving DecidableEq, Repr

abbrev State := Nat → Blk

/-- Update directives of a loop. -/
def State.set (st : State) (l : Nat) (b : Blk) : State := fun k => if k = l then b else st k

/-! ### Merge of regions -/

/-- An index of the first directive of a kind. -/
def indexOf (k : Nat) (pb : List Item) : Option Nat := pb.findIdx? fun i => i.kind == k

/-- Add variables to the first directive of a kind. -/
def addVars (k : Nat) (vs : List Nat) : List Item → List Item
  | [] => []
  | i :: is =>
    if i.kind == k then
      (match i with
        | .actual ws => .actual (ws ++ vs)
        | .getActual ws => .getActual (ws ++ vs)
        | i => i) :: is
    else i :: addVars k vs is

/-- Add clauses to the first region: `copyInOut` (DVMHSMAutoPar.cpp:358-369). -/
def addClauses (c : Clauses) : List Item → List Item
  | [] => []
  | .region h d :: is => .region h ⟨d.ins ++ c.ins, d.outs ++ c.outs, d.priv ++ c.priv⟩ :: is
  | i :: is => i :: addClauses c is

/-- Variables of the first directive of a kind (`copyActual`, DVMHSMAutoPar.cpp:348-357). -/
def varsOf (k : Nat) : List Item → List Nat
  | [] => []
  | i :: is =>
    if i.kind == k then
      (match i with
        | .actual ws => ws
        | .getActual ws => ws
        | _ => [])
    else varsOf k is

/-- Clauses of the first region. -/
def clausesOf : List Item → Option Clauses
  | [] => none
  | .region _ c :: _ => some c
  | _ :: is => clausesOf is

/-- `remove` (DVMHSMAutoPar.cpp:371-388): `r` is an index of a region or a marker, `a` is an index of `actual` or
`get_actual` before removal. -/
def remove (r : Nat) (a : Option Nat) (pb : List Item) : Option (List Item) :=
  if pb.length == 1 || (pb.length == 2 && a.isSome) then some [] else
  match a with
  | some a =>
    let pb := pb.eraseIdx r
    match pb[a]? with
    | none => none
    | some i => some (pb.eraseP fun j => j.kind == i.kind)
  | none => some (pb.eraseIdx r)

/-- `removeEndOfRegion` (DVMHSMAutoPar.cpp:389-399), variables are copied to the last loop. -/
def removeEnd (back l : Nat) (st : State) : Option State :=
  let pb := (st l).exit
  match indexOf 3 pb with
  | none => none
  | some r =>
    let st := st.set back { st back with exit := addVars 4 (varsOf 4 pb) (st back).exit }
    match remove r (indexOf 4 pb) (st l).exit with
    | none => none
    | some pb => some (st.set l { st l with exit := pb })

/-- `removeStartOfRegion` (DVMHSMAutoPar.cpp:400-410), variables and clauses are copied to the first loop. -/
def removeStart (front l : Nat) (st : State) : Option State :=
  let pb := (st l).entry
  match indexOf 1 pb, clausesOf pb with
  | some r, some c =>
    let st := st.set front { st front with entry := addVars 0 (varsOf 0 pb) (addClauses c (st front).entry) }
    match remove r (indexOf 0 pb) (st l).entry with
    | none => none
    | some pb => some (st.set l { st l with entry := pb })
  | _, _ => none

/-- Process loops between the first and the last ones (DVMHSMAutoPar.cpp:412-416). -/
def removeMiddle (front back : Nat) : List Nat → State → Option State
  | [], st => some st
  | l :: ls, st =>
    match removeEnd back l st with
    | none => none
    | some st =>
      match removeStart front l st with
      | none => none
      | some st => removeMiddle front back ls st

/-- Find a directive or create a new one at the end (DVMHSMAutoPar.cpp:332-345). -/
def ensure (k : Nat) (i : Item) (pb : List Item) : List Item := if (indexOf k pb).isSome then pb else pb ++ [i]

/-- `mergeRegions` (DVMHSMAutoPar.cpp:325-418). -/
def mergeRegions (front back : Nat) (middle : List Nat) (st : State) : Option State :=
  if (indexOf 1 (st front).entry).isNone || (indexOf 3 (st back).exit).isNone then none else
  let st := st.set front { st front with entry := ensure 0 (.actual []) (st front).entry }
  let st := st.set back { st back with exit := ensure 4 (.getActual []) (st back).exit }
  match removeEnd back front st with
  | none => none
  | some st =>
    match removeMiddle front back middle st with
    | none => none
    | some st => removeStart front back st

/-! ### Selection of regions -/

/-- A child of a scope: a parallel loop with a region (whether it is executed on a host only) or another statement. -/
abbrev Child := Option (Nat × Bool)

/-- Merge loops if there are at least two of them. -/
def flush (ls : List Nat) : List (List Nat) := if ls.length > 1 then [ls] else []

/-- `mergeSiblingRegions` (DVMHSMAutoPar.cpp:420-467): the result is a list of calls of `mergeRegions()`. Note, that
loops are not removed from `ToMerge` if kinds of regions are different (lines 453-457). -/
def siblings : List Child → List Nat → Bool → List (List Nat)
  | [], toMerge, _ => flush toMerge
  | some (l, h) :: cs, toMerge, host =>
    if toMerge.isEmpty then siblings cs (toMerge ++ [l]) h
    else if h = host then siblings cs (toMerge ++ [l]) host
    else flush toMerge ++ siblings cs (toMerge ++ [l]) h
  | none :: cs, toMerge, host => flush toMerge ++ siblings cs [] host

/-- Merge groups of loops one by one, a group contains at least two loops. -/
def mergeAll : List (List Nat) → State → Option State
  | [], st => some st
  | (f :: b :: ms) :: gs, st =>
    match mergeRegions f ((b :: ms).getLast (by simp)) (b :: ms).dropLast st with
    | none => none
    | some st => mergeAll gs st
  | _ :: _, _ => none

/-! ### Directives which tie loops and dimensions of arrays -/

/-- A dimension of an array is tied with a loop, the flag means that the direction is the same. -/
abbrev Tie := List (Option Nat × Bool)

/-- A monom: a loop and a coefficient, `none` means that the coefficient is not a constant. -/
structure Monom where
  col : Nat
  coef : Option Int
  deriving DecidableEq, Repr

/-- A subscript: a dimension and monoms, `none` means that the subscript is not affine. -/
structure Sub where
  dim : Nat
  monoms : Option (List Monom)
  deriving DecidableEq, Repr

/-- Process monoms of a subscript (DVMHSMAutoPar.cpp:598-617). -/
def tieMonoms (loops : List Nat) (dim : Nat) : List Monom → Tie → Tie
  | [], t => t
  | m :: ms, t =>
    if m.coef = some 0 then tieMonoms loops dim ms t
    else if m.col ∈ loops then
      tieMonoms loops dim ms (t.set dim (some m.col, match m.coef with | some c => decide (0 ≤ c) | none => false))
    else tieMonoms loops dim ms t

/-- Process subscripts of an access (DVMHSMAutoPar.cpp:595-618). -/
def tieSubs (loops : List Nat) : List (Option Sub) → Tie → Tie
  | [], t => t
  | none :: ss, t => tieSubs loops ss t
  | some s :: ss, t =>
    if ((t[s.dim]?).bind Prod.fst).isSome then tieSubs loops ss t
    else
      match s.monoms with
      | some ms => tieSubs loops ss (tieMonoms loops s.dim ms t)
      | none => tieSubs loops ss t

/-- Process accesses to an array (DVMHSMAutoPar.cpp:581-619): a result of a previous access is overwritten (lines
593-594). -/
def tieArray (loops : List Nat) : List (List (Option Sub)) → Tie → Tie
  | [], t => t
  | a :: as, _ => tieArray loops as (tieSubs loops a (List.replicate a.length (none, true)))

/-- Widths of dependencies in dimensions of an array. -/
abbrev Widths := List (Option Int × Option Int)

/-- All dimensions with dependencies are tied (DVMHSMAutoPar.cpp:490-503). -/
def tied (w : Widths) (t : Tie) : Bool :=
  (List.range w.length).all fun i =>
    match w[i]? with
    | some (none, none) => true
    | _ => ((t[i]?).bind Prod.fst).isSome

/-- Variables which are not tied (DVMHSMAutoPar.cpp:478-505). -/
def untied (deps : List (Nat × Widths)) (ties : Nat → Option Tie) : List Nat :=
  (deps.filter fun d => match ties d.1 with
    | none => true
    | some t => !tied d.2 t).map Prod.fst

/-- Remove directives at the end of a loop (DVMHSMAutoPar.cpp:517-541). -/
def dropExit (pb : List Item) : Option (List Item) :=
  match indexOf 3 pb with
  | none => none
  | some r =>
    if pb.length == 1 || (pb.length == 2 && pb.all fun i => i.kind == 3 || i.kind == 4) then some []
    else some ((pb.eraseIdx r).eraseP fun i => i.kind == 4)

/-- Remove directives at the beginning of a loop (DVMHSMAutoPar.cpp:542-567). -/
def dropEntry (pb : List Item) : Option (List Item) :=
  match indexOf 1 pb with
  | none => none
  | some r =>
    if pb.length == 2 || (pb.length == 3 && pb.all fun i => i.kind == 1 || i.kind == 2 || i.kind == 0) then some []
    else some (((pb.eraseIdx r).eraseP fun i => i.kind == 2).eraseP fun i => i.kind == 0)

/-- A body of the loop in `sanitizeAcrossLoops` (DVMHSMAutoPar.cpp:474-568). -/
def sanitize (deps : List (Nat × Widths)) (ties : Nat → Option Tie) (b : Blk) : Option Blk :=
  if (untied deps ties).isEmpty then some b else
  match dropExit b.exit with
  | none => none
  | some x =>
    match dropEntry b.entry with
    | none => none
    | some e => some ⟨e, x⟩

end Tsar.DvmhRegions
