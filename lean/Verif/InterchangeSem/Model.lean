import Mathlib.Data.List.Basic
import Mathlib.Data.Int.Notation

/-!
# Legality of loop interchange (C171, C172)

Models the checks made before interchange of loop headers in
`/repo/lib/Transform/Clang/LoopInterchange.cpp`, together with the meaning of a nest of loops.  The
order of headers which is written by the pass is modelled in `Verif/Loop/Interchange.lean`.
-/

namespace Tsar.InterchangeSem

/-- A location in memory (a scalar variable or an element of an array). -/
abbrev Loc := ℕ

/-- Contents of memory. -/
abbrev State := Loc → ℤ

/-- Assignment of a location. -/
def upd (s : State) (x : Loc) (a : ℤ) : State := fun y => if y = x then a else s y

/-- A value in a header of a loop: a constant, a load of a location, a call of a function which
reads some locations, a binary operation.  Values of LLVM IR form a graph, here it is unfolded to a
tree (the code also visits operands without a list of visited instructions).  A recurrence of an
outer loop in an expression of a step is considered as a load of the induction variable of this
loop. -/
inductive Val
  | const (c : ℤ)
  | load (x : Loc)
  | call (reads : List Loc) (f : List ℤ → ℤ)
  | op (f : ℤ → ℤ → ℤ) (a b : Val)

/-- The result of evaluation of a value. -/
def Val.eval (s : State) : Val → ℤ
  | .const c => c
  | .load x => s x
  | .call reads f => f (reads.map s)
  | .op f a b => f (a.eval s) (b.eval s)

/-- All locations which are read if a value is evaluated. -/
def Val.Reads : Val → Loc → Prop
  | .const _, _ => False
  | .load y, x => x = y
  | .call reads _, x => x ∈ reads
  | .op _ a b, x => a.Reads x ∨ b.Reads x

/-- A header `for (var = start; var < stop; var = var + step)`.  Other forms of conditions and a
negative step are symmetric and are not modelled. -/
structure Hdr where
  var : Loc
  start : Val
  stop : Val
  step : Val

/-- Kinds of traits which are distinguished by the checks (`LoopInterchange.cpp:257-286`): no
dependencies, private or reduction variables, an induction variable, a private variable with the
value after the loop taken from the iteration before the last one, everything else. -/
inductive Kind
  | noDep | priv | reduction | induction | secondToLast | other
  deriving DecidableEq, Repr

/-- A trait of memory in a loop.  `whole` is set if the trait describes a single memory location
which is a whole variable (`LoopInterchange.cpp:261-266`). -/
structure Tr where
  loc : Loc
  kind : Kind
  whole : Bool
  deriving DecidableEq, Repr

/-- Results of analysis of a loop: `analyzed` is set if a list of traits is available, `traits` are
traits of memory from the coverage (`LoopInterchange.cpp:243-256`). -/
structure Lp where
  hdr : Hdr
  canonical : Bool
  perfect : Bool
  analyzed : Bool
  traits : List Tr

/-- Collected information about traits: presence of dependencies, memory of the induction variable
of the loop and the list of variables. -/
structure Info where
  dep : Bool
  dim : Option Loc
  vars : List Loc
  deriving DecidableEq, Repr

/-- Processing of traits of a loop with the induction variable `v`
(`LoopInterchange.cpp:256-286`). -/
def scan (v : Loc) : List Tr → Info → Info
  | [], i => i
  | t :: ts, i =>
    match t.kind with
    | .noDep => scan v ts i
    | .priv => scan v ts i
    | .reduction => scan v ts i
    | .induction =>
      if t.whole && t.loc == v then scan v ts { i with dim := some t.loc }
      else { i with dep := true }
    | .secondToLast =>
      if t.whole then scan v ts { i with vars := i.vars ++ [t.loc] } else { i with dep := true }
    | .other => { i with dep := true }

/-- Information about a loop (`LoopInterchange.cpp:212-288`): it is collected in strict mode for
canonical and analyzed loops only. -/
def info (strict : Bool) (l : Lp) : Info :=
  if strict && l.canonical && l.analyzed then scan l.hdr.var l.traits ⟨false, none, []⟩
  else ⟨false, none, []⟩

/-- `isMemoryAccessedIn(DIM, V)` (`LoopInterchange.cpp:570-612`) and, for a step,
`isMemoryAccessedIn(DIM, L, S)` (`LoopInterchange.cpp:539-568`); `may` says that two memory
locations are in related nodes of the alias tree.  The handler of unknown memory is empty.  A null
value, for which the answer is positive, is not modelled: headers of canonical loops are known. -/
def accessedIn (may : Loc → Loc → Bool) (dim : Loc) : Val → Bool
  | .const _ => false
  | .load x => may dim x
  | .call _ _ => false
  | .op _ a b => accessedIn may dim a || accessedIn may dim b

/-- Access to memory in a header (`LoopInterchange.cpp:520-537`). -/
def accessedInHdr (may : Loc → Loc → Bool) (dim : Loc) (h : Hdr) : Bool :=
  accessedIn may dim h.start || accessedIn may dim h.stop || accessedIn may dim h.step

/-- Results of the check of a loop: it is accepted, it is rejected with a diagnostic, or the memory
of the induction variable is null and it is dereferenced. -/
inductive Verdict
  | ok | notCanonical | dependency | notAnalyzed | irregular | crash
  deriving DecidableEq, Repr

/-- The induction variable of a loop, which is set for canonical loops only
(`LoopInterchange.cpp:219-231`). -/
def inductVar (l : Lp) : Option Loc := if l.canonical then some l.hdr.var else none

/-- `checkLoop` (`LoopInterchange.cpp:396-442`). -/
def checkLoop (may : Loc → Loc → Bool) (strict : Bool) (loops : List Lp) (i m : ℕ) : Verdict :=
  match loops[i]? with
  | none => .crash
  | some l =>
    let inf := info strict l
    if !l.canonical then .notCanonical
    else if inf.dep then .dependency
    else if !strict then .ok
    else if !l.analyzed then .notAnalyzed
    else if !(inf.vars.all fun v => (loops.drop (i + 1)).any fun l' => inductVar l' == some v) then
      .dependency
    else match inf.dim with
      | none => .crash
      | some dim =>
        if ((loops.take (m + 1)).drop (i + 1)).any fun l' => accessedInHdr may dim l'.hdr then
          .irregular
        else .ok

/-- Checks of all loops up to the innermost interchanged one (`LoopInterchange.cpp:443-460`): outer
loops must be perfect. -/
def accepted (may : Loc → Loc → Bool) (strict : Bool) (loops : List Lp) (m : ℕ) : Bool :=
  (List.range m).all (fun i => ((loops[i]?).any Lp.perfect) &&
    checkLoop may strict loops i m == .ok) &&
  checkLoop may strict loops m m == .ok

end Tsar.InterchangeSem
