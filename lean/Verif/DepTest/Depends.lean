import Verif.DepTest.Constraint
/-!
# The dependence test of two accesses

`lib/Analysis/Memory/DependenceAnalysis.cpp`: `DependenceInfo::depends` from the point where pairs of
subscripts are known.  Alias queries, delinearization, sign extension (`unifySubscriptType`), scalar
flags and confused levels are not modelled.
-/

namespace Tsar.DepTest

variable {S L Env : Type}

/-- A pair of subscripts, `DependenceInfo::Subscript`, DependenceAnalysis.h:403-411.  Loops and the
classification are functions of subscripts. -/
inductive Pair (S L : Type)
  | linear (src dst : Sub S L)
  | nonLinear

/-- What does not change while two accesses are tested. -/
structure Ctx (S L Env : Type) where
  se : SE S L Env
  /-- subscripts have `w + 1` bits -/
  w : Nat
  /-- levels from 1 to `MaxLevels` -/
  all : List L
  /-- levels from 1 to `CommonLevels` -/
  common : List L
  /-- loops of recurrences contain accesses, see `testSIV` -/
  inNest : Sub S L → Sub S L → Bool
  /-- `isLoopInvariant`, see `addToCoefficient` -/
  inv : Sub S L → L → Bool

/-- A call of a test: the class, subscripts and whether subscripts belong to a coupled group. -/
structure Call (S L : Type) where
  cls : Class
  src : Sub S L
  dst : Sub S L
  coupled : Bool

/-- How a part of the test ends. -/
inductive End (α : Type)
  /-- undefined behaviour -/
  | ub
  /-- `return nullptr` -/
  | indep
  | ok (a : α)

/-- A part of the test: the calls of tests (they are not a part of the program state) and the end. -/
structure Run (S L α : Type) where
  calls : List (Call S L)
  res : End α

namespace Run
def pure {α : Type} (a : α) : Run S L α := ⟨[], .ok a⟩
def ub {α : Type} : Run S L α := ⟨[], .ub⟩
def indep {α : Type} : Run S L α := ⟨[], .indep⟩
def call (c : Call S L) : Run S L Unit := ⟨[c], .ok ()⟩
def bind {α β : Type} (x : Run S L α) (f : α → Run S L β) : Run S L β :=
  match x.res with
  | .ub => ⟨x.calls, .ub⟩
  | .indep => ⟨x.calls, .indep⟩
  | .ok a => ⟨x.calls ++ (f a).calls, (f a).res⟩
/-- Undefined behaviour if there is no value. -/
def ofOption {α : Type} : Option α → Run S L α
  | none => ub
  | some a => pure a
end Run

/-- The part of the state which is changed by tests: the direction vector, `Consistent` and
`NewConstraint`. -/
structure St (S L : Type) where
  dv : L → Dv S
  consistent : Bool
  newCon : Con S

variable [DecidableEq L]

namespace Ctx

/-- `Level <= CommonLevels`. -/
def isCommon (c : Ctx S L Env) (l : L) : Bool := decide (l ∈ c.common)

/-- `Pair[P].Loops`. -/
def loops (c : Ctx S L Env) (src dst : Sub S L) : List L :=
  c.all.filter fun l => decide (l ∈ src.loops ∨ l ∈ dst.loops)

/-- A call of a test and the assignment of its effects. -/
def apply (st : St S L) (call : Call S L) (r : Option (Res S L)) : Run S L (St S L × Option L) :=
  (Run.call call).bind fun _ =>
    match r with
    | none => .ub
    | some r =>
      if r.indep then .indep
      else .pure (⟨r.dv, r.consistent, r.con.getD st.newCon⟩, r.level)

/-- `testZIV` for recurrences which do not mention loops. -/
def ziv (c : Ctx S L Env) (src dst : Sub S L) (coupled : Bool) (st : St S L) :
    Run S L (St S L × Option L) :=
  let r := testZIV c.se src.const dst.const st.consistent
  apply st ⟨.ZIV, src, dst, coupled⟩ (some ⟨r.1, st.dv, r.2, none, none⟩)

def siv (c : Ctx S L Env) (src dst : Sub S L) (coupled : Bool) (st : St S L) :
    Run S L (St S L × Option L) :=
  apply st ⟨.SIV, src, dst, coupled⟩
    (testSIV c.se c.w (c.inNest src dst) c.isCommon src dst st.dv st.consistent)

def rdiv (c : Ctx S L Env) (src dst : Sub S L) (coupled : Bool) (st : St S L) :
    Run S L (St S L × Option L) :=
  apply st ⟨.RDIV, src, dst, coupled⟩ (testRDIV c.se c.w c.isCommon src dst st.dv st.consistent)

def miv (c : Ctx S L Env) (src dst : Sub S L) (coupled : Bool) (st : St S L) :
    Run S L (St S L × Option L) :=
  apply st ⟨.MIV, src, dst, coupled⟩
    (testMIV c.se c.all c.common c.isCommon src dst
      (fun l => decide (l ∈ c.loops src dst)) st.dv)

/-- The switch at DependenceAnalysis.cpp:3780-3811. -/
def test (c : Ctx S L Env) (src dst : Sub S L) (st : St S L) : Run S L (St S L × Option L) :=
  match classify src dst with
  | .ZIV => c.ziv src dst false st
  | .SIV => c.siv src dst false st
  | .RDIV => c.rdiv src dst false st
  | .MIV => c.miv src dst false st

/-- Testing of separable subscripts, DependenceAnalysis.cpp:3778-3812. -/
def separable (c : Ctx S L Env) (pairs : Nat → Pair S L) : List Nat → St S L → Run S L (St S L)
  | [], st => .pure st
  | i :: is, st =>
    match pairs i with
    | .nonLinear => .ub
    | .linear src dst => (c.test src dst st).bind fun r => c.separable pairs is r.1

end Ctx

/-- The state of the Delta test: subscripts of the group, the part changed by tests, constraints and
levels with constraints. -/
structure GSt (S L : Type) where
  pairs : Nat → Pair S L
  st : St S L
  con : L → Con S
  levels : List L

namespace Ctx

/-- The loop over SIV subscripts, DependenceAnalysis.cpp:3841-3861; the last component is
`Changed`. -/
def sivs (c : Ctx S L Env) : List Nat → GSt S L → Bool → Run S L (GSt S L × Bool)
  | [], g, ch => .pure (g, ch)
  | j :: js, g, ch =>
    match g.pairs j with
    | .nonLinear => .ub
    | .linear src dst =>
      (c.siv src dst true g.st).bind fun r =>
        match r.2 with
        | none => .ub
        | some l =>
          match intersect c.se ((c.se.bound l).bind c.se.const) (g.con l) r.1.newCon with
          | none => .ub
          | some (.empty, true) => .indep
          | some (z, b) =>
            c.sivs js ⟨g.pairs, r.1, fun k => if k = l then z else g.con k, l :: g.levels⟩ (ch || b)

/-- The loop over other subscripts, DependenceAnalysis.cpp:3866-3907; the results are the state, the
new SIV subscripts and the subscripts which remain. -/
def mivs (c : Ctx S L Env) : List Nat → GSt S L → Run S L (GSt S L × List Nat × List Nat)
  | [], g => .pure (g, [], [])
  | j :: js, g =>
    match g.pairs j with
    | .nonLinear => .ub
    | .linear src dst =>
      (Run.ofOption (propagate c.se c.inv g.con (c.loops src dst) src dst g.st.consistent)).bind
        fun r =>
          let g' : GSt S L := { g with
            pairs := fun k => if k = j then .linear r.1 r.2.1 else g.pairs k
            st := { g.st with consistent := r.2.2.1 } }
          let keep := (c.mivs js g').bind fun r => .pure (r.1, r.2.1, j :: r.2.2)
          if r.2.2.2 then
            match classify r.1 r.2.1 with
            | .ZIV => (c.ziv r.1 r.2.1 true g'.st).bind fun s => c.mivs js { g' with st := s.1 }
            | .SIV => (c.mivs js g').bind fun r => .pure (r.1, j :: r.2.1, r.2.2)
            | _ => keep
          else keep

/-- The loop `while (Sivs.any())`, DependenceAnalysis.cpp:3839-3911, with a bound on the number of
iterations; the second component of the result is `Mivs`. -/
def delta (c : Ctx S L Env) : Nat → List Nat → List Nat → GSt S L → Run S L (GSt S L × List Nat)
  | _, [], ms, g => .pure (g, ms)
  | 0, _ :: _, _, _ => .ub
  | fuel + 1, s :: ss, ms, g =>
    (c.sivs (s :: ss) g false).bind fun r =>
      if r.2 then (c.mivs ms r.1).bind fun r => c.delta fuel r.2.1 r.2.2 r.1
      else c.delta fuel [] ms r.1

/-- Remaining RDIV subscripts, DependenceAnalysis.cpp:3914-3922; the second component of the result
is `Mivs`. -/
def rdivs (c : Ctx S L Env) (pairs : Nat → Pair S L) : List Nat → St S L → Run S L (St S L × List Nat)
  | [], st => .pure (st, [])
  | j :: js, st =>
    match pairs j with
    | .nonLinear => .ub
    | .linear src dst =>
      if classify src dst = .RDIV then
        (c.rdiv src dst true st).bind fun r => c.rdivs pairs js r.1
      else (c.rdivs pairs js st).bind fun r => .pure (r.1, j :: r.2)

/-- Remaining MIV subscripts, DependenceAnalysis.cpp:3927-3935. -/
def rest (c : Ctx S L Env) (pairs : Nat → Pair S L) : List Nat → St S L → Run S L (St S L)
  | [], st => .pure st
  | j :: js, st =>
    match pairs j with
    | .nonLinear => .ub
    | .linear src dst =>
      if classify src dst = .MIV then (c.miv src dst true st).bind fun r => c.rest pairs js r.1
      else .ub

/-- The update of directions, DependenceAnalysis.cpp:3939-3945. -/
def update (c : Ctx S L Env) (con : L → Con S) : List L → St S L → Run S L (St S L)
  | [], st => .pure st
  | l :: ls, st =>
    if c.isCommon l then
      (Run.ofOption (updateDirection c.se (st.dv l) (con l))).bind fun d =>
        if d.dir = .none then .indep
        else c.update con ls { st with dv := setDv st.dv l d }
    else .pure st

/-- One coupled group, DependenceAnalysis.cpp:3820-3946.  The sets `Sivs` and `Mivs` are ordered. -/
def group (c : Ctx S L Env) (idx : List Nat) (pairs : Nat → Pair S L) (con : L → Con S) (st : St S L) :
    Run S L (GSt S L) :=
  let isSiv : Nat → Bool := fun j => match pairs j with
    | .linear src dst => decide (classify src dst = .SIV)
    | .nonLinear => false
  let ss := idx.filter isSiv
  let ms := idx.filter fun j => !isSiv j
  (c.delta (ms.length + 1) ss ms ⟨pairs, st, con, []⟩).bind fun r =>
    (c.rdivs r.1.pairs r.2 r.1.st).bind fun s =>
      (c.rest r.1.pairs s.2 s.1).bind fun s =>
        (c.update r.1.con (c.all.filter fun l => decide (l ∈ r.1.levels)) s).bind fun s =>
          .pure { r.1 with st := s }

/-- All coupled groups, DependenceAnalysis.cpp:3814-3947. -/
def groups (c : Ctx S L Env) : List (List Nat) → (Nat → Pair S L) → (L → Con S) → St S L →
    Run S L (St S L)
  | [], _, _, st => .pure st
  | g :: gs, pairs, con, st =>
    (c.group g pairs con st).bind fun r => c.groups gs r.pairs r.con r.st

end Ctx

/-! ### Partition of subscripts -/

/-- `Group` and `GroupLoops` of subscripts, and the sets `Separable` and `Coupled`. -/
structure Part (L : Type) where
  loops : Nat → List L
  group : Nat → List Nat
  separable : List Nat
  coupled : List Nat

/-- The intersection of two sets is not empty. -/
def meets (a b : List L) : Bool := a.any fun x => decide (x ∈ b)

/-- The loop over `SJ`, DependenceAnalysis.cpp:3744-3754: the second component is `Done`. -/
def mergeInto (i : Nat) : List Nat → Part L → Bool → Part L × Bool
  | [], p, done => (p, done)
  | j :: js, p, done =>
    if meets (p.loops i) (p.loops j) then
      mergeInto i js { p with
        loops := fun k => if k = j then p.loops j ++ p.loops i else p.loops k
        group := fun k => if k = j then p.group j ++ p.group i else p.group k } false
    else mergeInto i js p done

/-- The loop over `SI`, DependenceAnalysis.cpp:3725-3766, for subscripts `i`, …, `i + n - 1`;
`cls` is the classification, `none` is `NonLinear`. -/
def partition (cls : Nat → Option Class) : Nat → Nat → Part L → Part L
  | 0, _, p => p
  | n + 1, i, p =>
    match cls i with
    | none => partition cls n (i + 1) p
    | some .ZIV => partition cls n (i + 1) { p with separable := p.separable ++ [i] }
    | some _ =>
      let r := mergeInto i ((List.range n).map (· + (i + 1))) p true
      let p' := r.1
      if r.2 then
        if (p'.group i).dedup.length = 1 then
          partition cls n (i + 1) { p' with separable := p'.separable ++ [i] }
        else partition cls n (i + 1) { p' with coupled := p'.coupled ++ [i] }
      else partition cls n (i + 1) p'

/-- The result of the whole test, `FullDependence`. -/
structure Dep (S L : Type) where
  dv : L → Dv S
  consistent : Bool
  loopIndep : Bool

namespace Ctx

def pairLoops (c : Ctx S L Env) : Pair S L → List L
  | .linear src dst => c.loops src dst
  | .nonLinear => []

def pairClass : Pair S L → Option Class
  | .linear src dst => some (classify src dst)
  | .nonLinear => none

/-- The partition of `n` subscripts. -/
def parts (c : Ctx S L Env) (n : Nat) (pairs : Nat → Pair S L) : Part L :=
  partition (fun i => pairClass (pairs i)) n 0
    ⟨fun i => c.pairLoops (pairs i), fun i => [i], [], []⟩

/-- The last part, DependenceAnalysis.cpp:3957-3983. -/
def finish (c : Ctx S L Env) (possiblyLoopIndep : Bool) (st : St S L) : Run S L (Dep S L) :=
  if possiblyLoopIndep then
    .pure ⟨st.dv, st.consistent, c.common.all fun l => (st.dv l).dir.eq⟩
  else if c.common.all fun l => decide ((st.dv l).dir = .EQ) then .indep
  else .pure ⟨st.dv, st.consistent, false⟩

/-- `depends`, DependenceAnalysis.cpp:3579-3986, for `n` pairs of subscripts. -/
def depends (c : Ctx S L Env) (n : Nat) (pairs : Nat → Pair S L) (possiblyLoopIndep : Bool) :
    Run S L (Dep S L) :=
  let p := c.parts n pairs
  let consistent := (List.range n).all fun i => (pairClass (pairs i)).isSome
  (c.separable pairs p.separable ⟨fun _ => Dv.top S, consistent, .any⟩).bind fun st =>
    (c.groups (p.coupled.map fun i => (List.range n).filter fun k => decide (k ∈ p.group i)) pairs
      (fun _ => .any) st).bind fun st => c.finish possiblyLoopIndep st

end Ctx

end Tsar.DepTest
