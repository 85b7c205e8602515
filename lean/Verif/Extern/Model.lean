import Verif.BitTrait.Model

/-!
# Model of import and export of analysis results

Models lib/Analysis/Reader/AnalysisReader.cpp, lib/Analysis/Reader/AnalysisWriter.cpp, the content of
files described in include/tsar/Analysis/Reader/AnalysisJSON.h, and `trait::DIDependence` from
include/tsar/Analysis/Memory/DIMemoryTrait.h.

Simplifications.
* A file is a value of the type `Info`: JSON parsing and printing are external.
* `getUniqueID()` is a parameter `uid`; the location of a variable which `buildVariable()` computes
  (Unparse/Utils.cpp:263) is an input.
* `std::map` is a partial function. `std::set` in a file is a list, the order of its elements is the
  order of insertion.
* Distances are integers; a distance in a file has the type `int` (32 bits).
* `bcl::TraitSet` is external: `set<T>` drops alternatives of `T` (`setDep`) together with their
  descriptions.
-/
namespace Tsar.Extern

open BitTrait (UnitTrait DepTrait setDep)

/-- `trait::Dependence::Flag`, MemoryTrait.h:88-106, without `UnknownDistance`. -/
structure Flags where
  may : Bool := false
  loadStore : Bool := false
  call : Bool := false
  unknown : Bool := false
  confused : Bool := false
  deriving DecidableEq, Repr

/-- A range of distances: DIMemoryTrait.h:53. -/
abbrev Range := Option Int × Option Int

/-- `trait::DIDependence`, DIMemoryTrait.h:47-110. -/
structure Dep where
  flags : Flags
  unknownDistance : Bool
  dist : List Range
  causes : List Nat
  deriving DecidableEq, Repr

/-- The constructor with distances: DIMemoryTrait.h:75-89. -/
def mkDep (f : Flags) (dist : List Range) (causes : List Nat := []) : Dep :=
  { flags := f
    unknownDistance := match dist with
      | (some _, some _) :: _ => false
      | _ => true
    dist := dist
    causes := causes }

/-- `DIMemoryTrait`: a descriptor with descriptions, DIMemoryTrait.h:175-188. -/
structure Traits where
  unit : UnitTrait → Bool
  dep : DepTrait → Bool
  flow : Option Dep := none
  anti : Option Dep := none
  output : Option Dep := none
  reduction : Option Nat := none
  induction : Option (Option Int × Option Int × Option Int) := none

/-- Descriptions of traits which are not set are destroyed. -/
def Traits.clean (t : Traits) : Traits :=
  { t with
    flow := if t.dep .flow then t.flow else none
    anti := if t.dep .anti then t.anti else none
    output := if t.dep .output then t.output else none
    reduction := if t.dep .reduction then t.reduction else none
    induction := if t.dep .induction then t.induction else none }

/-- `set<T>()` -/
def Traits.set (t : Traits) (d : DepTrait) : Traits := { t with dep := setDep t.dep d }.clean

/-- `unset<T>()` -/
def Traits.unset (t : Traits) (d : DepTrait) : Traits :=
  { t with dep := fun x => t.dep x && decide (x ≠ d) }.clean

/-- `unset<T>()` for a unit trait. -/
def Traits.unsetUnit (t : Traits) (u : UnitTrait) : Traits :=
  { t with unit := fun x => t.unit x && decide (x ≠ u) }

/-- `set<T>()` for a unit trait. -/
def Traits.setUnit (t : Traits) (u : UnitTrait) : Traits :=
  { t with unit := fun x => t.unit x || decide (x = u) }

/-! ### Files -/

/-- `trait::Function`, AnalysisJSON.h:38-45, without a column. -/
structure FuncJ where
  file : String
  line : Nat
  name : String
  pure : Bool := false

/-- `trait::Var`, AnalysisJSON.h:49-55. -/
structure VarJ where
  file : String
  line : Nat
  column : Nat
  name : String

/-- `trait::Loop`, AnalysisJSON.h:75-91. -/
structure LoopJ where
  file : String
  line : Nat
  column : Nat
  priv : List Nat := []
  reduction : List (Nat × Nat) := []
  induction : List (Nat × (Option Int × Option Int × Option Int)) := []
  flow : List (Nat × Range) := []
  anti : List (Nat × Range) := []
  output : List Nat := []
  write : List Nat := []
  read : List Nat := []
  useAfter : List Nat := []
  defBefore : List Nat := []

/-- `trait::Info`, AnalysisJSON.h:95-102. -/
structure Info where
  functions : List FuncJ := []
  vars : List VarJ := []
  loops : List LoopJ := []

/-- `VariableLocationT`: VariableLocation.h. -/
structure VarLoc where
  file : Nat
  line : Nat
  column : Nat
  name : String
  deriving DecidableEq

/-- `LocationT`: AnalysisReader.cpp:69-72. -/
structure Pos where
  file : Nat
  line : Nat
  column : Nat
  deriving DecidableEq

/-- `FunctionT`: AnalysisReader.cpp:59-62. -/
structure FuncKey where
  file : Nat
  line : Nat
  name : String
  deriving DecidableEq

/-- `TraitT`: AnalysisReader.cpp:79-105. An iterator is replaced with a value it points to. -/
structure Ext where
  reduction : Option Nat := none
  priv : Bool := false
  useAfter : Bool := false
  write : Bool := false
  read : Bool := false
  output : Bool := false
  anti : Option Range := none
  flow : Option Range := none
  deriving DecidableEq, Repr

section
variable (uid : String → Option Nat)

/-! ### Import -/

/-- `createVar()`: AnalysisReader.cpp:204-221. The outer `none`: an index is out of range. The inner
`none`: the identifier is empty. -/
def createVar (info : Info) (i : Nat) : Option (Option VarLoc) :=
  match info.vars[i]? with
  | none => none
  | some v =>
    match uid v.file with
    | none => some none
    | some f => if v.name = "" then some none else some (some ⟨f, v.line, v.column, v.name⟩)

/-- `TraitCache`: AnalysisReader.cpp:149. -/
abbrev Cache := VarLoc → Option Ext

/-- An iteration of `addToCache()`: AnalysisReader.cpp:241-247. -/
def addOne {α : Type} (info : Info) (idx : α → Nat) (put : α → Ext → Ext) (c : Cache) (a : α) :
    Option Cache :=
  match createVar uid info (idx a) with
  | none => none
  | some none => some c
  | some (some v) => some (fun x => if x = v then some (put a ((c v).getD {})) else c x)

/-- `addToCache()`: AnalysisReader.cpp:238-249. -/
def addToCache {α : Type} (info : Info) (idx : α → Nat) (put : α → Ext → Ext) :
    List α → Cache → Option Cache
  | [], c => some c
  | a :: as, c =>
    match addOne uid info idx put c a with
    | none => none
    | some c => addToCache info idx put as c

/-- `buildTraitCache()`: AnalysisReader.cpp:253-264. -/
def buildTraitCache (info : Info) (l : LoopJ) : Option Cache := do
  let c ← addToCache uid info Prod.fst (fun a e => { e with reduction := some a.2 }) l.reduction
    (fun _ => none)
  let c ← addToCache uid info id (fun _ e => { e with priv := true }) l.priv c
  let c ← addToCache uid info id (fun _ e => { e with useAfter := true }) l.useAfter c
  let c ← addToCache uid info id (fun _ e => { e with write := true }) l.write c
  let c ← addToCache uid info id (fun _ e => { e with read := true }) l.read c
  let c ← addToCache uid info id (fun _ e => { e with output := true }) l.output c
  let c ← addToCache uid info Prod.fst (fun a e => { e with anti := some a.2 }) l.anti c
  addToCache uid info Prod.fst (fun a e => { e with flow := some a.2 }) l.flow c

/-- `buildLoopCache()`: AnalysisReader.cpp:189-202. The value is an index; `emplace` does not replace
an element. -/
def buildLoopCache (info : Info) : Pos → Option Nat :=
  (info.loops.zipIdx).foldl (fun c (l, i) =>
    match uid l.file with
    | none => c
    | some f => fun x => if x = ⟨f, l.line, l.column⟩ then some ((c x).getD i) else c x)
    (fun _ => none)

/-- `buildFunctionCache()`: AnalysisReader.cpp:169-186. -/
def buildFunctionCache (info : Info) : FuncKey → Option Nat :=
  (info.functions.zipIdx).foldl (fun c (g, i) =>
    match uid g.file with
    | none => c
    | some f => fun x => if x = ⟨f, g.line, g.name⟩ then some ((c x).getD i) else c x)
    (fun _ => none)

/-- A location in metadata: a file, a line, and a column. -/
abbrev SrcLoc := String × Nat × Nat

/-- `findLoop()`: AnalysisReader.cpp:284-302. Operands of `LoopID` are locations or other metadata;
the first operand is skipped. -/
def findLoop (info : Info) (ops : List (Option SrcLoc)) : Option LoopJ :=
  match (ops.drop 1).findSome? id with
  | none => none
  | some (file, line, column) =>
    match uid file with
    | none => none
    | some f =>
      (buildLoopCache uid info ⟨f, line, column⟩).bind (fun i => info.loops[i]?)

/-- A subprogram in metadata: a file, a line, a name and a linkage name. -/
structure SubProg where
  file : String
  line : Nat
  name : String
  linkage : String

/-- `findFunction()`: AnalysisReader.cpp:266-281. -/
def findFunction (info : Info) (s : SubProg) : Option FuncJ :=
  match uid s.file with
  | none => none
  | some f =>
    match buildFunctionCache uid info ⟨f, s.line, s.name⟩ with
    | some i => info.functions[i]?
    | none =>
      (buildFunctionCache uid info ⟨f, s.line, s.linkage⟩).bind (fun i => info.functions[i]?)

end

/-- The new description in `updateAntiFlowDep()`: AnalysisReader.cpp:314-333. Flags are `No` because
`if (F)` is false. -/
def newDep (r : Range) (d : Dep) : Dep :=
  let f : Flags := {}
  mkDep f (r :: d.dist.drop 1)

/-- `updateAntiFlowDep<Flow>()`: AnalysisReader.cpp:305-338. `none` is use of a null pointer. -/
def updateFlow (e : Ext) (t : Traits) : Option Traits :=
  match e.flow, t.dep .flow with
  | some r, true =>
    match t.flow with
    | none => none
    | some d => some { t.set .flow with flow := some (newDep r d) }
  | _, _ => some t

/-- `updateAntiFlowDep<Anti>()`: AnalysisReader.cpp:305-338. -/
def updateAnti (e : Ext) (t : Traits) : Option Traits :=
  match e.anti, t.dep .anti with
  | some r, true =>
    match t.anti with
    | none => none
    | some d => some { t.set .anti with anti := some (newDep r d) }
  | _, _ => some t

/-- `updateOutputDep()`: AnalysisReader.cpp:341-357. -/
def updateOutput (e : Ext) (t : Traits) : Option Traits :=
  match e.output, t.dep .output with
  | true, true =>
    match t.output with
    | none => none
    | some d =>
      let f : Flags := {}
      some { t.set .output with output := some (mkDep f d.dist) }
  | _, _ => some t

/-- `isOnlyAnyOf<UseAfterLoop, WriteOccurred, ReadOccurred>()`: AnalysisReader.cpp:121-146. -/
def Ext.noDeps (e : Ext) : Bool :=
  e.reduction.isNone && !e.priv && !e.output && e.anti.isNone && e.flow.isNone

/-- Traits which are not updated: AnalysisReader.cpp:444-446. -/
def Traits.fixed (t : Traits) : Bool :=
  t.dep .noAccess || t.dep .readonly || t.dep .reduction || t.dep .induction

/-- Update of traits of a variable: AnalysisReader.cpp:444-446, 468-504. -/
def update (e : Ext) (t : Traits) : Option Traits :=
  if t.fixed then some t else
  let r :=
    if e.noDeps then
      some (if e.write then t.set .shared else t.set .readonly)
    else if e.priv then
      let t :=
        if !e.useAfter then t.set .priv
        else if t.dep .flow || t.dep .anti || t.dep .output then t.set .dynamicPrivate
        else t
      some (if e.flow.isNone && e.anti.isNone && !e.output then t.set .shared else t)
    else if t.dep .firstPrivate then
      some (if !e.useAfter then
        ((t.unset .lastPrivate).unset .secondToLastPrivate).unset .dynamicPrivate else t)
    else
      match e.reduction with
      | some k => some { t.set .reduction with reduction := some k }
      | none =>
        match updateAnti e t with
        | none => none
        | some t =>
          match updateFlow e t with
          | none => none
          | some t =>
            match updateOutput e t with
            | none => none
            | some t =>
              let t := if e.flow.isNone then t.unset .flow else t
              let t := if e.anti.isNone then t.unset .anti else t
              some (if !e.output then t.unset .output else t)
  match r with
  | none => none
  | some t => some (if !e.useAfter then t.unsetUnit .useAfterLoop else t)

/-- Update of traits of a call of a pure function: AnalysisReader.cpp:434-438. -/
def makePure (t : Traits) : Traits :=
  ((((t.unsetUnit .directAccess).unsetUnit .explicitAccess).unsetUnit .addressAccess).setUnit
    .redundant).set .noAccess

/-- A location in a metadata-level alias tree: a call, or other unknown memory, or memory with the
location `buildVariable()` returns. -/
inductive Memory
  | exec (callee : Option SubProg)
  | unknown
  | estimate (v : Option VarLoc)

/-- Update of traits of a location: AnalysisReader.cpp:422-507. -/
def updateMemory (uid : String → Option Nat) (info : Info) (c : Cache) (m : Memory) (t : Traits) :
    Option Traits :=
  match m with
  | .exec none => some t
  | .exec (some s) =>
    match findFunction uid info s with
    | none => some t
    | some f => some (if f.pure then makePure t else t)
  | .unknown => some t
  | .estimate none => some t
  | .estimate (some v) =>
    match c v with
    | none => some t
    | some e => update e t

/-- A loop of the pool: operands of `LoopID` and traits of locations. -/
structure PoolLoop where
  ops : List (Option SrcLoc)
  pool : List (Memory × Traits)

/-- Update of traits of all locations: AnalysisReader.cpp:422-507. -/
def updateAll (uid : String → Option Nat) (info : Info) (c : Cache) :
    List (Memory × Traits) → Option (List (Memory × Traits))
  | [] => some []
  | (m, t) :: r =>
    match updateMemory uid info c m t, updateAll uid info c r with
    | some t, some r => some ((m, t) :: r)
    | _, _ => none

/-- Update of traits in a loop: AnalysisReader.cpp:412-508. -/
def loadLoop (uid : String → Option Nat) (info : Info) (p : PoolLoop) : Option PoolLoop :=
  match findLoop uid info p.ops with
  | none => some p
  | some l =>
    match buildTraitCache uid info l with
    | none => none
    | some c =>
      match updateAll uid info c p.pool with
      | none => none
      | some q => some { p with pool := q }

/-- `load()`: AnalysisReader.cpp:410-510. -/
def load (uid : String → Option Nat) (info : Info) : List PoolLoop → Option (List PoolLoop)
  | [] => some []
  | p :: ps =>
    match loadLoop uid info p, load uid info ps with
    | some p, some ps => some (p :: ps)
    | _, _ => none

/-! ### Export -/

/-- Conversion of a distance to a value of the type `int`: AnalysisWriter.cpp:178-192 and 144-161.
`sizeof` is applied to `std::optional<int>`, so the check allows 64 bits, and the conversion to
`int` drops the upper ones. A value `old` is not changed if there is nothing to store. -/
def toFile : Option Int → Option Int → Option Int
  | none, old => old
  | some v, old => if -(2 ^ 63) ≤ v ∧ v < 2 ^ 63 then some (Int.bmod v (2 ^ 32)) else old

/-- `storeRange`: AnalysisWriter.cpp:178-194. -/
def storeRange (d : Option Dep) (old : Range) : Range :=
  match d with
  | none => old
  | some d =>
    match d.dist with
    | [] => old
    | r :: _ => (toFile r.1 old.1, toFile r.2 old.2)

/-- Insertion in `std::set`. -/
def insert (i : Nat) (l : List Nat) : List Nat := if i ∈ l then l else l ++ [i]

/-- `try_emplace` -/
def emplace {α : Type} (i : Nat) (a : α) (l : List (Nat × α)) : List (Nat × α) :=
  if i ∈ l.map Prod.fst then l else l ++ [(i, a)]

/-- `try_emplace` of a default value which is followed by an update of a stored value. -/
def emplaceWith {α : Type} (i : Nat) (a : α) (f : α → α) (l : List (Nat × α)) : List (Nat × α) :=
  if i ∈ l.map Prod.fst then l.map (fun p => if p.1 = i then (p.1, f p.2) else p)
  else l ++ [(i, f a)]

/-- Export of traits of a variable with an index `i`: AnalysisWriter.cpp:123-213. The kind 7 is
`RK_NoReduction`. -/
def writeTraits (i : Nat) (t : Traits) (l : LoopJ) : LoopJ :=
  let l := if t.unit .useAfterLoop then { l with useAfter := insert i l.useAfter } else l
  if t.dep .noAccess then l
  else if t.dep .readonly then { l with read := insert i l.read }
  else
    let l := { l with read := insert i l.read, write := insert i l.write }
    if t.dep .reduction then
      { l with
        reduction := emplace i (t.reduction.getD 7) l.reduction
        defBefore := insert i l.defBefore }
    else if t.dep .induction then
      { l with
        induction := emplaceWith i (none, none, none) (fun old => match t.induction with
          | none => old
          | some (s, e, st) => (toFile s old.1, toFile e old.2.1, toFile st old.2.2)) l.induction
        defBefore := insert i l.defBefore }
    else if t.dep .priv || t.dep .dynamicPrivate || t.dep .secondToLastPrivate then
      { l with priv := insert i l.priv }
    else if t.dep .firstPrivate then
      { l with
        defBefore := insert i l.defBefore
        priv := insert i l.priv }
    else if !t.dep .shared then
      let l := if !t.dep .output then { l with defBefore := insert i l.defBefore } else l
      if t.dep .output || t.dep .flow || t.dep .anti then
        let l := if t.dep .output then { l with output := insert i l.output } else l
        let l := if t.dep .flow then
          { l with flow := emplaceWith i (none, none) (storeRange t.flow) l.flow } else l
        if t.dep .anti then
          { l with anti := emplaceWith i (none, none) (storeRange t.flow) l.anti } else l
      else
        { l with
          output := insert i l.output
          flow := emplace i (none, none) l.flow
          anti := emplace i (none, none) l.anti }
    else l

/-- The state of export: `VariableCache` and `Info[Vars]`. A file of a variable is known for its
location. -/
structure WSt where
  index : VarLoc → Option Nat := fun _ => none
  vars : List VarJ := []

/-- Export of a location: AnalysisWriter.cpp:107-215. `path` is the path `buildVariable()` stores. -/
def writeMemory (path : VarLoc → String) (s : WSt × LoopJ) (m : Memory × Traits) : WSt × LoopJ :=
  if m.2.dep .noAccess then s
  else
    match m.1 with
    | .estimate (some v) =>
      match s.1.index v with
      | some i => (s.1, writeTraits i m.2 s.2)
      | none =>
        let i := s.1.vars.length
        (⟨fun x => if x = v then some i else s.1.index x,
          s.1.vars ++ [⟨path v, v.line, v.column, v.name⟩]⟩, writeTraits i m.2 s.2)
    | _ => s

/-- Export of a loop: AnalysisWriter.cpp:90-217. -/
def writeLoop (path : VarLoc → String) (s : WSt) (loc : SrcLoc) (pool : List (Memory × Traits)) :
    WSt × LoopJ :=
  pool.foldl (writeMemory path) (s, { file := loc.1, line := loc.2.1, column := loc.2.2 })

/-- Export of loops of all functions: AnalysisWriter.cpp:73-218. -/
def writeLoops (path : VarLoc → String) :
    List (SrcLoc × List (Memory × Traits)) → WSt → WSt × List LoopJ
  | [], s => (s, [])
  | (loc, pool) :: r, s =>
    let (s, l) := writeLoop path s loc pool
    let (s, ls) := writeLoops path r s
    (s, l :: ls)

/-- `runOnModule()`: AnalysisWriter.cpp:61-229. -/
def write (path : VarLoc → String) (fs : List FuncJ) (ls : List (SrcLoc × List (Memory × Traits))) :
    Info :=
  let (s, ls) := writeLoops path ls {}
  { functions := fs.map (fun f => { f with pure := false }), vars := s.vars, loops := ls }

end Tsar.Extern
