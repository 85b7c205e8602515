import Mathlib.Data.BitVec

/-!
# Model of loop-carried dependencies (lib/Analysis/Memory/PrivateAnalysis.cpp)

Models `insertDependence`, `collectDependencies`, `DependenceImp` and the summary of distances.
A distance is an expression (`SCEV`) of an abstract type `D`, operations of `ScalarEvolution` are
parameters. A set of distances (`SmallPtrSet`) is a list, its order and repetitions are not observed.
Causes of dependencies and flags, except `UnknownDistance`, are not modelled.
-/

namespace Tsar
namespace Dep

/-- A direction, `Dependence::DVEntry` (include/tsar/Analysis/Memory/DependenceAnalysis.h:104-111):
the bits `LT = 1`, `EQ = 2`, `GT = 4`. -/
structure Dir where
  lt : Bool
  eq : Bool
  gt : Bool
  deriving DecidableEq

namespace Dir
/-- DependenceAnalysis.h:105. -/
def LT : Dir := ⟨true, false, false⟩
/-- DependenceAnalysis.h:106. -/
def EQ : Dir := ⟨false, true, false⟩
/-- DependenceAnalysis.h:107. -/
def LE : Dir := ⟨true, true, false⟩
/-- DependenceAnalysis.h:108. -/
def GT : Dir := ⟨false, false, true⟩
/-- DependenceAnalysis.h:109. -/
def NE : Dir := ⟨true, false, true⟩
/-- DependenceAnalysis.h:110. -/
def GE : Dir := ⟨false, true, true⟩
/-- DependenceAnalysis.h:111. -/
def ALL : Dir := ⟨true, true, true⟩
end Dir

/-- Kinds of dependencies (PrivateAnalysis.cpp:187-188). -/
inductive Kind where
  | flow | anti | output
  deriving DecidableEq

/-- A result of a dependence test, `Dependence` (DependenceAnalysis.h:88-303) between a source and a
destination; `srcW` and `dstW`: an access is a write (otherwise, it is a read). Levels are numbered from 1. -/
structure Dependence (D : Type) where
  confused : Bool
  confusedLevels : Nat
  srcW : Bool
  dstW : Bool
  levels : Nat
  dir : Nat → Dir
  dist : Nat → Option D

variable {D : Type}

/-- `isOutput()` (lib/Analysis/Memory/DependenceAnalysis.cpp:239-241). -/
def Dependence.isOutput (d : Dependence D) : Bool := d.srcW && d.dstW
/-- `isFlow()` (DependenceAnalysis.cpp:245-247). -/
def Dependence.isFlow (d : Dependence D) : Bool := d.srcW && !d.dstW
/-- `isAnti()` (DependenceAnalysis.cpp:251-253). -/
def Dependence.isAnti (d : Dependence D) : Bool := !d.srcW && d.dstW

/-- Operations of `ScalarEvolution` on distances. -/
structure SE (D : Type) where
  neg : D → D
  smax2 : D → D → D
  umin : List D → D
  umax : List D → D
  smin : List D → D
  smax : List D → D

/-- `DistanceInfo::Apply` (PrivateAnalysis.cpp:134-161), exactly one flag is set. -/
inductive Transform where
  | notChange | revert | extend
  deriving DecidableEq

/-- `DistanceInfo` (PrivateAnalysis.cpp:163-172), `none` if `Dep` is null. -/
structure DistInfo (D : Type) where
  dep : Dependence D
  level : Nat
  transform : Transform

/-- Information about dependencies of one kind: fields of `DependenceImp` (PrivateAnalysis.cpp:364-376):
the flag `UnknownDistance`, `mKnownDistanceLevel` and `mDists`. -/
structure TD (D : Type) where
  unknown : Bool
  known : Option Nat
  dists : List (List D)

/-- `SmallVector::resize()`. -/
def resize {α : Type} (l : List (List α)) (n : Nat) : List (List α) :=
  l.take n ++ List.replicate (n - l.length) []

/-- Distances which are inserted at the level with the specified index (PrivateAnalysis.cpp:281-294). -/
def SE.apply (se : SE D) (tr : Transform) (idx : Nat) (d : D) : List D :=
  match tr with
  | .notChange => [d]
  | .revert => [se.neg d]
  | .extend => if idx = 0 then [se.smax2 (se.neg d) d] else [d, se.neg d]

/-- Insertion at a level (PrivateAnalysis.cpp:279-280): a level is created if it does not exist. -/
def insertAt (l : List (List D)) (idx : Nat) (ds : List D) : List (List D) :=
  (if idx = l.length then l ++ [[]] else l).modify idx (· ++ ds)

/-- The loop over levels (PrivateAnalysis.cpp:269-295), `idx` is `I - mDist.Level`. -/
def TD.loop (se : SE D) (tr : Transform) : TD D → Nat → List (Option D) → TD D
  | t, _, [] => t
  | t, idx, none :: _ =>
    ⟨t.unknown || idx = 0, some idx, resize t.dists idx⟩
  | t, idx, some d :: ds =>
    TD.loop se tr ⟨t.unknown, t.known, insertAt t.dists idx (se.apply tr idx d)⟩ (idx + 1) ds

/-- Levels which are visited by the loop (PrivateAnalysis.cpp:265-269). -/
def DistInfo.visited (di : DistInfo D) (known : Option Nat) : List (Option D) :=
  let n := di.dep.levels + 1 - di.level
  let n := match known with
    | some k => min n k
    | none => n
  (List.range n).map (fun idx => di.dep.dist (di.level + idx))

/-- `UpdateFunctor` (PrivateAnalysis.cpp:253-301), `fu`: the flag `UnknownDistance` is set in `mFlag`. -/
def TD.update (se : SE D) (t : TD D) (fu : Bool) (di : Option (DistInfo D)) : TD D :=
  let unknown := t.unknown || fu
  match di with
  | none => ⟨true, some 0, []⟩
  | some di =>
    if unknown then ⟨true, some 0, []⟩
    else TD.loop se di.transform ⟨unknown, t.known, t.dists⟩ 0 (di.visited t.known)

/-- `mKnownDistanceLevel` of a merged description (PrivateAnalysis.cpp:310-315), `b` is the source. -/
def mergeKnown (a b : Option Nat) : Option Nat :=
  match b with
  | some b' =>
    match a with
    | some a' => some (min b' a')
    | none => some b'
  | none => a

/-- `MergedLevel` (PrivateAnalysis.cpp:316-320), `n` is a number of levels in the source. -/
def mergeLevel (known : Option Nat) (n : Nat) : Nat :=
  match known with
  | some k => min k n
  | none => n

/-- The first levels are created if they do not exist (PrivateAnalysis.cpp:321-322). -/
def extendTo (l : List (List D)) (m : Nat) : List (List D) := if l.length < m then resize l m else l

/-- `UpdateDepFunctor` (PrivateAnalysis.cpp:304-334). -/
def TD.merge (t s : TD D) : TD D :=
  if t.unknown || s.unknown then ⟨true, some 0, []⟩
  else
    let known := mergeKnown t.known s.known
    let m := mergeLevel known s.dists.length
    ⟨false, known, (extendTo t.dists m).mapIdx (fun i l => if i < m then l ++ s.dists.getD i [] else l)⟩

/-- `DependenceImp` (PrivateAnalysis.cpp:179-378). -/
structure Imp (D : Type) where
  dptr : Kind → Bool
  td : Kind → TD D

/-- A new description (PrivateAnalysis.cpp:425-426). -/
def Imp.init : Imp D := ⟨fun _ => false, fun _ => ⟨false, none, []⟩⟩

/-- `DependenceImp::update()` (PrivateAnalysis.cpp:232-237). -/
def Imp.update (se : SE D) (m : Imp D) (ks : Kind → Bool) (fu : Bool) (di : Option (DistInfo D)) : Imp D :=
  ⟨fun k => m.dptr k || ks k, fun k => if ks k then (m.td k).update se fu di else m.td k⟩

/-- `DependenceImp::update()` from another description (PrivateAnalysis.cpp:239-241). -/
def Imp.merge (m s : Imp D) : Imp D :=
  ⟨fun k => m.dptr k || s.dptr k, fun k => if s.dptr k then (m.td k).merge (s.td k) else m.td k⟩

/-- A reported range of distances for each level (`SummarizeFunctor`, PrivateAnalysis.cpp:196-227),
`none` if distances are unknown, an access to the first level of an empty nest is undefined (`some none`). -/
def TD.summarize (se : SE D) (t : TD D) : Option (Option (List (D × D))) :=
  if t.unknown then none
  else
    match t.dists with
    | [] => some none
    | l :: ls => some (some ((se.umin l, se.umax l) :: ls.map (fun l => (se.smin l, se.smax l))))

variable {E : Type} [DecidableEq E]

/-- `DependenceMap`. -/
abbrev Deps (D E : Type) := E → Option (Imp D)

/-- `updateDependence()` (PrivateAnalysis.cpp:418-429). -/
def updateDependence (se : SE D) (e : E) (ks : Kind → Bool) (fu : Bool) (di : Option (DistInfo D))
    (deps : Deps D E) : Deps D E :=
  fun x => if x = e then some (((deps e).getD Imp.init).update se ks fu di) else deps x

/-- `mergeDependence()` (PrivateAnalysis.cpp:439-460); `dependency`: the trait of the target is
`Dependency`. -/
def mergeDependence (tgt : E) (dependency : Bool) (from_ : E) (deps : Deps D E) : Deps D E :=
  match deps from_ with
  | none =>
    if dependency then fun x => if x = tgt then some ((deps tgt).getD Imp.init) else deps x else deps
  | some s => fun x => if x = tgt then some (((deps tgt).getD Imp.init).merge s) else deps x

/-- A set of all kinds. -/
def allKinds : Kind → Bool := fun _ => true

/-- Kinds and a transformation of distances for a dependence in the loop at the level `depth`
(PrivateAnalysis.cpp:575-608), `none` if there is no carried dependence. -/
def classify (d : Dependence D) (depth : Nat) : Option ((Kind → Bool) × Transform) :=
  if d.dir depth = .EQ then none
  else if d.isOutput then
    some (fun k => k = .output, if d.dir depth = .GT ∨ d.dir depth = .GE then .revert else .notChange)
  else if d.dir depth = .ALL then some (fun k => k = .flow || k = .anti, .extend)
  else if d.isFlow then
    if d.dir depth = .LT ∨ d.dir depth = .LE then some (fun k => k = .flow, .notChange)
    else some (fun k => k = .anti, .revert)
  else if d.isAnti then
    if d.dir depth = .LT ∨ d.dir depth = .LE then some (fun k => k = .anti, .notChange)
    else some (fun k => k = .flow, .revert)
  else some (fun k => k = .flow || k = .anti, .extend)

/-- The check of directions in outer loops (PrivateAnalysis.cpp:564-574): the loop visits levels from
`max confusedLevels 1` to `depth - 1`. -/
def outerOK (d : Dependence D) (depth : Nat) : Bool :=
  let start := if d.confusedLevels > 0 then d.confusedLevels else 1
  (List.range' start (depth - start)).all (fun l =>
    d.dir l = .EQ || d.dir l = .ALL || d.dir l = .LE || d.dir l = .GE)

/-- `insertDependence()` (PrivateAnalysis.cpp:549-615): `src` and `dst` are estimate memory locations of
accesses. -/
def insertDependence (se : SE D) (d : Dependence D) (src dst : E) (depth : Nat) (deps : Deps D E) : Deps D E :=
  if d.confused || decide (d.confusedLevels ≥ depth) then
    updateDependence se dst allKinds false none (updateDependence se src allKinds false none deps)
  else if !outerOK d depth then deps
  else
    match classify d depth with
    | none => deps
    | some (ks, tr) =>
      let di : DistInfo D := ⟨d, depth, tr⟩
      updateDependence se dst ks false (some di) (updateDependence se src ks false (some di) deps)

/-- Instructions of a loop and results of external analyses. `ls`: an unordered load or store with its
location (`true` for a store); `memLocs`: locations which are visited by `for_each_memory` and are
accessed; `modref`: `getModRefInfo() != NoModRef`; `find`: the estimate memory for a location. -/
structure Prog (I L E D : Type) where
  nomem : I → Bool
  marker : I → Bool
  ls : I → Option (L × Bool)
  memLocs : I → List L
  modref : I → L → Bool
  find : L → E
  depends : I → I → Option (Dependence D) × Nat

variable {I L : Type}

/-- The body of the loop over pairs of instructions (PrivateAnalysis.cpp:626-736). -/
def collectPair (se : SE D) (P : Prog I L E D) (depth : Nat) (src dst : I) (deps : Deps D E) : Deps D E :=
  if P.nomem src then deps
  else
    match P.ls src with
    | none =>
      if P.marker src || P.nomem dst || P.marker dst then deps
      else
        (P.memLocs src ++ P.memLocs dst).foldl (fun deps l =>
          if P.modref src l && P.modref dst l then updateDependence se (P.find l) allKinds true none deps
          else deps) deps
    | some (l, w) =>
      match P.ls dst with
      | none =>
        if P.nomem dst || P.marker dst || !P.modref dst l then deps
        else updateDependence se (P.find l) allKinds true none deps
      | some (l', w') =>
        if !w && !w' then deps
        else
          match P.depends src dst with
          | (some d, _) => insertDependence se d (P.find l) (P.find l') depth deps
          | (none, c) =>
            if depth ≤ c then
              updateDependence se (P.find l') allKinds false none
                (updateDependence se (P.find l) allKinds false none deps)
            else deps

/-- `collectDependencies()` (PrivateAnalysis.cpp:617-739): a destination is the source or a subsequent
instruction in the list. -/
def collect (se : SE D) (P : Prog I L E D) (depth : Nat) : List I → Deps D E → Deps D E
  | [], deps => deps
  | x :: xs, deps =>
    collect se P depth xs ((x :: xs).foldl (fun deps y => collectPair se P depth x y deps) deps)

end Dep
end Tsar
