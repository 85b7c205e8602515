import Verif.Parallel.Model

/-!
# Combination of metadata-level dependencies

Models `moveIf`, `combineIf`, `clarifyDescriptor`, `clarify`, `addOrUpdateInPool`, `combineWith` and
`DIMemoryTraitHandle::allUsesReplacedWith` (lib/Analysis/Memory/DIDependenceAnalysis.cpp:103-505, 2589-2652).

Simplifications:

* The external class `bcl::TraitSet` is represented by a descriptor (see `BitTrait.Dptr`) and by values attached to
  flow, anti and output dependencies. A value which is attached to a trait is lost if the trait is unset
  (comments in DIDependenceAnalysis.cpp:304-307, 365, 490).
* A bound of a distance is `none` if it is unknown or if it is not a constant (`dyn_cast_or_null<SCEVConstant>`).
  Constants are integers: `APSInt` values of one level have the same width and signedness
  (unsigned for the level 0 and signed for other ones).
* Causes (debug locations and functions) are not modelled, flags of causes are modelled.
* The flag `UnknownDistance` is calculated by constructors of `DIDependence`, so it is a function of distances.
-/

namespace Tsar
namespace DIDep

open BitTrait Parallel

/-- Template parameter `Tag` of `moveIf` and `combineIf` (DIDependenceAnalysis.cpp:136-138). -/
inductive Tag where
  | flow | anti | output
  deriving DecidableEq, Repr

/-- The trait which is denoted by a tag. -/
def Tag.dep : Tag → DepTrait
  | .flow => .flow
  | .anti => .anti
  | .output => .output

/-- Flags of a dependence except of `UnknownDistance` (MemoryTrait.h:90-107). -/
structure Flags where
  may : Bool
  loadStore : Bool
  call : Bool
  unknown : Bool
  confused : Bool
  deriving DecidableEq, Repr

/-- Bitwise or of flags. -/
def Flags.or (a b : Flags) : Flags :=
  ⟨a.may || b.may, a.loadStore || b.loadStore, a.call || b.call, a.unknown || b.unknown, a.confused || b.confused⟩

/-- `F | UnknownCause` without `May` (for example, DIDependenceAnalysis.cpp:199-201). -/
def Flags.weaken (a : Flags) : Flags := { a with unknown := true, may := false }

/-- `F = A | B; if (!A.isMay() || !B.isMay()) F &= ~May` (DIDependenceAnalysis.cpp:205-207, 273-275). -/
def Flags.join (a b : Flags) : Flags :=
  if !a.may || !b.may then { a.or b with may := false } else a.or b

/-- The lowest and the highest distances (DIMemoryTrait.h:52-55). -/
abbrev Range := Option Int × Option Int

/-- Representation of a dependence: `DIDependence` (DIMemoryTrait.h:47-110) and `IRDependence`. -/
structure Rep where
  flags : Flags
  dist : List Range
  deriving DecidableEq, Repr

/-- `isKnownDistance()`, the flag is set by the constructor (DIMemoryTrait.h:75-79). -/
def Rep.known (r : Rep) : Bool :=
  match r.dist with
  | [] => false
  | (a, b) :: _ => a.isSome && b.isSome

/-- Metadata-level traits or traits of an estimate memory location. -/
structure Trait where
  dptr : Dptr
  rep : Tag → Option Rep

/-- `is<Tag>()`. -/
def Trait.is (t : Trait) (k : Tag) : Bool := t.dptr.dep k.dep

/-- `hasSpuriousDep`, MemoryTrait.h:286-298. -/
def Trait.spurious (t : Trait) : Bool := hasSpuriousDep t.dptr

/-- `set<Tag>(Value)` of the external trait set: alternatives which conflict with `Tag` are removed. -/
def Trait.set (t : Trait) (k : Tag) (r : Rep) : Trait where
  dptr := { t.dptr with dep := setDep t.dptr.dep k.dep }
  rep := fun j => if j = k then some r else t.rep j

/-- `bcl::trait::update` for a full descriptor: traits are replaced and values of traits which remain set are kept. -/
def Trait.update (t : Trait) (d : Dptr) : Trait where
  dptr := d
  rep := fun k => if d.dep k.dep then t.rep k else none

/-- The loops which drop unknown levels at the end of a vector
(DIDependenceAnalysis.cpp:191-196, 225-230, 287-292). -/
def trim (l : List Range) : List Range :=
  l.foldr (fun x acc => if acc.isEmpty && x.1.isNone && x.2.isNone then [] else x :: acc) []

/-- The lowest of two distances (DIDependenceAnalysis.cpp:211-216, 279-283). -/
def low : Option Int → Option Int → Option Int
  | some a, some b => some (if a ≤ b then a else b)
  | _, _ => none

/-- The highest of two distances (DIDependenceAnalysis.cpp:217-222, 284-288). -/
def high : Option Int → Option Int → Option Int
  | some a, some b => some (if a ≥ b then a else b)
  | _, _ => none

/-- The loop which joins distances of IR-level and metadata-level dependencies (DIDependenceAnalysis.cpp:208-224).
It visits all IR-level levels, and `none` means that `getDistance()` is called for a level which does not exist
(`Distance level is out of range!`). -/
def joinIR : List Range → List Range → Option (List Range)
  | [], _ => some []
  | x :: xs, [] => if x.1.isSome || x.2.isSome then none else (joinIR xs []).map ((none, none) :: ·)
  | x :: xs, y :: ys => (joinIR xs ys).map ((low x.1 y.1, high x.2 y.2) :: ·)

/-- The loop which joins distances of two metadata-level dependencies (DIDependenceAnalysis.cpp:276-288). -/
def joinDI : List Range → List Range → List Range
  | x :: xs, y :: ys => (low x.1 y.1, high x.2 y.2) :: joinDI xs ys
  | _, _ => []

/-- The value which is attached by `combineIf` if IR-level representation of a dependence exists
(DIDependenceAnalysis.cpp:181-235). -/
def combineRep (from' : Rep) (t : Trait) (k : Tag) : Option Rep :=
  match t.rep k with
  | none =>
    if !t.spurious && !t.is k then some ⟨from'.flags, trim from'.dist⟩
    else some ⟨from'.flags.weaken, []⟩
  | some r => (joinIR from'.dist r.dist).map fun l => ⟨from'.flags.join r.flags, trim l⟩

/-- `combineIf` for IR-level traits (DIDependenceAnalysis.cpp:155-240). `none` is undefined behaviour. -/
def combineIf (m : Trait) (k : Tag) (t : Trait) : Option Trait :=
  match m.rep k with
  | some r => (combineRep r t k).map (t.set k)
  | none =>
    match t.rep k with
    | some r => if m.spurious || m.is k then some (t.set k ⟨r.flags.weaken, []⟩) else some t
    | none => some t

/-- The value which is attached by `combineIf` if the first metadata-level representation of a dependence exists
(DIDependenceAnalysis.cpp:257-294). -/
def combineRepDI (from' : Rep) (t : Trait) (k : Tag) : Rep :=
  match t.rep k with
  | none =>
    if !t.spurious && !t.is k then from'
    else ⟨from'.flags.weaken, []⟩
  | some r => ⟨from'.flags.join r.flags, trim (joinDI from'.dist r.dist)⟩

/-- `combineIf` for metadata-level traits (DIDependenceAnalysis.cpp:246-301). -/
def combineIfDI (m : Trait) (k : Tag) (t : Trait) : Trait :=
  match m.rep k with
  | some r => t.set k (combineRepDI r t k)
  | none =>
    match t.rep k with
    | some r => if m.spurious || m.is k then t.set k ⟨r.flags.weaken, []⟩ else t
    | none => t

/-- Final actions of `combineWith` and `allUsesReplacedWith`: `t` is the initial trait and `t'` is the trait after
calls of `combineIf` (DIDependenceAnalysis.cpp:476-497, 2607-2627). The parameter `em` is `true` if indirect accesses
are ignored for directly accessed memory (`combineWith`). `none` is `llvm_unreachable` in `toDescriptor`. -/
def finish (em : Bool) (m t t' : Trait) : Option Trait :=
  (toDescriptor (ofDescriptor t'.dptr &&& ofDescriptor m.dptr)).map fun d =>
    let d1 : Dptr :=
      if m.spurious || t.spurious then d
      else { d with dep := updateDep (fun k => t.dptr.dep k || m.dptr.dep k) d.dep }
    let unit1 : UnitTrait → Bool := fun u => if u = .redundant && d1.unit .noRedundant then false else d1.unit u
    let unit2 : UnitTrait → Bool := fun u =>
      if em && u = .indirectAccess && unit1 .directAccess then false else unit1 u
    (t'.update d).update { d1 with unit := unit2 }

/-- `combineWith` for an estimate memory location (DIDependenceAnalysis.cpp:468-504), `m` is `*MTraitItr` (search
of this element is not modelled). `none` is undefined behaviour. -/
def combineWith (m t : Trait) : Option Trait :=
  (combineIf m .flow t).bind fun t1 => (combineIf m .anti t1).bind fun t2 =>
    (combineIf m .output t2).bind (finish true m t)

/-- `combineWith` for an unknown memory location (DIDependenceAnalysis.cpp:419-431), traits of unknown locations do
not have attached values. -/
def combineUnknown (m : Dptr) (t : Trait) : Option Trait :=
  (toDescriptor (ofDescriptor t.dptr &&& ofDescriptor m)).map fun d =>
    let unit1 : UnitTrait → Bool := fun u => if u = .redundant && d.unit .noRedundant then false else d.unit u
    let unit2 : UnitTrait → Bool := fun u =>
      if u = .indirectAccess && unit1 .directAccess then false else unit1 u
    t.update { d with unit := unit2 }

/-- The fresh trait of a memory location (DIDependenceAnalysis.cpp:1992-1993, 2032-2033). -/
def fresh : Trait := ⟨⟨fun _ => false, fun a => decide (a = .noAccess)⟩, fun _ => none⟩

/-- The loop which combines traits of values which are bound to a memory location
(DIDependenceAnalysis.cpp:2034-2049). -/
def combineAll (ms : List Trait) : Option Trait := ms.foldlM (fun t m => combineWith m t) fresh

/-- `allUsesReplacedWith` for a merged memory which is in the pool (DIDependenceAnalysis.cpp:2604-2630), `m` is the
trait of the replaced memory and `t` is the trait of the new one. -/
def mergePool (m t : Trait) : Option Trait :=
  finish false m t (combineIfDI m .output (combineIfDI m .anti (combineIfDI m .flow t)))

/-- `is_any` for alternatives. -/
def any (d : Dptr) (l : List DepTrait) : Bool := l.any d.dep

/-- `unset<T>()` for alternatives. -/
def unsetDep (d : DepTrait → Bool) (a : DepTrait) : DepTrait → Bool := fun x => d x && decide (x ≠ a)

/-- Changes of `FromDIMTrait` in `clarifyDescriptor` (DIDependenceAnalysis.cpp:310-330). -/
def keepOld (from' old : Dptr) : Dptr where
  unit := fun u =>
    match u with
    | .noPromotedScalar | .addressAccess | .useAfterLoop | .directAccess | .indirectAccess | .explicitAccess =>
      from'.unit u || old.unit u
    | .headerAccess => from'.unit u && old.unit u
    | _ => from'.unit u
  dep := fun a =>
    match a with
    | .flow | .anti | .output => from'.dep a && old.dep a
    | _ => from'.dep a

/-- `clarifyDescriptor` (DIDependenceAnalysis.cpp:308-371): the result and the new descriptor of `DIMTrait`. -/
def clarifyDescriptor (from' old : Dptr) : Bool × Dptr :=
  let f := keepOld from' old
  if any old [.noAccess, .readonly] then (false, old)
  else if old.dep .shared && !any f [.noAccess, .readonly] then (false, old)
  else if any old [.priv, .induction, .reduction] && !any f [.noAccess, .readonly, .shared] then (false, old)
  else if old.dep .secondToLastPrivate && f.dep .lastPrivate then
    if f.dep .shared && !old.dep .shared then (true, { old with dep := setDep old.dep .shared })
    else (false, old)
  else
    let changed := !f.dep .firstPrivate && old.dep .firstPrivate
    let old1 : Dptr := if changed then { old with dep := unsetDep old.dep .firstPrivate } else old
    if any old1 [.secondToLastPrivate, .lastPrivate] && !any f [.noAccess, .readonly, .shared, .priv] then
      (changed, old1)
    else if old1.dep .dynamicPrivate &&
        !any f [.noAccess, .readonly, .shared, .priv, .secondToLastPrivate, .lastPrivate] then
      (changed, old1)
    else (true, f)

/-- `moveIf` (DIDependenceAnalysis.cpp:134-150), `from'` is the value attached to the first trait after
`clarifyDescriptor`. -/
def moveIf (from' : Option Rep) (isSet : Bool) (old : Option Rep) : Option Rep :=
  if !isSet then old
  else
    match from' with
    | none => old
    | some r =>
      match old with
      | some o => if o.known then some o else some r
      | none => some r

/-- `clarify` (DIDependenceAnalysis.cpp:376-384). Values attached to dependencies which are unset in the first trait
are lost before `moveIf`. -/
def clarify (from' old : Trait) : Trait :=
  let (b, d) := clarifyDescriptor from'.dptr old.dptr
  let t := old.update d
  if b then
    { t with rep := fun k =>
        moveIf (if (keepOld from'.dptr old.dptr).dep k.dep then from'.rep k else none) (t.is k) (t.rep k) }
  else t

/-- `isLockedTrait` (DIDependenceAnalysis.cpp:116-129), `reach n m` is `!isUnreachable(n, m)` for alias nodes. -/
def isLocked {N : Type} (reach : N → N → Bool) (locked : List N) (lock : Bool) (n : N) : Bool :=
  if lock then true else locked.any fun m => reach n m

/-- `addOrUpdateInPool` (DIDependenceAnalysis.cpp:392-406) for a trait in the pool (if any): the new trait and the second
element of the result. -/
def addOrUpdate (old : Option Trait) (d : Dptr) (locked : Bool) : Trait × Bool :=
  match old with
  | none => (⟨d, fun _ => none⟩, true)
  | some t =>
    if !locked then (t.update (clarifyDescriptor d t.dptr).2, !(clarifyDescriptor d t.dptr).1) else (t, !false)

end DIDep
end Tsar
