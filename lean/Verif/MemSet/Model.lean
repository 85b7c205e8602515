import Verif.Range.Model

/-!
# Model of sets of memory locations

Models `include/tsar/Analysis/Memory/MemorySetInfo.h` (specialization for
`MemoryLocationRange`) and `include/tsar/Analysis/Memory/MemorySet.h`.

Simplifications: `LocationSize` is `Option Nat` (no difference between precise sizes and
upper bounds, one kind of unknown size); AATags are not modelled; `uint64_t` arithmetic of
starts, steps and trip counts is unbounded.
-/

namespace Tsar.MemSet

open Tsar.Range

/-- `sizecmp(LHS, RHS) < 0`, MemorySetInfo.h:106-120: an unknown size is greater than any
known one, two unknown sizes are equal. -/
def sizeLt : Option Nat → Option Nat → Bool
  | none, _ => false
  | some _, none => true
  | some a, some b => decide (a < b)

/-- `sizecmp(LHS, RHS) <= 0`, MemorySetInfo.h:106-120. -/
def sizeLe : Option Nat → Option Nat → Bool
  | _, none => true
  | none, some _ => false
  | some a, some b => decide (a ≤ b)

/-- Body of the loop of `areJoinable`, MemorySetInfo.h:242-249: whether two different
dimensions are joinable. -/
def dimJoinable (l r : Dim) : Bool :=
  !(decide (l.step ≠ r.step) ||
    (decide (l.start ≥ r.start) && decide ((l.start - r.start) % l.step ≠ 0)) ||
    (decide (r.start ≥ l.start) && decide ((r.start - l.start) % l.step ≠ 0)) ||
    (decide (l.last < r.start) && decide (r.start - l.last ≠ l.step)) ||
    (decide (r.last < l.start) && decide (l.start - r.last ≠ l.step)))

/-- Loop of `areJoinable`, MemorySetInfo.h:232-252, for lists of the same length: `none` if
some dimension is not joinable, otherwise `JoinableDimCount`. -/
def joinableCount : List Dim → List Dim → Option Nat
  | l :: ls, r :: rs =>
    if l = r then joinableCount ls rs
    else if dimJoinable l r then (joinableCount ls rs).map (· + 1)
    else none
  | _, _ => some 0

/-- `areJoinable`, MemorySetInfo.h:222-253. Locations with different pointers are never passed
to this function (the assertion of line 224). -/
def areJoinable (l r : Loc) : Bool :=
  if l.dims.length ≠ r.dims.length ∨ l.kind ≠ r.kind then false
  else if l.dims = [] then sizeLe r.lower l.upper && sizeLe l.lower r.upper
  else match joinableCount l.dims r.dims with
    | none => false
    | some n => decide (n ≤ 1)

/-- Body of the loop of `join`, MemorySetInfo.h:272-284, without `IsChanged`. -/
def joinDim (what to : Dim) : Dim :=
  let to := if what.start < to.start then
      { to with trip := to.trip + (to.start - what.start) / what.step, start := what.start }
    else to
  if what.last > to.last then { to with trip := to.trip + (what.last - to.last) / what.step }
  else to

/-- Whether the body of the loop of `join` sets `IsChanged`, MemorySetInfo.h:277, 283. -/
def joinDimChanged (what to : Dim) : Bool :=
  let to' := if what.start < to.start then
      { to with trip := to.trip + (to.start - what.start) / what.step, start := what.start }
    else to
  decide (what.start < to.start) || decide (what.last > to'.last)

/-- Loop of `join` over dimensions, MemorySetInfo.h:271-285. -/
def joinDims : List Dim → List Dim → List Dim
  | w :: ws, t :: ts => joinDim w t :: joinDims ws ts
  | _, ts => ts

/-- `IsChanged` after the loop over dimensions, MemorySetInfo.h:271-285. -/
def joinDimsChanged : List Dim → List Dim → Bool
  | w :: ws, t :: ts => joinDimChanged w t || joinDimsChanged ws ts
  | _, _ => false

/-- `join(What, To)`, MemorySetInfo.h:254-288: the new value of `To`. -/
def join (what to : Loc) : Loc :=
  if to.dims.length ≠ what.dims.length then to
  else if to.dims = [] then
    { to with upper := if sizeLt to.upper what.upper then what.upper else to.upper,
              lower := if sizeLt what.lower to.lower then what.lower else to.lower }
  else { to with dims := joinDims what.dims to.dims }

/-- `join(What, To)`, MemorySetInfo.h:254-288: the returned value `IsChanged`. -/
def joinChanged (what to : Loc) : Bool :=
  if to.dims.length ≠ what.dims.length then false
  else if to.dims = [] then sizeLt to.upper what.upper || sizeLt what.lower to.lower
  else joinDimsChanged what.dims to.dims

/-- `setNonCollapsable`, MemorySetInfo.h:300-303. -/
def setNonCollapsable (l : Loc) : Loc := { l with kind := ⟨true, false, l.kind.hint⟩ }

/-- A set of memory locations: `MapTy` of MemorySet.h:48-51 as an association list from
pointers to lists of locations; the order of pairs is the iteration order of the map. -/
abbrev MSet := List (Option Nat × List Loc)

/-- `mLocations.find(Ptr)->second`; the empty list if there is no such key. -/
def locs (s : MSet) (p : Option Nat) : List Loc :=
  match s.find? fun e => decide (e.1 = p) with
  | some e => e.2
  | none => []

/-- Number of increments of `InsertItr`, MemorySet.h:303-326, when no location is joinable:
on each of `n` iterations the location at `InsertItr` is compared with the new one. -/
def insertPos (loc : Loc) : (n : Nat) → List Loc → Nat
  | 0, _ => 0
  | _ + 1, [] => 0
  | n + 1, c :: cs =>
    if loc.dims.length = 0 ∧ c.dims.length = 0 ∧ sizeLe c.lower loc.lower then
      insertPos loc n cs + 1
    else 0

/-- Insertion of `loc` to the list of locations with the same pointer, MemorySet.h:302-330.
Returns the new list and the boolean result. The returned iterator is not modelled. -/
def insertList (ls : List Loc) (loc : Loc) : List Loc × Bool :=
  match ls.findIdx? fun c => areJoinable c loc with
  | some i =>
    match ls[i]? with
    | some c => (ls.set i (join loc c), joinChanged loc c)
    | none => (ls, false)
  | none =>
    let pos := if loc.dims.length > 0 then ls.length else insertPos loc ls.length ls
    (ls.insertIdx pos loc, true)

/-- Replacement of a list in the map. -/
def setLocs (s : MSet) (p : Option Nat) (ls : List Loc) : MSet :=
  s.map fun e => if e.1 = p then (p, ls) else e

/-- `MemorySet::insert(Loc)`, MemorySet.h:294-331. -/
def insert (s : MSet) (loc : Loc) : MSet × Bool :=
  if s.any fun e => decide (e.1 = loc.ptr) then
    let r := insertList (locs s loc.ptr) loc
    (setLocs s loc.ptr r.1, r.2)
  else (s ++ [(loc.ptr, [loc])], true)

/-- `MemorySet::insert(LocBegin, LocEnd)`, MemorySet.h:335-342. -/
def insertAll (s : MSet) : List Loc → MSet × Bool
  | [] => (s, false)
  | l :: ls =>
    let r := insert s l
    let q := insertAll r.1 ls
    (q.1, q.2 || r.2)

/-- All locations in the order of iteration, MemorySet.h:80-116. -/
def allLocs (s : MSet) : List Loc := s.flatMap fun e => e.2

section Intersect

/-- Default `Threshold`, MemoryLocationRange.h:214. -/
def threshold : Nat := 10

variable (S : Solver)

/-- Locations added to `NewTails` for one tail, MemorySet.h:175-179 (and to `NewLocsToSub`,
MemorySet.h:260-265). A failed assertion is not distinguished here; it is proved that there are
no failed assertions for well-formed locations. -/
def tailStep (curr t : Loc) : List Loc :=
  match intersect S false true threshold curr t with
  | (.exact _, _, rc) => rc
  | (_, _, rc) => rc ++ [t]

/-- One step of the loops of `findContaining` (MemorySet.h:173-181) and of `subtractFrom`
(MemorySet.h:258-267): new tails. -/
def stepTails (curr : Loc) (tails : List Loc) : List Loc := tails.flatMap (tailStep S curr)

/-- Loop of `findContaining`, MemorySet.h:169-182 (the early exit on empty tails does not
change the result). -/
def tailsOf : List Loc → List Loc → List Loc
  | [], tails => tails
  | c :: cs, tails => tailsOf cs (stepTails S c tails)

/-- `MemorySet::contain(Loc)`, MemorySet.h:164-193. -/
def contain (s : MSet) (loc : Loc) : Bool :=
  if s.any fun e => decide (e.1 = loc.ptr) then (tailsOf S (locs s loc.ptr) [loc]).isEmpty
  else false

/-- Locations stored to `Locs` by `findCoveredBy(Loc, Locs)`, MemorySet.h:196-211. -/
def coveredBy (s : MSet) (loc : Loc) : List Loc :=
  (locs s loc.ptr).filterMap fun c =>
    match (intersect S false false threshold c loc).1 with
    | .exact m => some m
    | _ => none

/-- Result of `findCoveredBy` and of `cover`, MemorySet.h:196-218. -/
def cover (s : MSet) (loc : Loc) : Bool :=
  (locs s loc.ptr).any fun c => decide ((intersect S false false threshold c loc).1 ≠ .none)

/-- `MemorySet::overlap(Loc)`, MemorySet.h:234-244, 275-277. -/
def overlap (s : MSet) (loc : Loc) : Bool :=
  (locs s loc.ptr).any fun c => decide ((intersect S false false threshold c loc).1 ≠ .none)

/-- `subtractFrom(Loc, Locs)`, MemorySet.h:248-271: the returned value and the new value of
`Locs` (`none`: it is not changed). -/
def subtractFrom (s : MSet) (loc : Loc) : Bool × Option (List Loc) :=
  if s.any fun e => decide (e.1 = loc.ptr) then
    (go (locs s loc.ptr) [loc], some (tailsOf S (locs s loc.ptr) [loc]))
  else (false, none)
where
  /-- Whether an exact intersection was found on some iteration, MemorySet.h:254, 262-263. -/
  go : List Loc → List Loc → Bool
    | [], _ => false
    | c :: cs, tails =>
      (tails.any fun t => match (intersect S false true threshold c t).1 with
        | .exact _ => true
        | _ => false) || go cs (stepTails S c tails)

/-- Body of the loop of `MemorySet::intersect`, MemorySet.h:353-360. -/
def intersectStep (w : MSet) (acc : MSet × Bool) (loc : Loc) : MSet × Bool :=
  if contain S w loc then ((insert acc.1 loc).1, acc.2)
  else
    let r := insertAll acc.1 (coveredBy S w loc)
    (r.1, acc.2 || r.2)

/-- `MemorySet::intersect(With)` for different objects, MemorySet.h:345-364. -/
def intersectSet (s w : MSet) : MSet × Bool :=
  (allLocs s).foldl (intersectStep S w) ([], false)

/-- `MemorySet::merge(With)` for different objects, MemorySet.h:367-375. -/
def merge (s w : MSet) : MSet × Bool :=
  (allLocs w).foldl (fun acc loc => let r := insert acc.1 loc; (r.1, acc.2 || r.2)) (s, false)

/-- `MemorySet::clarify(From)`, MemorySet.h:384-407. -/
def clarify (s : MSet) (from_ : List (Loc × Loc)) : MSet :=
  let new := from_.filterMap fun p =>
    if (locs s p.2.ptr).any fun c =>
        match (intersect S false false threshold c p.2).1 with
        | .exact _ => true
        | _ => false
    then none else some (setNonCollapsable p.1)
  (insertAll s new).1

/-- `difference(LocBegin, LocEnd, LocSet, Result)`, MemorySet.h:67-77: locations passed to
`Result.insert`. -/
def difference (ls : List Loc) (s : MSet) : List Loc :=
  if s = [] then ls else ls.filter fun l => !overlap S s l

end Intersect

/-- Loop of `sanitize`, MemorySet.h:423-441; `back` is `Locs.back()`. -/
def sanitizeFrom (back : Loc) : List Loc → List Loc
  | [] => [back]
  | c :: cs =>
    if sizeLt c.lower back.upper && sizeLt back.lower c.upper then
      sanitizeFrom
        { back with
          lower := if sizeLt back.lower c.lower then back.lower else c.lower,
          upper := if sizeLt c.upper back.upper then back.upper else c.upper } cs
    else back :: sanitizeFrom c cs

/-- `sanitize`, MemorySet.h:420-442: the first location is pushed and then visited again;
`none` = the list is empty, the code dereferences its end. -/
def sanitize : List Loc → Option (List Loc)
  | [] => none
  | c :: cs => some (sanitizeFrom c (c :: cs))

/-- `MemorySet::operator==` for different objects, MemorySet.h:415-454. -/
def eqSet (s t : MSet) : Bool :=
  decide (s.length = t.length) && s.all fun e =>
    (t.any fun f => decide (f.1 = e.1)) &&
    decide (sanitize e.2 = sanitize (locs t e.1))

end Tsar.MemSet
