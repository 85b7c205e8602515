import Verif.Alias.Relation
import Verif.MemSet.Props

/-!
# Definitions and uses in a basic block

Models construction of a def-use set of a basic block (`DataFlowTraits<ReachDFFwk*>::initialize()`,
`AddKnownAccessFunctor`, `AddUnknownAccessFunctor`, lib/Analysis/Memory/DefinedMemory.cpp, and `for_each_memory()`,
include/tsar/Analysis/Memory/MemoryAccessUtils.h), property C89.
-/

namespace Tsar
namespace DefUse

open Tsar.Range Tsar.MemSet

/-! ## Model -/

/-- `AccessInfo` (MemoryAccessUtils.h:38). -/
inductive Info where
  | no
  | may
  | must
  deriving DecidableEq, Repr

/-- An access of an instruction (DefinedMemory.cpp:708-808): to a known location, or to unknown memory (there are answers of
`AAResults::getModRefInfo()` about each location). `visited` are locations of nodes which are visited by `for_each_alias()`
in the order of traversal: explicit and alive estimate memory only (DefinedMemory.cpp:213-217, 422-426). `loc.size` has been
already replaced with the size of the found estimate memory (DefinedMemory.cpp:713-716). -/
inductive Acs where
  | known (loc : Alias.Loc) (w r : Info) (visited : List Alias.Loc)
  | unknown (mod ref : Alias.Loc → Bool) (visited : List Alias.Loc)

/-- `DefUseSet` (DefinedMemory.h:79-300): sets of locations only. -/
structure DU where
  defs : MSet := []
  mayDefs : MSet := []
  uses : MSet := []
  deriving DecidableEq, Repr

/-- External functions: alias analysis, the solver of Diophantine equations and `aggregate(nullptr, Loc)` (it is modelled in
`Verif/DefUse/Aggregate`). -/
structure Env where
  A : Alias.Llvm
  S : Solver
  agg : Loc → Loc

/-- Conversion of a `MemoryLocation` to a `MemoryLocationRange` (MemoryLocationRange.h:139-142). -/
def toRange (l : Alias.Loc) : Loc := ⟨some l.ptr, some 0, l.size.value, [], Kind.default⟩

/-- A part of `a` which is accessed through the contained location `m` (DefinedMemory.cpp:437-461). -/
def subRange (A : Alias.Llvm) (m a : Alias.Loc) : Loc :=
  if A.base m.ptr = A.base a.ptr then
    let o := A.offset m.ptr - A.offset a.ptr
    ⟨some a.ptr, some (Alias.u64 o).toNat, m.size.value.map fun (n : Nat) => (Alias.u64 (o + n)).toNat, [], Kind.default⟩
  else ⟨some a.ptr, some 0, m.size.value, [], Kind.default⟩

/-- `aggregate(nullptr, Loc)` and `Loc` are inserted in a set (DefinedMemory.cpp:472-480). -/
def put (E : Env) (s : MSet) (l : Loc) : MSet := (insert (insert s (E.agg l)).1 l).1

/-- Insertion in one of sets of definitions. -/
def putDef (E : Env) (w : Info) (l : Loc) (d : DU) : DU :=
  match w with
  | .no => d
  | .may => { d with mayDefs := put E d.mayDefs l }
  | .must => { d with defs := put E d.defs l }

/-- Insertion in the set of uses. -/
def putUse (E : Env) (r : Info) (l : Loc) (d : DU) : DU :=
  match r with
  | .no => d
  | _ => { d with uses := put E d.uses l }

/-- `addMust()` of functors (DefinedMemory.cpp:488-512), a functor is selected in DefinedMemory.cpp:678-706. -/
def addMust (E : Env) (w r : Info) (l : Loc) (d : DU) : DU := putUse E r l (putDef E w l d)

/-- `addMay()` of functors (DefinedMemory.cpp:488-512). -/
def addMay (E : Env) (w r : Info) (l : Loc) (d : DU) : DU :=
  putUse E r l (putDef E (if w = .no then .no else .may) l d)

/-- An iteration of `AddKnownAccessFunctor::addEstimate()` (DefinedMemory.cpp:425-467). -/
def stepKnown (E : Env) (m : Alias.Loc) (w r : Info) (d : DU) (a : Alias.Loc) : DU :=
  if contain E.S d.defs (toRange a) then d
  else
    let rel := Alias.relation E.A m a
    if rel.cover || rel.coincide then addMust E w r (toRange a) d
    else if rel.contained then
      if contain E.S d.defs (subRange E.A m a) then d else addMust E w r (subRange E.A m a) d
    else if rel.kind ≠ .no then addMay E w r (toRange a) d
    else d

/-- An iteration of `AddUnknownAccessFunctor::addEstimate()` (DefinedMemory.cpp:216-229). Locations are not aggregated
here. -/
def stepUnknown (E : Env) (mod ref : Alias.Loc → Bool) (d : DU) (a : Alias.Loc) : DU :=
  if contain E.S d.defs (toRange a) then d
  else
    let d := if ref a then { d with uses := (insert d.uses (toRange a)).1 } else d
    if mod a then { d with mayDefs := (insert d.mayDefs (toRange a)).1 } else d

/-- An access: there is no traversal if memory is neither read nor written (DefinedMemory.cpp:681-706). -/
def stepAcs (E : Env) (d : DU) : Acs → DU
  | .known m w r visited => visited.foldl (stepKnown E m w r) d
  | .unknown mod ref visited => visited.foldl (stepUnknown E mod ref) d

/-- Instructions of a block: each of them is a list of accesses in the order of `for_each_memory()`. -/
def block (E : Env) (is : List (List Acs)) : DU := is.foldl (fun d as => as.foldl (stepAcs E) d) {}

/-- Accesses of instructions which are not calls (MemoryAccessUtils.h:122-152). -/
inductive Simple where
  | load
  | store
  | atomicRMW
  | cmpXchg
  deriving DecidableEq, Repr

/-- `AccessInfo` for write and read accesses (MemoryAccessUtils.h:128-150): a load does not write memory,
`AtomicRMWInst` and `AtomicCmpXchgInst` read and write memory. -/
def Simple.info : Simple → Info × Info
  | .load => (.no, .must)
  | .store => (.must, .no)
  | .atomicRMW | .cmpXchg => (.must, .must)

/-! ## Specification -/

/-- What an access does in an execution: bytes which are written and bytes which are read (before they are written by the
same access). -/
structure Eff where
  wr : Int → Prop
  rd : Int → Prop

/-- An instruction is a list of accesses, the order in which an instruction makes them is not known. -/
abbrev Ins := List (Acs × Eff)

/-- A byte is written by an instruction. -/
def Ins.Wr (i : Ins) (x : Int) : Prop := ∃ e ∈ i, e.2.wr x

/-- A byte is read by an instruction. -/
def Ins.Rd (i : Ins) (x : Int) : Prop := ∃ e ∈ i, e.2.rd x

/-- A byte is written in a block. -/
def BlockWr (is : List Ins) (x : Int) : Prop := ∃ i ∈ is, i.Wr x

/-- A byte is read in a block before it has been written by previous instructions. -/
def BlockExposed : List Ins → Int → Prop
  | [], _ => False
  | i :: is, x => i.Rd x ∨ (¬ i.Wr x ∧ BlockExposed is x)

/-- Descriptions of accesses are right for locations `all` (explicit locations of the alias tree): a location is accessed if
it is marked so, it is written entirely if this is a must access, locations which are not visited are not accessed. -/
def Acs.Does (addr : Nat → Int) (all : List Alias.Loc) : Acs → Eff → Prop
  | .known m w r visited, e =>
    (∀ x, e.wr x → w ≠ .no ∧ m.bytes addr x) ∧ (∀ x, e.rd x → r ≠ .no ∧ m.bytes addr x) ∧
    (w = .must → ∀ x, m.bytes addr x → e.wr x) ∧
    ∀ a ∈ all, a ∉ visited → ∀ x, a.bytes addr x → ¬ m.bytes addr x
  | .unknown mod ref visited, e =>
    (∀ a ∈ all, a ∈ visited → ∀ x, a.bytes addr x → (e.wr x → mod a = true) ∧ (e.rd x → ref a = true)) ∧
    ∀ a ∈ all, a ∉ visited → ∀ x, a.bytes addr x → ¬ e.wr x ∧ ¬ e.rd x

/-- Accesses of an instruction do not interfere: memory which is overwritten by an access is not read by accesses which are
processed after it. -/
def NoInterference (i : Ins) : Prop := i.Pairwise fun e f => ∀ x, e.2.wr x → ¬ f.2.rd x

/-- Byte `b` of the location `a`. -/
def HasByte (a : Alias.Loc) (b : Nat) : Prop := ∀ n, a.size.value = some n → b < n

/-- The set describes a block which is executed: definitions are written, all written bytes of locations are definitions or
possible definitions, all exposed bytes are uses. -/
structure Describes (addr : Nat → Int) (all : List Alias.Loc) (d : DU) (wr ex : Int → Prop) : Prop where
  defs : ∀ p b, SetByte d.defs (some p) b → wr (addr p + b)
  mayDefs : ∀ a ∈ all, ∀ b, HasByte a b → wr (addr a.ptr + b) →
    SetByte d.defs (some a.ptr) b ∨ SetByte d.mayDefs (some a.ptr) b
  uses : ∀ a ∈ all, ∀ b, HasByte a b → ex (addr a.ptr + b) → SetByte d.uses (some a.ptr) b

/-- The contract of `aggregate(nullptr, Loc)`: a well-formed location with the same bytes (it may have another pointer). -/
def AggOK (addr : Nat → Int) (ob : Option Nat → Obj) (agg : Loc → Loc) (l : Loc) : Prop :=
  WfLoc (ob (agg l).ptr) (agg l) ∧
  ∀ p b, (agg l).ptr = some p → Reach (agg l) b → ∃ q b', l.ptr = some q ∧ Reach l b' ∧ addr p + b = addr q + b'

/-- Well-formed locations. -/
def LocOK (addr : Nat → Int) (ob : Option Nat → Obj) (agg : Loc → Loc) (l : Loc) : Prop :=
  WfLoc (ob l.ptr) l ∧ AggOK addr ob agg l

/-- Assumptions about a pair of locations: sizes and offsets are representable (see C37), pointers with the same address of
a base have the same base, ranges of bytes are well-formed. -/
structure PairOK (E : Env) (addr : Nat → Int) (ob : Option Nat → Obj) (m a : Alias.Loc) : Prop where
  fits : Alias.Fits E.A m a
  side : Alias.SameSide E.A m a
  base : (Alias.relation E.A m a).kind = .partial_ → (Alias.relation E.A m a).contained = true →
    E.A.base m.ptr = E.A.base a.ptr
  whole : LocOK addr ob E.agg (toRange a)
  size : ∀ n, m.size.value = some n → n < 2 ^ 62
  part : (Alias.relation E.A m a).contained = true → LocOK addr ob E.agg (subRange E.A m a)

/-- Assumptions about an access. -/
def Acs.OK (E : Env) (addr : Nat → Int) (ob : Option Nat → Obj) : Acs → Prop
  | .known m _ _ visited => ∀ a ∈ visited, PairOK E addr ob m a
  | .unknown _ _ visited => ∀ a ∈ visited, WfLoc (ob (some a.ptr)) (toRange a)

/-! ## Lemmas -/

theorem reach_toRange {a : Alias.Loc} {b : Nat} : Reach (toRange a) b ↔ HasByte a b := by
  simp [Reach, toRange, HasByte, Kind.default]

theorem bytes_hasByte {addr : Nat → Int} {a : Alias.Loc} {b : Nat} (h : HasByte a b) : a.bytes addr (addr a.ptr + b) := by
  unfold Alias.Loc.bytes Alias.Size.bytes
  unfold HasByte at h
  cases hs : a.size <;> simp only [hs, Alias.Size.value] at h ⊢
  · have := h _ rfl; omega
  · have := h _ rfl; omega
  · omega

theorem put_spec {E : Env} {addr : Nat → Int} {ob : Option Nat → Obj} {s : MSet} {l : Loc} (hs : SetWf ob s)
    (hl : LocOK addr ob E.agg l) : SetWf ob (put E s l) ∧
      ∀ p b, SetByte (put E s l) p b ↔
        (SetByte s p b ∨ (p = (E.agg l).ptr ∧ Reach (E.agg l) b)) ∨ (p = l.ptr ∧ Reach l b) := by
  obtain ⟨h1, h2, -⟩ := insert_spec hs hl.2.1
  obtain ⟨h3, h4, -⟩ := insert_spec h1 hl.1
  refine ⟨h3, fun p b => ?_⟩
  rw [put, h4, h2]

/-- The bytes which are added belong to `P` if the bytes of the location belong to it. -/
theorem put_sub {E : Env} {addr : Nat → Int} {ob : Option Nat → Obj} {s : MSet} {l : Loc} (hs : SetWf ob s)
    (hl : LocOK addr ob E.agg l) {q : Nat} (hq : l.ptr = some q) {P : Int → Prop}
    (hP : ∀ b, Reach l b → P (addr q + b)) {p : Nat} {b : Nat} (h : SetByte (put E s l) (some p) b) :
    SetByte s (some p) b ∨ P (addr p + b) := by
  rw [(put_spec hs hl).2] at h
  rcases h with (h | ⟨h, hr⟩) | ⟨h, hr⟩
  · exact .inl h
  · obtain ⟨q', b', h1, h2, h3⟩ := hl.2.2 p b h.symm hr
    rw [hq] at h1
    cases h1
    rw [h3]
    exact .inr (hP _ h2)
  · rw [hq] at h
    cases h
    exact .inr (hP _ hr)

/-- The state of the traversal of locations: `T` are bytes which have been written before the access, `w`, `r` and `B` are
attributes of the access and its bytes, `done` are visited locations. -/
structure Mid (addr : Nat → Int) (ob : Option Nat → Obj) (all : List Alias.Loc) (T wr ex : Int → Prop) (w r : Info)
    (B : Int → Prop) (done : List Alias.Loc) (d : DU) : Prop where
  wfD : SetWf ob d.defs
  wfM : SetWf ob d.mayDefs
  wfU : SetWf ob d.uses
  defs : ∀ p b, SetByte d.defs (some p) b → T (addr p + b) ∨ (w = .must ∧ B (addr p + b))
  known : ∀ p b, SetByte d.defs (some p) b → T (addr p + b) ∨ (r ≠ .no → SetByte d.uses (some p) b)
  mayDefs : ∀ a ∈ all, ∀ b, HasByte a b → wr (addr a.ptr + b) →
    SetByte d.defs (some a.ptr) b ∨ SetByte d.mayDefs (some a.ptr) b
  uses : ∀ a ∈ all, ∀ b, HasByte a b → ex (addr a.ptr + b) → SetByte d.uses (some a.ptr) b
  newDefs : ∀ a ∈ done, ∀ b, HasByte a b → B (addr a.ptr + b) → w ≠ .no →
    SetByte d.defs (some a.ptr) b ∨ SetByte d.mayDefs (some a.ptr) b
  newUses : ∀ a ∈ done, ∀ b, HasByte a b → B (addr a.ptr + b) → r ≠ .no → ¬ T (addr a.ptr + b) →
    SetByte d.uses (some a.ptr) b

section
variable {E : Env} {addr : Nat → Int} {ob : Option Nat → Obj} {all : List Alias.Loc} {T wr ex : Int → Prop} {w r : Info}
  {B : Int → Prop} {done : List Alias.Loc} {d : DU}

/-- Nothing is added: bytes of the location have been already defined. -/
theorem Mid.skip (h : Mid addr ob all T wr ex w r B done d) {a : Alias.Loc}
    (ha : ∀ b, HasByte a b → B (addr a.ptr + b) → SetByte d.defs (some a.ptr) b) :
    Mid addr ob all T wr ex w r B (a :: done) d := by
  refine { h with newDefs := ?_, newUses := ?_ }
  · intro a' ha' b hb hB hw
    rcases List.mem_cons.1 ha' with rfl | hm
    · exact .inl (ha b hb hB)
    · exact h.newDefs a' hm b hb hB hw
  · intro a' ha' b hb hB hr hT
    rcases List.mem_cons.1 ha' with rfl | hm
    · exact (h.known _ _ (ha b hb hB)).resolve_left hT hr
    · exact h.newUses a' hm b hb hB hr hT

/-- A location is added. -/
theorem Mid.add (h : Mid addr ob all T wr ex w r B done d) {a : Alias.Loc} {l : Loc} {w' : Info}
    (hw : w' = w ∨ (w ≠ .no ∧ w' = .may)) (hl : LocOK addr ob E.agg l) (hp : l.ptr = some a.ptr)
    (hmust : w' = .must → ∀ b, Reach l b → B (addr a.ptr + b))
    (ha : ∀ b, HasByte a b → B (addr a.ptr + b) → Reach l b) :
    Mid addr ob all T wr ex w r B (a :: done) (putUse E r l (putDef E w' l d)) := by
  have hd : SetWf ob (putDef E w' l d).defs ∧ SetWf ob (putDef E w' l d).mayDefs ∧ (putDef E w' l d).uses = d.uses := by
    unfold putDef
    cases w'
    · exact ⟨h.wfD, h.wfM, rfl⟩
    · exact ⟨h.wfD, (put_spec h.wfM hl).1, rfl⟩
    · exact ⟨(put_spec h.wfD hl).1, h.wfM, rfl⟩
  have hu : (putUse E r l (putDef E w' l d)).defs = (putDef E w' l d).defs ∧
      (putUse E r l (putDef E w' l d)).mayDefs = (putDef E w' l d).mayDefs := by
    unfold putUse
    cases r <;> exact ⟨rfl, rfl⟩
  have husesOf : (putUse E r l (putDef E w' l d)).uses = if r = .no then d.uses else put E d.uses l := by
    unfold putUse
    cases r <;> simp [hd.2.2]
  have hmonoU : ∀ p b, SetByte d.uses p b → SetByte (putUse E r l (putDef E w' l d)).uses p b := by
    intro p b hb
    rw [husesOf]
    split
    · exact hb
    · rw [(put_spec h.wfU hl).2]; exact .inl (.inl hb)
  have hmonoD : ∀ p b, SetByte d.defs p b → SetByte (putDef E w' l d).defs p b := by
    intro p b hb
    unfold putDef
    cases w'
    · exact hb
    · exact hb
    · simp only; rw [(put_spec h.wfD hl).2]; exact .inl (.inl hb)
  have hmonoM : ∀ p b, SetByte d.mayDefs p b → SetByte (putDef E w' l d).mayDefs p b := by
    intro p b hb
    unfold putDef
    cases w'
    · exact hb
    · simp only; rw [(put_spec h.wfM hl).2]; exact .inl (.inl hb)
    · exact hb
  refine ⟨by rw [hu.1]; exact hd.1, by rw [hu.2]; exact hd.2.1, ?_, ?_, ?_, ?_, ?_, ?_, ?_⟩
  · rw [husesOf]
    split
    · exact h.wfU
    · exact (put_spec h.wfU hl).1
  · intro p b hb
    rw [hu.1] at hb
    by_cases hm : w' = .must
    · have hww : w = .must := by rcases hw with hw | ⟨-, hw⟩ <;> rw [hm] at hw; exact hw.symm; cases hw
      have hb' : SetByte (put E d.defs l) (some p) b := by simpa [putDef, hm] using hb
      rcases put_sub h.wfD hl hp (hmust hm) hb' with hb' | hb'
      · exact h.defs p b hb'
      · exact .inr ⟨hww, hb'⟩
    · have : (putDef E w' l d).defs = d.defs := by unfold putDef; cases w' <;> simp_all
      rw [this] at hb
      exact h.defs p b hb
  · intro p b hb
    rw [hu.1] at hb
    by_cases hm : w' = .must
    · have hb' : SetByte (put E d.defs l) (some p) b := by simpa [putDef, hm] using hb
      rw [(put_spec h.wfD hl).2] at hb'
      by_cases hr : r = .no
      · exact .inr fun hn => absurd hr hn
      · rcases hb' with (hb' | hb') | hb'
        · rcases h.known p b hb' with hk | hk
          · exact .inl hk
          · exact .inr fun hn => hmonoU _ _ (hk hn)
        · refine .inr fun _ => ?_
          rw [husesOf, if_neg hr, (put_spec h.wfU hl).2]
          exact .inl (.inr hb')
        · refine .inr fun _ => ?_
          rw [husesOf, if_neg hr, (put_spec h.wfU hl).2]
          exact .inr hb'
    · have : (putDef E w' l d).defs = d.defs := by unfold putDef; cases w' <;> simp_all
      rw [this] at hb
      rcases h.known p b hb with hk | hk
      · exact .inl hk
      · exact .inr fun hn => hmonoU _ _ (hk hn)
  · intro a' ha' b hb hwr
    rw [hu.1, hu.2]
    exact (h.mayDefs a' ha' b hb hwr).imp (hmonoD _ _) (hmonoM _ _)
  · intro a' ha' b hb hex
    exact hmonoU _ _ (h.uses a' ha' b hb hex)
  · intro a' ha' b hb hB hwn
    rw [hu.1, hu.2]
    rcases List.mem_cons.1 ha' with rfl | hm
    · have hr := ha b hb hB
      have hw' : w' ≠ .no := by
        rcases hw with hw | ⟨-, hw⟩
        · rw [hw]; exact hwn
        · rw [hw]; exact fun h => by cases h
      unfold putDef
      cases w'
      · exact absurd rfl hw'
      · right; simp only; rw [(put_spec h.wfM hl).2]; exact .inr ⟨hp.symm, hr⟩
      · left; simp only; rw [(put_spec h.wfD hl).2]; exact .inr ⟨hp.symm, hr⟩
    · exact (h.newDefs a' hm b hb hB hwn).imp (hmonoD _ _) (hmonoM _ _)
  · intro a' ha' b hb hB hrn hT
    rcases List.mem_cons.1 ha' with rfl | hm
    · rw [husesOf, if_neg hrn, (put_spec h.wfU hl).2]
      exact .inr ⟨hp.symm, ha b hb hB⟩
    · exact hmonoU _ _ (h.newUses a' hm b hb hB hrn hT)

/-- A location is contained in another one. -/
theorem relation_contained {A : Alias.Llvm} {m a : Alias.Loc} (hc : (Alias.relation A m a).contained = true) :
    m.size ≠ .beforeOrAfter ∧
    ((Alias.relation A m a).kind = .must ∨
      ((Alias.relation A m a).kind = .partial_ ∧ m.size.isPrecise = true ∧ a.size.isPrecise = true ∧
        A.offset a.ptr < A.offset m.ptr)) := by
  have hcmp : m.size = .beforeOrAfter → ¬ Alias.sizecmp m.size a.size < 0 := by
    intro h
    rw [h]
    unfold Alias.sizecmp
    cases a.size <;> simp [Alias.Size.value]
  revert hc
  simp only [Alias.relation]
  cases A.query m a <;> simp only
  · simp
  · simp
  · split
    · rename_i nl nr h1 h2
      split
      · simp
      · split
        · simp
        · split
          · simp
          · split
            · simp
            · split
              · rename_i h
                intro _
                refine ⟨by rw [h1]; simp, .inr ⟨rfl, by rw [h1]; rfl, by rw [h2]; rfl, h.1⟩⟩
              · simp
    · simp
  · split
    · rename_i nl nr h1 h2
      split
      · simp
      · split
        · simp
        · intro _; exact ⟨by rw [h1]; simp, .inl rfl⟩
    · split
      · split
        · simp
        · split
          · simp
          · rename_i h1 h2
            intro _
            refine ⟨fun h => hcmp h (by omega), .inl rfl⟩
      · simp

theorem subRange_ptr {A : Alias.Llvm} {m a : Alias.Loc} : (subRange A m a).ptr = some a.ptr := by
  unfold subRange
  split <;> rfl

/-- Bytes of a part of a location. -/
theorem reach_subRange {m a : Alias.Loc} (hA : E.A.Sound addr) (hok : PairOK E addr ob m a)
    (hc : (Alias.relation E.A m a).contained = true) {b : Nat} :
    Reach (subRange E.A m a) b ↔ m.bytes addr (addr a.ptr + b) := by
  have htrue := Alias.relation_sound_partial E.A addr hA m a hok.fits hok.side
  have hom := hA.offset m.ptr
  have hoa := hA.offset a.ptr
  have hfm := hok.fits.offset m.ptr
  have hfa := hok.fits.offset a.ptr
  have hsz := hok.size
  obtain ⟨hbefore, hk⟩ := relation_contained hc
  unfold subRange
  by_cases hb : E.A.base m.ptr = E.A.base a.ptr
  · rw [if_pos hb]
    have hle : E.A.offset a.ptr ≤ E.A.offset m.ptr := by
      rcases hk with hk | ⟨-, -, -, hk⟩
      · have := htrue.must hk
        rw [hom, hoa, hb] at this
        omega
      · omega
    rw [hb] at hom
    have hu : Alias.u64 (E.A.offset m.ptr - E.A.offset a.ptr) = E.A.offset m.ptr - E.A.offset a.ptr := by
      unfold Alias.u64; omega
    have hv : ∀ n, m.size.value = some n →
        Alias.u64 (E.A.offset m.ptr - E.A.offset a.ptr + n) = E.A.offset m.ptr - E.A.offset a.ptr + n := by
      intro n hn
      have hn63 := hsz n hn
      rcases hk with hk | ⟨-, hp, hq, -⟩
      · have := htrue.must hk
        unfold Alias.u64; omega
      · rcases Nat.eq_zero_or_pos n with rfl | hpos
        · simpa using hu
        · obtain ⟨hin, -⟩ := htrue.contained hc
          have hra := hok.fits.right
          have hma : m.bytes addr (addr m.ptr + n - 1) := by
            unfold Alias.Loc.bytes Alias.Size.bytes
            cases hms : m.size <;> simp only [hms, Alias.Size.value, Alias.Size.isPrecise] at hn hp ⊢
            · cases hn; omega
            · cases hp
            · cases hn
          have := hin _ hma
          unfold Alias.Loc.bytes Alias.Size.bytes at this
          cases has : a.size <;> simp only [has, Alias.Size.isPrecise] at hq this
          · have := hra _ has
            unfold Alias.u64; omega
          · cases hq
          · cases hq
          · cases hq
    unfold Reach Alias.Loc.bytes Alias.Size.bytes
    simp only [Kind.default, Bool.false_eq_true, if_false, hu]
    cases hms : m.size with
    | precise n =>
      have := hv n (by rw [hms]; rfl)
      simp only [Alias.Size.value, Option.map]
      rw [this]
      simp
      omega
    | upper n =>
      have := hv n (by rw [hms]; rfl)
      simp only [Alias.Size.value, Option.map]
      rw [this]
      simp
      omega
    | afterPointer =>
      simp [Alias.Size.value]
      omega
    | beforeOrAfter => exact absurd hms hbefore
  · rw [if_neg hb]
    have hk : (Alias.relation E.A m a).kind = .must := by
      rcases hk with hk | hk
      · exact hk
      · exact absurd (hok.base hk.1 hc) hb
    have hadr := htrue.must hk
    unfold Reach Alias.Loc.bytes Alias.Size.bytes
    cases hms : m.size with
    | precise n => simp [Alias.Size.value, Kind.default]; omega
    | upper n => simp [Alias.Size.value, Kind.default]; omega
    | afterPointer => simp [Alias.Size.value, Kind.default]; omega
    | beforeOrAfter => exact absurd hms hbefore

/-- An iteration over locations which may alias with the accessed one. -/
theorem stepKnown_mid (hS : SolverOK E.S) (hA : E.A.Sound addr) {m a : Alias.Loc}
    (h : Mid addr ob all T wr ex w r (m.bytes addr) done d) (hok : PairOK E addr ob m a) :
    Mid addr ob all T wr ex w r (m.bytes addr) (a :: done) (stepKnown E m w r d a) := by
  have htrue := Alias.relation_sound_partial E.A addr hA m a hok.fits hok.side
  unfold stepKnown
  split
  · rename_i hc
    refine h.skip fun b hb _ => ?_
    exact contain_sound ob E.S hS d.defs (toRange a) h.wfD hok.whole.1 hc b (reach_toRange.2 hb)
  · simp only
    split
    · rename_i hcov
      refine h.add (.inl rfl) hok.whole rfl (fun _ b hb => ?_) fun b hb _ => reach_toRange.2 hb
      have hb' := bytes_hasByte (addr := addr) (reach_toRange.1 hb)
      rcases Bool.or_eq_true _ _ ▸ hcov with hcov | hcov
      · exact (htrue.cover hcov).1 _ hb'
      · exact (htrue.coincide hcov _).2 hb'
    · split
      · rename_i hcon
        split
        · rename_i hc
          refine h.skip fun b hb hB => ?_
          have := contain_sound ob E.S hS d.defs (subRange E.A m a) h.wfD (hok.part hcon).1 hc b
            ((reach_subRange hA hok hcon).2 hB)
          rw [subRange_ptr] at this
          exact this
        · refine h.add (.inl rfl) (hok.part hcon) subRange_ptr (fun _ b hb => (reach_subRange hA hok hcon).1 hb)
            fun b hb hB => (reach_subRange hA hok hcon).2 hB
      · split
        · unfold addMay
          by_cases hw : w = .no
          · rw [if_pos hw]
            refine h.add (.inl hw.symm) hok.whole rfl (fun h => by cases h) fun b hb _ => reach_toRange.2 hb
          · rw [if_neg hw]
            refine h.add (.inr ⟨hw, rfl⟩) hok.whole rfl (fun h => by cases h) fun b hb _ => reach_toRange.2 hb
        · rename_i hno
          refine h.skip fun b hb hB => ?_
          exact absurd ⟨hB, bytes_hasByte hb⟩ (htrue.no (not_not.1 hno) _)

theorem foldKnown_mid (hS : SolverOK E.S) (hA : E.A.Sound addr) {m : Alias.Loc} : ∀ (vs done : List Alias.Loc) (d : DU),
    Mid addr ob all T wr ex w r (m.bytes addr) done d → (∀ a ∈ vs, PairOK E addr ob m a) →
    Mid addr ob all T wr ex w r (m.bytes addr) (vs.reverse ++ done) (vs.foldl (stepKnown E m w r) d)
  | [], _, _, h, _ => h
  | a :: vs, done, d, h, hv => by
    have := foldKnown_mid hS hA vs (a :: done) _ (stepKnown_mid hS hA h (hv a (by simp))) fun a ha => hv a (by simp [ha])
    simpa using this

end

/-- The state between accesses: `wr` are bytes which have been written, `ex` are exposed bytes. -/
structure Inv (addr : Nat → Int) (ob : Option Nat → Obj) (all : List Alias.Loc) (wr ex : Int → Prop) (d : DU) : Prop where
  wfD : SetWf ob d.defs
  wfM : SetWf ob d.mayDefs
  wfU : SetWf ob d.uses
  desc : Describes addr all d wr ex

section
variable {E : Env} {addr : Nat → Int} {ob : Option Nat → Obj} {all : List Alias.Loc} {wr ex : Int → Prop} {d : DU}

theorem stepUnknown_inv (hS : SolverOK E.S) {mod ref : Alias.Loc → Bool} {e : Eff} : ∀ (vs done : List Alias.Loc) (d : DU),
    (∀ a ∈ vs, WfLoc (ob (some a.ptr)) (toRange a)) →
    (∀ a ∈ vs, a ∈ all → ∀ x, a.bytes addr x → (e.wr x → mod a = true) ∧ (e.rd x → ref a = true)) →
    Inv addr ob all wr ex d →
    (∀ a ∈ done, a ∈ all → ∀ b, HasByte a b → (e.wr (addr a.ptr + b) →
      SetByte d.defs (some a.ptr) b ∨ SetByte d.mayDefs (some a.ptr) b) ∧
      (e.rd (addr a.ptr + b) → ¬ wr (addr a.ptr + b) → SetByte d.uses (some a.ptr) b)) →
    Inv addr ob all wr ex (vs.foldl (stepUnknown E mod ref) d) ∧
    (∀ a ∈ vs.reverse ++ done, a ∈ all → ∀ b, HasByte a b → (e.wr (addr a.ptr + b) →
      SetByte (vs.foldl (stepUnknown E mod ref) d).defs (some a.ptr) b ∨
      SetByte (vs.foldl (stepUnknown E mod ref) d).mayDefs (some a.ptr) b) ∧
      (e.rd (addr a.ptr + b) → ¬ wr (addr a.ptr + b) →
        SetByte (vs.foldl (stepUnknown E mod ref) d).uses (some a.ptr) b))
  | [], _, _, _, _, h, hd => ⟨h, hd⟩
  | a :: vs, done, d, hwf, hmr, h, hd => by
    have hwa := hwf a (by simp)
    have key : Inv addr ob all wr ex (stepUnknown E mod ref d a) ∧
        (∀ p b, SetByte d.defs p b → SetByte (stepUnknown E mod ref d a).defs p b) ∧
        (∀ p b, SetByte d.mayDefs p b → SetByte (stepUnknown E mod ref d a).mayDefs p b) ∧
        (∀ p b, SetByte d.uses p b → SetByte (stepUnknown E mod ref d a).uses p b) ∧
        (a ∈ all → ∀ b, HasByte a b → (e.wr (addr a.ptr + b) →
          SetByte (stepUnknown E mod ref d a).defs (some a.ptr) b ∨
          SetByte (stepUnknown E mod ref d a).mayDefs (some a.ptr) b) ∧
          (e.rd (addr a.ptr + b) → ¬ wr (addr a.ptr + b) →
            SetByte (stepUnknown E mod ref d a).uses (some a.ptr) b)) := by
      unfold stepUnknown
      split
      · rename_i hc
        refine ⟨h, fun _ _ h => h, fun _ _ h => h, fun _ _ h => h, fun _ b hb => ?_⟩
        have := contain_sound ob E.S hS d.defs (toRange a) h.wfD hwa hc b (reach_toRange.2 hb)
        exact ⟨fun _ => .inl this, fun _ hn => absurd (h.desc.defs _ _ this) hn⟩
      · obtain ⟨u1, u2, -⟩ := insert_spec h.wfU hwa
        obtain ⟨m1, m2, -⟩ := insert_spec h.wfM hwa
        have hm := hmr a (by simp)
        have hptr : (toRange a).ptr = some a.ptr := rfl
        have hU : ∀ p b, SetByte d.uses p b → SetByte (insert d.uses (toRange a)).1 p b :=
          fun p b hb => (u2 p b).2 (.inl hb)
        have hM : ∀ p b, SetByte d.mayDefs p b → SetByte (insert d.mayDefs (toRange a)).1 p b :=
          fun p b hb => (m2 p b).2 (.inl hb)
        cases hra : ref a <;> cases hma : mod a <;> simp only [Bool.false_eq_true, if_false, if_true]
        · refine ⟨h, fun _ _ h => h, fun _ _ h => h, fun _ _ h => h, fun ha b hb => ?_⟩
          have := hm ha _ (bytes_hasByte hb)
          rw [hra, hma] at this
          exact ⟨(fun hw => by cases this.1 hw), fun hr => by cases this.2 hr⟩
        · refine ⟨⟨h.wfD, m1, h.wfU, h.desc.defs, fun a ha b hb hw => (h.desc.mayDefs a ha b hb hw).imp id (hM _ _),
            h.desc.uses⟩, fun _ _ h => h, hM, fun _ _ h => h, fun ha b hb => ?_⟩
          have := hm ha _ (bytes_hasByte hb)
          rw [hra] at this
          exact ⟨fun _ => .inr ((m2 _ _).2 (.inr ⟨rfl, reach_toRange.2 hb⟩)), fun hr => by cases this.2 hr⟩
        · refine ⟨⟨h.wfD, h.wfM, u1, h.desc.defs, h.desc.mayDefs,
            fun a ha b hb hw => hU _ _ (h.desc.uses a ha b hb hw)⟩, fun _ _ h => h, fun _ _ h => h, hU, fun ha b hb => ?_⟩
          have := hm ha _ (bytes_hasByte hb)
          rw [hma] at this
          exact ⟨(fun hw => by cases this.1 hw), fun _ _ => (u2 _ _).2 (.inr ⟨rfl, reach_toRange.2 hb⟩)⟩
        · refine ⟨⟨h.wfD, m1, u1, h.desc.defs, fun a ha b hb hw => (h.desc.mayDefs a ha b hb hw).imp id (hM _ _),
            fun a ha b hb hw => hU _ _ (h.desc.uses a ha b hb hw)⟩, fun _ _ h => h, hM, hU, fun ha b hb => ?_⟩
          exact ⟨fun _ => .inr ((m2 _ _).2 (.inr ⟨rfl, reach_toRange.2 hb⟩)),
            fun _ _ => (u2 _ _).2 (.inr ⟨rfl, reach_toRange.2 hb⟩)⟩
    obtain ⟨k1, k2, k3, k4, k5⟩ := key
    have := stepUnknown_inv hS (mod := mod) (ref := ref) vs (a :: done) (stepUnknown E mod ref d a)
      (fun a ha => hwf a (by simp [ha])) (fun a ha => hmr a (by simp [ha])) k1 (by
        intro a' ha' hall b hb
        rcases List.mem_cons.1 ha' with rfl | hm
        · exact k5 hall b hb
        · obtain ⟨h1, h2⟩ := hd a' hm hall b hb
          exact ⟨fun hw => (h1 hw).imp (k2 _ _) (k3 _ _), fun hr hn => k4 _ _ (h2 hr hn)⟩)
    simpa using this

/-- An access. -/
theorem stepAcs_inv (hS : SolverOK E.S) (hA : E.A.Sound addr) {c : Acs} {e : Eff} (h : Inv addr ob all wr ex d)
    (hok : c.OK E addr ob) (hd : c.Does addr all e) :
    Inv addr ob all (fun x => wr x ∨ e.wr x) (fun x => ex x ∨ (e.rd x ∧ ¬ wr x)) (stepAcs E d c) := by
  cases c with
  | known m w r visited =>
    obtain ⟨d1, d2, d3, d4⟩ := hd
    have hmid : Mid addr ob all wr wr ex w r (m.bytes addr) [] d :=
      ⟨h.wfD, h.wfM, h.wfU, fun p b hb => .inl (h.desc.defs p b hb), fun p b hb => .inl (h.desc.defs p b hb),
        h.desc.mayDefs, h.desc.uses, by simp, by simp⟩
    have := foldKnown_mid hS hA visited [] d hmid hok
    rw [List.append_nil] at this
    refine ⟨this.wfD, this.wfM, this.wfU, fun p b hb => ?_, fun a ha b hb hw => ?_, fun a ha b hb hx => ?_⟩
    · exact (this.defs p b hb).imp id fun h => d3 h.1 _ h.2
    · rcases hw with hw | hw
      · exact this.mayDefs a ha b hb hw
      · obtain ⟨h1, h2⟩ := d1 _ hw
        by_cases hv : a ∈ visited
        · exact this.newDefs a (List.mem_reverse.2 hv) b hb h2 h1
        · exact absurd h2 (d4 a ha hv _ (bytes_hasByte hb))
    · rcases hx with hx | ⟨hx, hn⟩
      · exact this.uses a ha b hb hx
      · obtain ⟨h1, h2⟩ := d2 _ hx
        by_cases hv : a ∈ visited
        · exact this.newUses a (List.mem_reverse.2 hv) b hb h2 h1 hn
        · exact absurd h2 (d4 a ha hv _ (bytes_hasByte hb))
  | unknown mod ref visited =>
    obtain ⟨d1, d2⟩ := hd
    obtain ⟨h1, h2⟩ := stepUnknown_inv hS (mod := mod) (ref := ref) (e := e) visited [] d hok
      (fun a ha hall => d1 a hall ha) h (by simp)
    rw [List.append_nil] at h2
    refine ⟨h1.wfD, h1.wfM, h1.wfU, fun p b hb => .inl (h1.desc.defs p b hb), fun a ha b hb hw => ?_,
      fun a ha b hb hx => ?_⟩
    · rcases hw with hw | hw
      · exact h1.desc.mayDefs a ha b hb hw
      · by_cases hv : a ∈ visited
        · exact (h2 a (List.mem_reverse.2 hv) ha b hb).1 hw
        · exact absurd hw (d2 a ha hv _ (bytes_hasByte hb)).1
    · rcases hx with hx | ⟨hx, hn⟩
      · exact h1.desc.uses a ha b hb hx
      · by_cases hv : a ∈ visited
        · exact (h2 a (List.mem_reverse.2 hv) ha b hb).2 hx hn
        · exact absurd hx (d2 a ha hv _ (bytes_hasByte hb)).2

theorem Inv.weaken {wr' ex' : Int → Prop} (h : Inv addr ob all wr ex d) (h1 : ∀ x, wr x ↔ wr' x) (h2 : ∀ x, ex' x → ex x) :
    Inv addr ob all wr' ex' d :=
  ⟨h.wfD, h.wfM, h.wfU, fun p b hb => (h1 _).1 (h.desc.defs p b hb),
    fun a ha b hb hw => h.desc.mayDefs a ha b hb ((h1 _).2 hw), fun a ha b hb hx => h.desc.uses a ha b hb (h2 _ hx)⟩

/-- An instruction: `wr0` are bytes which have been written before it. -/
theorem ins_inv (hS : SolverOK E.S) (hA : E.A.Sound addr) {wr0 : Int → Prop} : ∀ (i : Ins) (wr ex : Int → Prop) (d : DU),
    Inv addr ob all wr ex d → (∀ e ∈ i, e.1.OK E addr ob ∧ e.1.Does addr all e.2) → NoInterference i →
    (∀ e ∈ i, ∀ x, e.2.rd x → wr x → wr0 x) →
    Inv addr ob all (fun x => wr x ∨ i.Wr x) (fun x => ex x ∨ (i.Rd x ∧ ¬ wr0 x)) ((i.map (·.1)).foldl (stepAcs E) d)
  | [], wr, ex, d, h, _, _, _ => h.weaken (fun x => by simp [Ins.Wr]) fun x => by simp [Ins.Rd]
  | (c, e) :: i, wr, ex, d, h, hok, hn, hrd => by
    obtain ⟨o1, o2⟩ := hok (c, e) (by simp)
    have h1 := stepAcs_inv hS hA h o1 o2
    have hn' := List.pairwise_cons.1 hn
    have h2 := ins_inv hS hA (wr0 := wr0) i _ _ _ h1 (fun e' he' => hok e' (by simp [he'])) hn'.2 (by
      intro f hf x hfx hw
      rcases hw with hw | hw
      · exact hrd f (by simp [hf]) x hfx hw
      · exact absurd hfx (hn'.1 f hf x hw))
    refine h2.weaken (fun x => ?_) fun x => ?_
    · simp [Ins.Wr, or_assoc]
    · rintro (hx | ⟨⟨f, hf, hx⟩, hw⟩)
      · exact .inl (.inl hx)
      · rcases List.mem_cons.1 hf with rfl | hf
        · exact .inl (.inr ⟨hx, fun hwx => hw (hrd (c, e) (by simp) x hx hwx)⟩)
        · exact .inr ⟨⟨f, hf, hx⟩, hw⟩

theorem block_inv (hS : SolverOK E.S) (hA : E.A.Sound addr) : ∀ (is : List Ins) (wr ex : Int → Prop) (d : DU),
    Inv addr ob all wr ex d → (∀ i ∈ is, ∀ e ∈ i, e.1.OK E addr ob ∧ e.1.Does addr all e.2) →
    (∀ i ∈ is, NoInterference i) →
    Inv addr ob all (fun x => wr x ∨ BlockWr is x) (fun x => ex x ∨ (BlockExposed is x ∧ ¬ wr x))
      ((is.map fun i => i.map (·.1)).foldl (fun d as => as.foldl (stepAcs E) d) d)
  | [], wr, ex, d, h, _, _ => h.weaken (fun x => by simp [BlockWr]) fun x => by simp [BlockExposed]
  | i :: is, wr, ex, d, h, hok, hn => by
    have h1 := ins_inv hS hA (wr0 := wr) i wr ex d h (hok i (by simp)) (hn i (by simp)) fun e _ x _ hw => hw
    have h2 := block_inv hS hA is _ _ _ h1 (fun j hj => hok j (by simp [hj])) fun j hj => hn j (by simp [hj])
    refine h2.weaken (fun x => ?_) fun x => ?_
    · simp [BlockWr, or_assoc]
    · rintro (hx | ⟨hx | ⟨hx, hx'⟩, hw⟩)
      · exact .inl (.inl hx)
      · exact .inl (.inr ⟨hx, hw⟩)
      · exact .inr ⟨hx', fun h => h.elim hw hx⟩

end

/-! ## Theorems -/

/-- C89 (partial). The def-use set of a basic block describes what the block does in each execution. Missing: instructions
which read memory through one argument and overwrite it through another one (`block_interference_fails`), pointers which have
different bases with the same address (`contained_base_fails`). -/
theorem block_describes_partial (E : Env) (addr : Nat → Int) (ob : Option Nat → Obj) (all : List Alias.Loc)
    (hS : SolverOK E.S) (hA : E.A.Sound addr) (is : List Ins)
    (hok : ∀ i ∈ is, ∀ e ∈ i, e.1.OK E addr ob ∧ e.1.Does addr all e.2) (hn : ∀ i ∈ is, NoInterference i) :
    Describes addr all (block E (is.map fun i => i.map (·.1))) (BlockWr is) (BlockExposed is) := by
  have h0 : Inv addr ob all (fun _ => False) (fun _ => False) {} := by
    have : ∀ p b, ¬ SetByte [] p b := fun p b h => by obtain ⟨_, h, _⟩ := h; cases h
    have hw : SetWf ob [] := ⟨List.nodup_nil, by simp⟩
    exact ⟨hw, hw, hw, fun p b h => absurd h (this _ _), fun _ _ _ _ h => h.elim, fun _ _ _ _ h => h.elim⟩
  have := (block_inv hS hA is _ _ _ h0 hok hn).weaken (wr' := BlockWr is) (ex' := BlockExposed is)
    (fun x => by simp) fun x hx => .inr ⟨hx, id⟩
  exact this.desc

end DefUse
end Tsar
