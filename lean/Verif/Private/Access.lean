import Verif.BitTrait.Props

/-!
# Traits of explicitly accessed locations in a loop

Models `resolveAccesses()` from `lib/Analysis/Memory/PrivateAnalysis.cpp` and states soundness of the
classification: property C34.
-/

namespace Tsar
namespace Private

open BitTrait

/-! ## Model -/

/-- Results of other analyses for a location which are queried by `resolveAccesses()`
(PrivateAnalysis.cpp:775-823): the location is in `DefUse.getUses()` and so on; `live`:
`LS.getOut().overlap(Loc)`; `liveAggregate`: `isLiveAggregate(Loc)`; `exitMust`, `exitMay`: the location
is in `ExitingDefs.MustReach` / overlaps `ExitingDefs.MayReach`; `latchMust`: it is in `LatchDefs.MustReach`;
`inDeps`: there is a record for its estimate memory in the dependence map. -/
structure LocInfo where
  hasUse : Bool
  hasDef : Bool
  hasMayDef : Bool
  live : Bool
  liveAggregate : Bool
  invariant : Bool
  exitMust : Bool
  exitMay : Bool
  latchMust : Bool
  inDeps : Bool
  deriving DecidableEq

/-- `SharedTrait` (PrivateAnalysis.cpp:776-781). -/
def sharedTrait (i : LocInfo) : Trait := if i.inDeps then ~~~NoAccess else SharedJoin

/-- `DefTrait` (PrivateAnalysis.cpp:777-781). -/
def defTrait (i : LocInfo) : Trait := if i.inDeps then Dependency else Shared

/-- `UseAfterLoop` is set if the location is live (PrivateAnalysis.cpp:823, 827-828, 831-832). -/
def useAfter (i : LocInfo) : Trait := if i.live || i.liveAggregate then UseAfterLoop else NoAccess

/-- A trait which is joined with traits of estimate memory for a location (PrivateAnalysis.cpp:793-833). -/
def resolveLoc (i : LocInfo) : Trait :=
  if !i.hasUse then
    if !i.live && !i.liveAggregate then Private ||| sharedTrait i
    else
      (if i.invariant && i.exitMust then LastPrivate ||| sharedTrait i
       else if i.invariant && i.latchMust && !i.exitMay then
        (SecondToLastPrivate &&& FirstPrivate) ||| sharedTrait i
       else (DynamicPrivate &&& FirstPrivate) ||| sharedTrait i) &&& UseAfterLoop
  else if i.hasMayDef || i.hasDef then defTrait i &&& useAfter i
  else Readonly &&& useAfter i

/-- The loop in `resolveAccesses()` for locations of one estimate memory location
(PrivateAnalysis.cpp:764-835). -/
def resolveBase (l : List LocInfo) : Trait := l.foldl (fun t i => t &&& resolveLoc i) NoRedundant

/-! ## Specification -/

/-- An access to a byte. -/
inductive Acc where
  | rd (b : Nat)
  | wr (b : Nat)
  deriving DecidableEq

/-- Where a value comes from: it is produced before the loop or by a write at the specified position in the
specified iteration. -/
inductive Src where
  | init
  | wr (n p : Nat)
  deriving DecidableEq

/-- The last write of a byte in a sequence of accesses. -/
def lastWr : List Acc → Nat → Option Nat
  | [], _ => none
  | a :: l, b =>
    match lastWr l b with
    | some p => some (p + 1)
    | none => if a = .wr b then some 0 else none

/-- A sequential execution: the value of a byte before the iteration `n`. -/
def seqBefore (its : List (List Acc)) : Nat → Nat → Src
  | 0, _ => .init
  | n + 1, b =>
    match lastWr (its.getD n []) b with
    | some p => .wr n p
    | none => seqBefore its n b

/-- A sequential execution: the value which is read at the position `p` in the iteration `n`. -/
def seqRead (its : List (List Acc)) (n p b : Nat) : Src :=
  match lastWr ((its.getD n []).take p) b with
  | some q => .wr n q
  | none => seqBefore its n b

/-- A sequential execution: the value of a byte after the loop. -/
def seqFinal (its : List (List Acc)) (b : Nat) : Src := seqBefore its its.length b

/-- How a private copy is copied out of a loop. -/
inductive Out where
  | no | last | secondToLast | dynamic
  deriving DecidableEq

/-- Each iteration has its own copy: the value which is read, `none` if it is not defined. `fp`: a copy
obtains a value from the memory before the loop. -/
def privRead (fp : Bool) (its : List (List Acc)) (n p b : Nat) : Option Src :=
  match lastWr ((its.getD n []).take p) b with
  | some q => some (.wr n q)
  | none => if fp then some .init else none

/-- A private copy at the end of an iteration. -/
def privCopy (fp : Bool) (its : List (List Acc)) (n b : Nat) : Option Src :=
  match lastWr (its.getD n []) b with
  | some q => some (.wr n q)
  | none => if fp then some .init else none

/-- A value after the loop: nothing is copied, the copy of the last iteration is copied, the copy of the
iteration before the last one is copied (if it exists), a value is copied from the last iteration which writes
it (if there is such an iteration). -/
def privFinal (fp : Bool) (out : Out) (its : List (List Acc)) (b : Nat) : Option Src :=
  match out with
  | .no => some .init
  | .last => if its.length = 0 then some .init else privCopy fp its (its.length - 1) b
  | .secondToLast => if its.length < 2 then some .init else privCopy fp its (its.length - 2) b
  | .dynamic => some (seqFinal its b)

/-- A byte is accessed in an iteration. -/
def touches (its : List (List Acc)) (n b : Nat) : Prop :=
  .rd b ∈ its.getD n [] ∨ .wr b ∈ its.getD n []

/-- Two iterations access one byte, and one of them writes it. -/
def Carried (its : List (List Acc)) (b : Nat) : Prop :=
  ∃ m n, m ≠ n ∧ .wr b ∈ its.getD m [] ∧ touches its n b

/-- What queries of other analyses mean for bytes of a location. Bytes may be different in different
iterations (`bytes n`), a location is invariant if they are not. The last iteration is the iteration in which
the loop is left. -/
structure Facts (its : List (List Acc)) (live : Nat → Prop) (bytes : Nat → Nat → Prop) (i : LocInfo) : Prop where
  use : i.hasUse = false → ∀ m b, bytes m b → ∀ n p, (its.getD n [])[p]? = some (.rd b) →
    lastWr ((its.getD n []).take p) b ≠ none
  def_ : i.hasDef = false → i.hasMayDef = false → ∀ m b, bytes m b → ∀ n, .wr b ∉ its.getD n []
  live : i.live = false → i.liveAggregate = false → ∀ m b, bytes m b → ¬ live b
  invariant : i.invariant = true → ∀ m n b, bytes m b → bytes n b
  exitMust : i.exitMust = true → its ≠ [] → ∀ b, bytes (its.length - 1) b →
    .wr b ∈ its.getD (its.length - 1) []
  exitMay : i.exitMay = false → ∀ b, bytes (its.length - 1) b → .wr b ∉ its.getD (its.length - 1) []
  latchMust : i.latchMust = true → ∀ n, n + 1 < its.length → ∀ b, bytes n b → .wr b ∈ its.getD n []
  deps : i.inDeps = false → ∀ m b, bytes m b → ¬ Carried its b

/-- A way to copy private memory out of a loop is described by a descriptor. -/
def outOf (d : Dptr) : Out :=
  if d.dep .lastPrivate then .last
  else if d.dep .secondToLastPrivate then .secondToLast
  else if d.dep .dynamicPrivate then .dynamic
  else .no

/-- Memory may be privatized according to a descriptor. -/
def isPrivate (d : Dptr) : Bool :=
  d.dep .priv || d.dep .firstPrivate || d.dep .lastPrivate || d.dep .secondToLastPrivate || d.dep .dynamicPrivate

/-! ## Lemmas -/

theorem lastWr_none {l : List Acc} {b : Nat} : lastWr l b = none ↔ .wr b ∉ l := by
  induction l with
  | nil => simp [lastWr]
  | cons a l ih =>
    rw [lastWr]
    cases h : lastWr l b with
    | some p =>
      have : Acc.wr b ∈ l := by
        by_contra hh
        rw [ih.2 hh] at h; cases h
      simp [this]
    | none =>
      have := ih.1 h
      by_cases ha : a = .wr b
      · simp [ha]
      · simp [ha, this, eq_comm]

theorem seqBefore_init {its : List (List Acc)} {b : Nat} {n : Nat} (h : ∀ m, m < n → .wr b ∉ its.getD m []) :
    seqBefore its n b = .init := by
  induction n with
  | zero => rfl
  | succ n ih =>
    rw [seqBefore, lastWr_none.2 (h n (by omega))]
    exact ih (fun m hm => h m (by omega))

/-- The bit of a trait. -/
theorem bit_of_and {t s : Trait} (h : t &&& s = t) {k : Nat} (hk : (hi t).getLsbD k = true) :
    (hi s).getLsbD k = true := by
  rw [← h, hi_and, BitVec.getLsbD_and] at hk
  simp only [Bool.and_eq_true] at hk
  exact hk.2

theorem bit_not_of_and {t s : Trait} (h : t &&& s = t) {k : Nat} (hk : (hi s).getLsbD k = false) :
    (hi t).getLsbD k = false := by
  cases hb : (hi t).getLsbD k with
  | false => rfl
  | true => rw [bit_of_and h hb] at hk; cases hk

/-! Bits of a trait for each combination of results of other analyses. -/

theorem bits_0 (i : LocInfo) :
    (hi (resolveLoc i)).getLsbD 0 = true → i.inDeps = false ∨ (i.hasDef = false ∧ i.hasMayDef = false) := by
  obtain ⟨a, b, c, d, e, f, g, h, k, l⟩ := i
  revert a b c d e f g h k l
  decide +kernel

theorem bits_1 (i : LocInfo) :
    (hi (resolveLoc i)).getLsbD 1 = true → i.hasUse = false := by
  obtain ⟨a, b, c, d, e, f, g, h, k, l⟩ := i
  revert a b c d e f g h k l
  decide +kernel

theorem bits_2 (i : LocInfo) :
    (hi (resolveLoc i)).getLsbD 2 = true → i.hasUse = false ∨ i.inDeps = false ∨ (i.hasDef = false ∧ i.hasMayDef = false) := by
  obtain ⟨a, b, c, d, e, f, g, h, k, l⟩ := i
  revert a b c d e f g h k l
  decide +kernel

theorem bits_3 (i : LocInfo) :
    (hi (resolveLoc i)).getLsbD 3 = true → (i.live = false ∧ i.liveAggregate = false) ∨ (i.invariant = true ∧ i.exitMust = true) ∨
      ((i.hasDef = false ∧ i.hasMayDef = false) ∧ (hi (resolveLoc i)).getLsbD 1 = false) := by
  obtain ⟨a, b, c, d, e, f, g, h, k, l⟩ := i
  revert a b c d e f g h k l
  decide +kernel

theorem bits_4 (i : LocInfo) :
    (hi (resolveLoc i)).getLsbD 4 = true → (i.live = false ∧ i.liveAggregate = false) ∨
      ((i.invariant = true ∧ i.latchMust = true ∧ i.exitMay = false) ∧ (hi (resolveLoc i)).getLsbD 1 = false) ∨
      ((i.hasDef = false ∧ i.hasMayDef = false) ∧ (hi (resolveLoc i)).getLsbD 1 = false) := by
  obtain ⟨a, b, c, d, e, f, g, h, k, l⟩ := i
  revert a b c d e f g h k l
  decide +kernel

theorem bits_5 (i : LocInfo) :
    (hi (resolveLoc i)).getLsbD 3 = true → (hi (resolveLoc i)).getLsbD 4 = true → (i.live = false ∧ i.liveAggregate = false) ∨
      (i.hasDef = false ∧ i.hasMayDef = false) := by
  obtain ⟨a, b, c, d, e, f, g, h, k, l⟩ := i
  revert a b c d e f g h k l
  decide +kernel

theorem bits_6 (i : LocInfo) :
    (hi (resolveLoc i)).getLsbD 5 = true → (i.hasDef = false ∧ i.hasMayDef = false) := by
  obtain ⟨a, b, c, d, e, f, g, h, k, l⟩ := i
  revert a b c d e f g h k l
  decide +kernel

theorem bits_7 (i : LocInfo) :
    (hi (resolveLoc i)).getLsbD 6 = false ∧ (hi (resolveLoc i)).getLsbD 7 = false := by
  obtain ⟨a, b, c, d, e, f, g, h, k, l⟩ := i
  revert a b c d e f g h k l
  decide +kernel

theorem bits_8 (i : LocInfo) :
    toUnit (resolveLoc i) .useAfterLoop = false ↔ (i.live = false ∧ i.liveAggregate = false) := by
  obtain ⟨a, b, c, d, e, f, g, h, k, l⟩ := i
  revert a b c d e f g h k l
  decide +kernel

/-- What each bit of a trait means for a location. -/
structure BitFacts (its : List (List Acc)) (live : Nat → Prop) (bytes : Nat → Nat → Prop) (t : Trait) : Prop where
  b0 : (hi t).getLsbD 0 = true → ∀ m b, bytes m b → ¬ Carried its b
  b1 : (hi t).getLsbD 1 = true → ∀ m b, bytes m b → ∀ n p, (its.getD n [])[p]? = some (.rd b) →
    lastWr ((its.getD n []).take p) b ≠ none
  b2 : (hi t).getLsbD 2 = true → ∀ m b, bytes m b → ∀ n p, (its.getD n [])[p]? = some (.rd b) →
    lastWr ((its.getD n []).take p) b = none → ∀ k, k < n → .wr b ∉ its.getD k []
  b3 : (hi t).getLsbD 3 = true → ∀ m b, bytes m b → live b → its ≠ [] →
    .wr b ∈ its.getD (its.length - 1) [] ∨ ((hi t).getLsbD 1 = false ∧ ∀ n, .wr b ∉ its.getD n [])
  b4 : (hi t).getLsbD 4 = true → ∀ m b, bytes m b → live b →
    ((hi t).getLsbD 1 = false ∧ .wr b ∉ its.getD (its.length - 1) [] ∧
      ((∀ n, n + 1 < its.length → .wr b ∈ its.getD n []) ∨ ∀ n, .wr b ∉ its.getD n []))
  b34 : (hi t).getLsbD 3 = true → (hi t).getLsbD 4 = true → ∀ m b, bytes m b → live b → ∀ n, .wr b ∉ its.getD n []
  b5 : (hi t).getLsbD 5 = true → ∀ m b, bytes m b → ∀ n, .wr b ∉ its.getD n []
  live : toUnit t .useAfterLoop = false → ∀ m b, bytes m b → ¬ live b

theorem carried_of_le {its : List (List Acc)} {b n p : Nat} (hr : (its.getD n [])[p]? = some (.rd b))
    (h : ¬ Carried its b) : ∀ k, k < n → .wr b ∉ its.getD k [] := by
  intro k hk hw
  exact h ⟨k, n, by omega, hw, .inl (List.mem_of_getElem? hr)⟩

theorem bitFacts_loc {its : List (List Acc)} {live : Nat → Prop} {bytes : Nat → Nat → Prop} {i : LocInfo}
    (hf : Facts its live bytes i) : BitFacts its live bytes (resolveLoc i) := by
  have h0 := bits_0 i
  have h1 := bits_1 i
  have h2 := bits_2 i
  have h3 := bits_3 i
  have h4 := bits_4 i
  have h34 := bits_5 i
  have h5 := bits_6 i
  have hl := bits_8 i
  refine ⟨?_, ?_, ?_, ?_, ?_, ?_, ?_, ?_⟩
  · intro h m b hb
    rcases h0 h with h | ⟨h, h'⟩
    · exact hf.deps h m b hb
    · rintro ⟨m', n, -, hw, -⟩
      exact hf.def_ h h' m b hb m' hw
  · intro h
    exact hf.use (h1 h)
  · intro h m b hb n p hr hn
    rcases h2 h with h | h | ⟨h, h'⟩
    · exact absurd hn (hf.use h m b hb n p hr)
    · exact carried_of_le hr (hf.deps h m b hb)
    · intro k _
      exact hf.def_ h h' m b hb k
  · intro h m b hb hlive hne
    rcases h3 h with ⟨h, h'⟩ | ⟨h, h'⟩ | ⟨⟨h, h'⟩, h''⟩
    · exact absurd hlive (hf.live h h' m b hb)
    · exact .inl (hf.exitMust h' hne b (hf.invariant h m _ b hb))
    · exact .inr ⟨h'', hf.def_ h h' m b hb⟩
  · intro h m b hb hlive
    rcases h4 h with ⟨h, h'⟩ | ⟨⟨e1, e2, e3⟩, h'⟩ | ⟨⟨h, h'⟩, h''⟩
    · exact absurd hlive (hf.live h h' m b hb)
    · exact ⟨h', hf.exitMay e3 b (hf.invariant e1 m _ b hb),
        .inl fun n hn => hf.latchMust e2 n hn b (hf.invariant e1 m _ b hb)⟩
    · have hn := hf.def_ h h' m b hb
      exact ⟨h'', hn _, .inr hn⟩
  · intro h h' m b hb hlive
    rcases h34 h h' with ⟨h, h'⟩ | ⟨h, h'⟩
    · exact absurd hlive (hf.live h h' m b hb)
    · exact hf.def_ h h' m b hb
  · intro h
    obtain ⟨h, h'⟩ := h5 h
    exact hf.def_ h h'
  · intro h m b hb
    exact hf.live (hl.1 h).1 (hl.1 h).2 m b hb

/-- Bits of a trait which is less than a trait of a location. -/
theorem bitFacts_mono {its : List (List Acc)} {live : Nat → Prop} {bytes : Nat → Nat → Prop} {t s : Trait}
    (h : t &&& s = t) (hs : BitFacts its live bytes s) : BitFacts its live bytes t where
  b0 hb := hs.b0 (bit_of_and h hb)
  b1 hb := hs.b1 (bit_of_and h hb)
  b2 hb := hs.b2 (bit_of_and h hb)
  b3 hb m b hm hl hne := by
    rcases hs.b3 (bit_of_and h hb) m b hm hl hne with h2 | ⟨h2, h3⟩
    · exact .inl h2
    · exact .inr ⟨bit_not_of_and h h2, h3⟩
  b4 hb m b hm hl := by
    obtain ⟨h2, h3⟩ := hs.b4 (bit_of_and h hb) m b hm hl
    exact ⟨bit_not_of_and h h2, h3⟩
  b34 hb hb' := hs.b34 (bit_of_and h hb) (bit_of_and h hb')
  b5 hb := hs.b5 (bit_of_and h hb)
  live hu := hs.live (by
    rw [toUnit_eq] at hu ⊢
    rw [← h, BitVec.getLsbD_and] at hu
    simp only [Bool.not_eq_false', Bool.and_eq_true] at hu ⊢
    exact hu.2)

/-- Descriptors and bits of all traits. -/
theorem parts_bits : ∀ x ∈ parts, ∃ ls, depCalls (x ++ BitVec.allOnes 10 : BitVec 19) = some ls ∧
    (let d : DepTrait → Bool := ls.foldl setDep fun _ => false
     (d .shared = true → x.getLsbD 0 = true) ∧ (d .readonly = true → x.getLsbD 5 = true) ∧
     (d .priv || d .firstPrivate || d .lastPrivate || d .secondToLastPrivate || d .dynamicPrivate) =
       (x.getLsbD 2 && !x.getLsbD 5 && !x.getLsbD 8) ∧
     ((d .priv || d .lastPrivate || d .secondToLastPrivate || d .dynamicPrivate) = true →
       d .firstPrivate = false → x.getLsbD 1 = true) ∧
     (d .lastPrivate = true → x.getLsbD 3 = true) ∧
     (d .secondToLastPrivate = true → x.getLsbD 4 = true) ∧
     (d .lastPrivate = false → d .secondToLastPrivate = false → d .dynamicPrivate = false →
       (d .priv = true ∨ d .firstPrivate = true) → x.getLsbD 3 = true ∧ x.getLsbD 4 = true) ∧
     (d .firstPrivate = true → x.getLsbD 1 = false) ∧
     (d .noAccess || d .readonly || d .reduction || d .induction || d .flow && d .anti && d .output ||
       d .priv || d .shared || d .firstPrivate || d .lastPrivate || d .secondToLastPrivate ||
       d .dynamicPrivate) = true ∧
     (d .noAccess = true → x = 0b111111111#9) ∧ (d .reduction = true → x.getLsbD 6 = true) ∧
     (d .induction = true → x.getLsbD 7 = true) ∧
     (d .secondToLastPrivate = true → d .firstPrivate = false → x.getLsbD 1 = true)) := by
  have key : ∀ x ∈ parts, ((depCalls (x ++ BitVec.allOnes 10 : BitVec 19)).any fun ls =>
    let d : DepTrait → Bool := ls.foldl setDep fun _ => false
    decide ((d .shared = true → x.getLsbD 0 = true)) &&
      decide ((d .readonly = true → x.getLsbD 5 = true)) &&
      decide ((d .priv || d .firstPrivate || d .lastPrivate || d .secondToLastPrivate || d .dynamicPrivate) = (x.getLsbD 2 &&!x.getLsbD 5 &&!x.getLsbD 8)) &&
      decide (((d .priv || d .lastPrivate || d .secondToLastPrivate || d .dynamicPrivate) = true → d .firstPrivate = false → x.getLsbD 1 = true)) &&
      decide ((d .lastPrivate = true → x.getLsbD 3 = true)) &&
      decide ((d .secondToLastPrivate = true → x.getLsbD 4 = true)) &&
      decide ((d .lastPrivate = false → d .secondToLastPrivate = false → d .dynamicPrivate = false → (d .priv = true ∨ d .firstPrivate = true) → x.getLsbD 3 = true ∧ x.getLsbD 4 = true)) &&
      decide ((d .firstPrivate = true → x.getLsbD 1 = false)) &&
      decide ((d .noAccess || d .readonly || d .reduction || d .induction || d .flow &&d .anti &&d .output || d .priv || d .shared || d .firstPrivate || d .lastPrivate || d .secondToLastPrivate || d .dynamicPrivate) = true) &&
      decide ((d .noAccess = true → x = 0b111111111#9)) &&
      decide ((d .reduction = true → x.getLsbD 6 = true)) &&
      decide ((d .induction = true → x.getLsbD 7 = true)) &&
      decide ((d .secondToLastPrivate = true → d .firstPrivate = false → x.getLsbD 1 = true))) = true := by
    decide +kernel
  intro x hx
  have := key x hx
  cases hd : depCalls (x ++ BitVec.allOnes 10 : BitVec 19) with
  | none => rw [hd] at this; cases this
  | some ls =>
    rw [hd] at this
    simp only [Option.any_some, Bool.and_eq_true, decide_eq_true_eq, and_assoc] at this
    exact ⟨ls, rfl, this⟩

/-! ## C34 -/

/-- **C34.** A trait is less than traits of all locations (it is obtained by joining them with each other and
with anything else). Let `b` be a byte of any of these locations.

* If it is reported as privatizable, each iteration may have its own copy of memory: all reads obtain the same
  values as in a sequential execution and all values which are used after the loop are the same.
* If it is reported as shared, iterations of the loop are independent.
* If it is reported as read-only, there are no writes.
* If it is not reported that it is used after the loop, it is not live.
* Something is always reported: at least one of mentioned properties or all kinds of dependencies. -/
theorem resolve_sound (its : List (List Acc)) (live : Nat → Prop) (bytes : Nat → Nat → Prop) (i : LocInfo)
    (hf : Facts its live bytes i) (t : Trait) (hj : Joined t) (hle : t &&& resolveLoc i = t) :
    ∃ d, toDescriptor t = some d ∧
    (isPrivate d = true → ∀ m b, bytes m b →
      (∀ n p, (its.getD n [])[p]? = some (.rd b) →
        privRead (d.dep .firstPrivate) its n p b = some (seqRead its n p b)) ∧
      (live b → privFinal (d.dep .firstPrivate) (outOf d) its b = some (seqFinal its b))) ∧
    (d.dep .shared = true → ∀ m b, bytes m b → ¬ Carried its b) ∧
    (d.dep .readonly = true → ∀ m b, bytes m b → ∀ n, .wr b ∉ its.getD n []) ∧
    (d.unit .useAfterLoop = false → ∀ m b, bytes m b → ¬ live b) ∧
    (isPrivate d = true ∨ d.dep .shared = true ∨ d.dep .readonly = true ∨
      (d.dep .flow = true ∧ d.dep .anti = true ∧ d.dep .output = true)) := by
  have hbits := bitFacts_mono hle (bitFacts_loc hf)
  have hx := hi_mem hj
  obtain ⟨ls, hls, hd⟩ := parts_bits _ hx
  refine ⟨⟨toUnit t, ls.foldl setDep fun _ => false⟩, ?_, ?_⟩
  · rw [toDescriptor, depCalls_hi, hls]; rfl
  simp only at hd
  simp only [isPrivate, outOf]
  generalize (ls.foldl setDep fun _ => false) = d at hd
  obtain ⟨d0, d5, dp, d1, d3, d4, d34, df, dall, dna, dred, dind, dstl⟩ := hd
  have hni : (hi t).getLsbD 6 = false ∧ (hi t).getLsbD 7 = false := by
    exact ⟨bit_not_of_and hle (bits_7 i).1, bit_not_of_and hle (bits_7 i).2⟩
  refine ⟨?_, fun h => hbits.b0 (d0 h), fun h => hbits.b5 (d5 h), hbits.live, ?_⟩
  · intro hp m b hb
    have h2 : (hi t).getLsbD 2 = true := by
      rw [dp] at hp
      simp only [Bool.and_eq_true] at hp
      exact hp.1.1
    constructor
    · intro n p hr
      unfold privRead seqRead
      cases hl : lastWr ((its.getD n []).take p) b with
      | some q => rfl
      | none =>
        have hfp : d .firstPrivate = true := by
          by_contra hf
          simp only [Bool.not_eq_true] at hf
          exact hbits.b1 (d1 (by rw [hf] at hp; simpa using hp) hf) m b hb n p hr hl
        simp only [hfp, if_true]
        rw [seqBefore_init (hbits.b2 h2 m b hb n p hr hl)]
    · intro hlive
      by_cases hlast : d .lastPrivate = true
      · simp only [hlast, if_true, privFinal]
        by_cases h0 : its.length = 0
        · rw [if_pos h0, seqFinal, h0]; rfl
        · rw [if_neg h0]
          unfold privCopy seqFinal
          obtain ⟨q, hq⟩ : ∃ q, its.length = q + 1 := ⟨its.length - 1, by omega⟩
          rw [hq, Nat.add_sub_cancel, seqBefore]
          cases hl : lastWr (its.getD q []) b with
          | some p => rfl
          | none =>
            have hne : its ≠ [] := by
              intro h; rw [h] at h0; exact h0 rfl
            rcases hbits.b3 (d3 hlast) m b hb hlive hne with h | ⟨h, h'⟩
            · rw [hq, Nat.add_sub_cancel] at h
              exact absurd h (lastWr_none.1 hl)
            · have hfp : d .firstPrivate = true := by
                by_contra hf
                simp only [Bool.not_eq_true] at hf
                have := d1 (by rw [hlast]; simp) hf
                rw [h] at this; cases this
              simp only [hfp, if_true]
              rw [seqBefore_init (fun m _ => h' m)]
      · simp only [Bool.not_eq_true] at hlast
        by_cases hstl : d .secondToLastPrivate = true
        · simp only [hlast, hstl, Bool.false_eq_true, if_false, if_true, privFinal]
          obtain ⟨e1, e2, e3⟩ := hbits.b4 (d4 hstl) m b hb hlive
          have hfp : d .firstPrivate = true := by
            by_contra hf
            simp only [Bool.not_eq_true] at hf
            have := dstl hstl hf
            rw [e1] at this; cases this
          by_cases h0 : its.length < 2
          · rw [if_pos h0, seqFinal, seqBefore_init]
            intro k hk
            have : k = its.length - 1 := by omega
            rw [this]; exact e2
          · rw [if_neg h0]
            unfold privCopy seqFinal
            obtain ⟨q, hq⟩ : ∃ q, its.length = q + 2 := ⟨its.length - 2, by omega⟩
            rw [hq, show q + 2 - 2 = q by omega, seqBefore]
            rw [hq, show q + 2 - 1 = q + 1 by omega] at e2
            rw [lastWr_none.2 e2]
            simp only
            rw [seqBefore]
            cases hl : lastWr (its.getD q []) b with
            | some p => rfl
            | none =>
              simp only [hfp, if_true]
              rcases e3 with e3 | e3
              · exact absurd (e3 q (by omega)) (lastWr_none.1 hl)
              · rw [seqBefore_init (fun m _ => e3 m)]
        · simp only [Bool.not_eq_true] at hstl
          by_cases hdyn : d .dynamicPrivate = true
          · simp [hlast, hstl, hdyn, privFinal]
          · simp only [Bool.not_eq_true] at hdyn
            simp only [hlast, hstl, hdyn, Bool.false_eq_true, if_false, privFinal]
            have hpf : d .priv = true ∨ d .firstPrivate = true := by
              rw [hlast, hstl, hdyn] at hp
              simpa using hp
            obtain ⟨e3, e4⟩ := d34 hlast hstl hdyn hpf
            rw [seqFinal, seqBefore_init (fun k _ => hbits.b34 e3 e4 m b hb hlive k)]
  · have hna : d .noAccess = false := by
      cases h : d .noAccess with
      | false => rfl
      | true =>
        have := dna h
        rw [this] at hni
        exact absurd hni.1 (by decide)
    have hre : d .reduction = false := by
      cases h : d .reduction with
      | false => rfl
      | true => have := dred h; rw [hni.1] at this; cases this
    have hin : d .induction = false := by
      cases h : d .induction with
      | false => rfl
      | true => have := dind h; rw [hni.2] at this; cases this
    by_cases h1 : (d .priv || d .firstPrivate || d .lastPrivate || d .secondToLastPrivate || d .dynamicPrivate) = true
    · exact .inl h1
    by_cases h2 : d .shared = true
    · exact .inr (.inl h2)
    by_cases h3 : d .readonly = true
    · exact .inr (.inr (.inl h3))
    simp only [Bool.or_eq_true, not_or, Bool.not_eq_true] at h1 h2 h3
    obtain ⟨⟨⟨⟨e1, e2⟩, e3⟩, e4⟩, e5⟩ := h1
    simp only [hna, hre, hin, h2, h3, e1, e2, e3, e4, e5, Bool.or_false, Bool.false_or, Bool.and_eq_true] at dall
    exact .inr (.inr (.inr ⟨dall.1.1, dall.1.2, dall.2⟩))

theorem joined_resolveLoc (i : LocInfo) : Joined (resolveLoc i) := by
  have sj : ∀ a b : Trait, (a &&& b) ||| SharedJoin = (a ||| SharedJoin) &&& (b ||| SharedJoin) := by
    intro a b
    ext k
    simp only [BitVec.getElem_or, BitVec.getElem_and]
    cases a[k] <;> cases b[k] <;> cases SharedJoin[k] <;> rfl
  have z : ~~~NoAccess = (0 : Trait) := by decide
  have oz : ∀ a : Trait, a ||| (0 : Trait) = a := by intro a; simp
  have ua : Joined (useAfter i) := by
    unfold useAfter; split
    · exact .base (.unit .useAfterLoop)
    · exact .base .noAccess
  unfold resolveLoc sharedTrait defTrait
  cases i.inDeps with
  | true =>
    simp only [if_true, z, oz]
    split_ifs
    · exact .base .priv
    · exact .join (.base .lastPrivate) (.base (.unit .useAfterLoop))
    · exact .join (.join (.base .secondToLastPrivate) (.base .firstPrivate)) (.base (.unit .useAfterLoop))
    · exact .join (.join (.base .dynamicPrivate) (.base .firstPrivate)) (.base (.unit .useAfterLoop))
    · exact .join (.base .dependency) ua
    · exact .join (.base .readonly) ua
  | false =>
    simp only [Bool.false_eq_true, if_false, sj]
    split_ifs
    · exact .base .sharedPriv
    · exact .join (.base .sharedLast) (.base (.unit .useAfterLoop))
    · exact .join (.join (.base .sharedSecond) (.base .sharedFirst)) (.base (.unit .useAfterLoop))
    · exact .join (.join (.base .sharedDynamic) (.base .sharedFirst)) (.base (.unit .useAfterLoop))
    · exact .join (.base .shared) ua
    · exact .join (.base .readonly) ua

/-- A trait of estimate memory is less than traits of its locations. -/
theorem resolveBase_spec (l : List LocInfo) :
    Joined (resolveBase l) ∧ ∀ i ∈ l, resolveBase l &&& resolveLoc i = resolveBase l := by
  have key : ∀ (l : List LocInfo) (t : Trait), Joined t →
      let r := l.foldl (fun t i => t &&& resolveLoc i) t
      Joined r ∧ r &&& t = r ∧ ∀ i ∈ l, r &&& resolveLoc i = r := by
    intro l
    induction l with
    | nil => intro t ht; exact ⟨ht, BitVec.and_self, by simp⟩
    | cons i l ih =>
      intro t ht
      obtain ⟨h1, h2, h3⟩ := ih (t &&& resolveLoc i) (.join ht (joined_resolveLoc i))
      simp only [List.foldl_cons]
      refine ⟨h1, ?_, ?_⟩
      · rw [← h2, BitVec.and_assoc, BitVec.and_assoc, BitVec.and_comm (resolveLoc i) t, ← BitVec.and_assoc t t,
          BitVec.and_self]
      · intro j hj
        rcases List.mem_cons.1 hj with rfl | hj
        · rw [← h2, BitVec.and_assoc, BitVec.and_assoc, BitVec.and_self]
        · exact h3 j hj
  obtain ⟨h1, -, h3⟩ := key l NoRedundant (.base (.unit .noRedundant))
  exact ⟨h1, h3⟩

/-- **C34.** The classification of estimate memory in a loop is sound for each of its locations (see
`resolve_sound` for traits which are obtained by further merges). -/
theorem resolveBase_sound (its : List (List Acc)) (live : Nat → Prop) (l : List (LocInfo × (Nat → Nat → Prop)))
    (hf : ∀ x ∈ l, Facts its live x.2 x.1) (x : LocInfo × (Nat → Nat → Prop)) (hx : x ∈ l) :
    ∃ d, toDescriptor (resolveBase (l.map Prod.fst)) = some d ∧
    (isPrivate d = true → ∀ m b, x.2 m b →
      (∀ n p, (its.getD n [])[p]? = some (.rd b) →
        privRead (d.dep .firstPrivate) its n p b = some (seqRead its n p b)) ∧
      (live b → privFinal (d.dep .firstPrivate) (outOf d) its b = some (seqFinal its b))) ∧
    (d.dep .shared = true → ∀ m b, x.2 m b → ¬ Carried its b) ∧
    (d.dep .readonly = true → ∀ m b, x.2 m b → ∀ n, .wr b ∉ its.getD n []) ∧
    (d.unit .useAfterLoop = false → ∀ m b, x.2 m b → ¬ live b) ∧
    (isPrivate d = true ∨ d.dep .shared = true ∨ d.dep .readonly = true ∨
      (d.dep .flow = true ∧ d.dep .anti = true ∧ d.dep .output = true)) := by
  obtain ⟨h1, h2⟩ := resolveBase_spec (l.map Prod.fst)
  exact resolve_sound its live x.2 x.1 (hf x hx) _ h1 (h2 _ (List.mem_map_of_mem hx))

/-! ## Precision -/

/-- A location which is not read before writes, is not live and is independent is reported as private and
shared. -/
example : ∃ d, toDescriptor (resolveBase [⟨false, true, true, false, false, true, true, true, true, false⟩]) = some d ∧
    d.dep .priv = true ∧ d.dep .shared = true ∧ d.dep .flow = false ∧ d.unit .useAfterLoop = false :=
  ⟨_, rfl, by decide, by decide, by decide, by decide⟩

/-! ## Non-vacuity -/

/-- `for (...) { t = ...; ... = t; } ... = t;`: the scalar is last private. -/
def exIts : List (List Acc) := [[.wr 0, .rd 0], [.wr 0, .rd 0], [.wr 0, .rd 0]]

/-- Results of analyses for the scalar. -/
def exInfo : LocInfo := ⟨false, true, true, true, false, true, true, true, true, true⟩

theorem exFacts : Facts exIts (fun b => b = 0) (fun _ b => b = 0) exInfo where
  use := by
    rintro - m b rfl n p hr
    match n, p with
    | 0, 0 | 1, 0 | 2, 0 => simp [exIts] at hr
    | 0, 1 | 1, 1 | 2, 1 => decide
    | 0, p + 2 | 1, p + 2 | 2, p + 2 => simp [exIts] at hr
    | n + 3, p => simp [exIts] at hr
  def_ := by intro h; cases h
  live := by intro h; cases h
  invariant := fun _ _ _ _ h => h
  exitMust := by rintro - - b rfl; decide
  exitMay := by intro h; cases h
  latchMust := by
    rintro - n hn b rfl
    match n with
    | 0 | 1 => decide
    | n + 2 => simp [exIts] at hn; omega
  deps := by intro h; cases h

example : ∃ d, toDescriptor (resolveBase [exInfo]) = some d ∧ d.dep .lastPrivate = true ∧
    privFinal (d.dep .firstPrivate) (outOf d) exIts 0 = some (.wr 2 0) := by
  obtain ⟨d, hd, h1, -⟩ := resolveBase_sound exIts _ [(exInfo, fun _ b => b = 0)]
    (by simpa using exFacts) _ List.mem_cons_self
  refine ⟨d, hd, ?_, ?_⟩
  · have := Option.some.inj hd
    rw [← this]; decide
  · have hp : isPrivate d = true := by
      have := Option.some.inj hd
      rw [← this]; decide
    exact (h1 hp 0 0 rfl).2 rfl

end Private
end Tsar
