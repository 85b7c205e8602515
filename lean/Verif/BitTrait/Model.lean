import Mathlib.Data.BitVec

/-!
# Model of bitwise memory traits

Models `lib/Analysis/Memory/BitMemoryTrait.h` and `lib/Analysis/Memory/BitMemoryTrait.cpp`, and the
list of alternatives of `MemoryDescriptor` from `include/tsar/Analysis/Memory/MemoryTrait.h`.

Simplifications: `mId` is a vector of 19 bits (the upper bits of `unsigned long long` are zero in
all constants, `operator~` masks them, `&` and `|` keep them equal to zero).
The class template `bcl::TraitDescriptor` is external; it is assumed that `set<T>` sets the trait
`T` and drops traits which are alternatives of `T` (there is no common `TraitUnion`).
-/

namespace Tsar.BitTrait

/-- Bitwise representation of a trait, BitMemoryTrait.h:41-131. -/
abbrev Trait := BitVec 19

/-- BitMemoryTrait.h:60. -/
def NoAccess : Trait := 0b1111111111111111111#19
/-- BitMemoryTrait.h:61. -/
def Readonly : Trait := 0b1001111011111111111#19
/-- BitMemoryTrait.h:62. -/
def SharedJoin : Trait := 0b0000000011111111111#19
/-- BitMemoryTrait.h:63. -/
def Shared : Trait := 0b1000001011111111111#19
/-- BitMemoryTrait.h:64. -/
def Private : Trait := 0b0000111101111111111#19
/-- BitMemoryTrait.h:65. -/
def FirstPrivate : Trait := 0b0000111001111111111#19
/-- BitMemoryTrait.h:66. -/
def SecondToLastPrivate : Trait := 0b0000101101111111111#19
/-- BitMemoryTrait.h:67. -/
def LastPrivate : Trait := 0b0000011101111111111#19
/-- BitMemoryTrait.h:68. -/
def DynamicPrivate : Trait := 0b0000001101111111111#19
/-- BitMemoryTrait.h:69. -/
def Dependency : Trait := 0b0000000001111111111#19
/-- BitMemoryTrait.h:70. -/
def Reduction : Trait := 0b0010000001111111111#19
/-- BitMemoryTrait.h:71. -/
def Induction : Trait := 0b0100000001111111111#19
/-- BitMemoryTrait.h:72. -/
def AddressAccess : Trait := 0b1111111110111111111#19
/-- BitMemoryTrait.h:73. -/
def HeaderAccess : Trait := 0b1111111111011111111#19
/-- BitMemoryTrait.h:74. -/
def ExplicitAccess : Trait := 0b1111111111101111111#19
/-- BitMemoryTrait.h:75. -/
def Lock : Trait := 0b1111111111110111111#19
/-- BitMemoryTrait.h:76. -/
def Redundant : Trait := 0b1111111111111011111#19
/-- BitMemoryTrait.h:77. -/
def NoRedundant : Trait := 0b1111111111111101111#19
/-- BitMemoryTrait.h:78. -/
def NoPromotedScalar : Trait := 0b1111111111111110111#19
/-- BitMemoryTrait.h:79. -/
def DirectAccess : Trait := 0b1111111111111111011#19
/-- BitMemoryTrait.h:80. -/
def IndirectAccess : Trait := 0b1111111111111111101#19
/-- BitMemoryTrait.h:81. -/
def UseAfterLoop : Trait := 0b1111111111111111110#19
/-- BitMemoryTrait.h:82. -/
def AllUnitFlags : Trait := 0b1111111110000000000#19

/-- `dropUnitFlag`, BitMemoryTrait.h:157-160. -/
def dropUnitFlag (t : Trait) : Trait := t ||| ~~~AllUnitFlags

/-- `dropSharedFlag`, BitMemoryTrait.h:163-166. -/
def dropSharedFlag (t : Trait) : Trait := t &&& dropUnitFlag (~~~SharedJoin)

/-- `hasSharedJoin`, BitMemoryTrait.h:169-171. -/
def hasSharedJoin (t : Trait) : Bool := decide (t &&& SharedJoin &&& AllUnitFlags ≠ 0)

/-- Unit traits of `MemoryDescriptor`, MemoryTrait.h:268-270. -/
inductive UnitTrait where
  | addressAccess | explicitAccess | headerAccess | lock | redundant | noRedundant
  | noPromotedScalar | directAccess | indirectAccess | useAfterLoop
  deriving DecidableEq, Repr

/-- Alternative traits of `MemoryDescriptor`, MemoryTrait.h:271-277. -/
inductive DepTrait where
  | noAccess | readonly | reduction | induction | flow | anti | output | priv | shared
  | lastPrivate | firstPrivate | secondToLastPrivate | dynamicPrivate
  deriving DecidableEq, Repr

/-- The flag which represents a unit trait. -/
def UnitTrait.mask : UnitTrait → Trait
  | .addressAccess => AddressAccess
  | .explicitAccess => ExplicitAccess
  | .headerAccess => HeaderAccess
  | .lock => Lock
  | .redundant => Redundant
  | .noRedundant => NoRedundant
  | .noPromotedScalar => NoPromotedScalar
  | .directAccess => DirectAccess
  | .indirectAccess => IndirectAccess
  | .useAfterLoop => UseAfterLoop

/-- Traits which are listed together in one `TraitUnion`, MemoryTrait.h:273-277. -/
def DepTrait.unions : List (List DepTrait) :=
  [[.noAccess], [.readonly], [.reduction], [.induction],
   [.flow, .anti, .output],
   [.priv, .shared],
   [.lastPrivate, .firstPrivate, .shared],
   [.secondToLastPrivate, .firstPrivate, .shared],
   [.dynamicPrivate, .firstPrivate, .shared]]

/-- Whether two traits belong to one union, MemoryTrait.h:271-277. -/
def DepTrait.compatible (a b : DepTrait) : Bool :=
  DepTrait.unions.any fun u => u.contains a && u.contains b

/-- `MemoryDescriptor`, MemoryTrait.h:267-277. -/
structure Dptr where
  /-- Unit traits. -/
  unit : UnitTrait → Bool
  /-- Alternatives, as a set. -/
  dep : DepTrait → Bool

/-- A descriptor without traits. -/
def Dptr.none : Dptr := ⟨fun _ => false, fun _ => false⟩

/-- `set<T>` for alternatives of the external `TraitDescriptor` (assumption, see above). -/
def setDep (d : DepTrait → Bool) (t : DepTrait) : DepTrait → Bool :=
  fun x => decide (x = t) || (d x && DepTrait.compatible x t)

/-- The dependence part of the constructor from a descriptor, BitMemoryTrait.cpp:51-80: the value
which is joined with `mId` after unit flags. -/
def ofDep (d : DepTrait → Bool) : Trait :=
  if d .noAccess then NoAccess
  else if d .flow || d .anti || d .output then Dependency
  else if d .reduction then Reduction
  else if d .induction then Induction
  else if d .readonly then Readonly
  else
    let sharedFlag := if d .shared then SharedJoin else ~~~NoAccess
    let sharedTrait := if d .shared then Shared else Dependency
    if d .priv then Private ||| sharedFlag
    else
      (if d .firstPrivate then FirstPrivate ||| sharedFlag else NoAccess) &&&
      (if d .lastPrivate then LastPrivate ||| sharedFlag
       else if d .secondToLastPrivate then SecondToLastPrivate ||| sharedFlag
       else if d .dynamicPrivate then DynamicPrivate ||| sharedFlag
       else if !d .firstPrivate then sharedTrait else NoAccess)

/-- One of conditional statements which join unit flags, BitMemoryTrait.cpp:31-50. -/
def unitIf (d : UnitTrait → Bool) (u : UnitTrait) : Trait := if d u then u.mask else NoAccess

/-- Constructor from a descriptor, BitMemoryTrait.cpp:30-82. -/
def ofDescriptor (d : Dptr) : Trait :=
  NoAccess &&& unitIf d.unit .addressAccess &&& unitIf d.unit .useAfterLoop &&&
  unitIf d.unit .headerAccess &&& unitIf d.unit .noPromotedScalar &&&
  unitIf d.unit .explicitAccess &&& unitIf d.unit .redundant &&& unitIf d.unit .noRedundant &&&
  unitIf d.unit .directAccess &&& unitIf d.unit .indirectAccess &&& unitIf d.unit .lock &&&
  ofDep d.dep

/-- Unit traits set by `toDescriptor`, BitMemoryTrait.cpp:87-126: `!(get() & ~Flag)`. -/
def toUnit (t : Trait) (u : UnitTrait) : Bool := decide (t &&& ~~~u.mask = 0)

/-- Alternatives set by `toDescriptor` in order of calls of `set`, BitMemoryTrait.cpp:127-188;
`none` is `llvm_unreachable`. -/
def depCalls (t : Trait) : Option (List DepTrait) :=
  let k := dropUnitFlag t
  if k = Readonly then some [.readonly]
  else if k = NoAccess then some [.noAccess]
  else if k = Shared then some [.shared]
  else
    let sh : List DepTrait := if hasSharedJoin t then [.shared] else []
    let q := dropUnitFlag (dropSharedFlag t)
    if q = Private then some (sh ++ [.priv])
    else if q = FirstPrivate then some (sh ++ [.firstPrivate])
    else if q = FirstPrivate &&& LastPrivate then some (sh ++ [.firstPrivate, .lastPrivate])
    else if q = LastPrivate then some (sh ++ [.lastPrivate])
    else if q = FirstPrivate &&& SecondToLastPrivate then
      some (sh ++ [.firstPrivate, .secondToLastPrivate])
    else if q = SecondToLastPrivate then some (sh ++ [.secondToLastPrivate])
    else if q = FirstPrivate &&& DynamicPrivate then some (sh ++ [.firstPrivate, .dynamicPrivate])
    else if q = DynamicPrivate then some (sh ++ [.dynamicPrivate])
    else if q = Dependency then some (sh ++ [.flow, .anti, .output])
    else if q = Reduction then some (sh ++ [.reduction])
    else if q = Induction then some (sh ++ [.induction])
    else none

/-- `BitMemoryTrait::toDescriptor`, BitMemoryTrait.cpp:84-189 (statistic counters are modelled by
`counted`). `none` is `llvm_unreachable`. -/
def toDescriptor (t : Trait) : Option Dptr :=
  (depCalls t).map fun ls => ⟨toUnit t, ls.foldl setDep fun _ => false⟩

/-- Traits of a memory statistic in the order of `MemoryStatistic`, MemoryTrait.h:301-323. -/
inductive StatTag where
  | unit (u : UnitTrait)
  | dep (d : DepTrait)
  deriving DecidableEq, Repr

/-- Order of tags in the tuple, MemoryTrait.h:301-323. -/
def statTags : List StatTag :=
  [.unit .addressAccess, .unit .explicitAccess, .unit .headerAccess, .dep .readonly, .dep .shared,
   .dep .priv, .dep .firstPrivate, .dep .secondToLastPrivate, .dep .lastPrivate,
   .dep .dynamicPrivate, .dep .reduction, .dep .induction, .dep .flow, .dep .anti, .dep .output,
   .unit .lock, .unit .redundant, .unit .noRedundant, .unit .noPromotedScalar,
   .unit .directAccess, .unit .indirectAccess, .unit .useAfterLoop]

/-- Counters passed to the constructor of the tuple by the macro `MEMORY_TRAIT_STATISTIC`,
MemoryTrait.h:353-362; each counter is identified by its name. -/
def statCounters : List StatTag :=
  [.unit .addressAccess, .unit .headerAccess, .unit .explicitAccess, .dep .readonly, .dep .shared,
   .dep .priv, .dep .firstPrivate, .dep .secondToLastPrivate, .dep .lastPrivate,
   .dep .dynamicPrivate, .dep .reduction, .dep .induction, .dep .flow, .dep .anti, .dep .output,
   .unit .lock, .unit .redundant, .unit .noRedundant, .unit .noPromotedScalar,
   .unit .directAccess, .unit .indirectAccess, .unit .useAfterLoop]

/-- `Stat.get<Tag>()`: the counter at the position of the tag. -/
def counterOf (tag : StatTag) : Option StatTag := statCounters[statTags.idxOf tag]?

/-- Tags for which `Stat.get<Tag>() += TraitNumber` is executed by `toDescriptor`,
BitMemoryTrait.cpp:87-188 (there is no counter for `NoAccess`). -/
def counted (t : Trait) : Option (List StatTag) :=
  (depCalls t).map fun ls =>
    (([.useAfterLoop, .addressAccess, .headerAccess, .lock, .noPromotedScalar, .explicitAccess,
       .redundant, .noRedundant, .directAccess, .indirectAccess] : List UnitTrait).filter
         (toUnit t)).map .unit ++
    (ls.filter fun x => decide (x ≠ .noAccess)).map .dep

end Tsar.BitTrait
