import Mathlib.Tactic.Push

/-!
# Relation of memory locations

Models `aliasRelation()` and `mergeAliasRelation()` from `lib/Analysis/Memory/EstimateMemory.cpp`: properties C37 and
C60.

Alias analysis and `GetPointerBaseWithConstantOffset()` belong to LLVM, their answers are parameters and their
meaning is the hypothesis `Sound`.
-/

namespace Tsar
namespace Alias

/-! ## Model -/

/-- `llvm::LocationSize` (two kinds of known sizes and two kinds of unknown sizes). -/
inductive Size where
  | precise (n : Nat)
  | upper (n : Nat)
  | afterPointer
  | beforeOrAfter
  deriving DecidableEq, Repr

/-- `LocationSize::isPrecise()`. -/
def Size.isPrecise : Size → Bool
  | .precise _ => true
  | _ => false

/-- `LocationSize::hasValue()` and `LocationSize::getValue()`. -/
def Size.value : Size → Option Nat
  | .precise n | .upper n => some n
  | .afterPointer | .beforeOrAfter => none

/-- `MemorySetInfo<MemoryLocation>::sizecmp()` (MemorySetInfo.h:106-121). `LocationSize::mayBeBeforePointer()` holds
for `beforeOrAfter` only. -/
def sizecmp (l r : Size) : Int :=
  if l = r then 0
  else
    match l.value, r.value with
    | none, none => if l = .beforeOrAfter then 1 else -1
    | none, some _ => 1
    | some _, none => -1
    | some a, some b => if a < b then -1 else if a = b then 0 else 1

/-- `llvm::MemoryLocation`, tags are omitted (they are an additional argument of an alias query). -/
structure Loc where
  ptr : Nat
  size : Size
  deriving DecidableEq, Repr

/-- `llvm::AliasResult`. -/
inductive AR where
  | no
  | may
  | partial_
  | must
  deriving DecidableEq, Repr

/-- `AliasDescriptor` (EstimateMemory.h:170-175): the kind and the additional traits. -/
structure Desc where
  kind : AR
  coincide : Bool := false
  contained : Bool := false
  cover : Bool := false
  deriving DecidableEq, Repr

/-- LLVM: alias queries and decomposition of a pointer into a base and an offset. -/
structure Llvm where
  query : Loc → Loc → AR
  base : Nat → Nat
  offset : Nat → Int

/-- Conversion of a value to `uint64_t`. -/
def u64 (x : Int) : Int := x % 2 ^ 64

/-- `aliasRelation()` for locations (EstimateMemory.cpp:267-332). The sum of `int64_t` and `uint64_t` is computed in
`uint64_t`. -/
def relation (A : Llvm) (l r : Loc) : Desc :=
  match A.query l r with
  | .no => { kind := .no }
  | .may => { kind := .may }
  | .partial_ =>
    match l.size, r.size with
    | .precise nl, .precise nr =>
      if l.size = r.size then { kind := .partial_ }
      else
        let ol := A.offset l.ptr
        let or_ := A.offset r.ptr
        if ol = 0 ∧ or_ = 0 then { kind := .partial_ }
        else if A.query ⟨A.base l.ptr, .afterPointer⟩ ⟨A.base r.ptr, .afterPointer⟩ ≠ .must then { kind := .partial_ }
        else if ol < or_ ∧ u64 (ol + nl) ≥ u64 (or_ + nr) then { kind := .partial_, cover := true }
        else if ol > or_ ∧ u64 (ol + nl) ≤ u64 (or_ + nr) then { kind := .partial_, contained := true }
        else { kind := .partial_ }
    | _, _ => { kind := .partial_ }
  | .must =>
    match l.size, r.size with
    | .precise nl, .precise nr =>
      if l.size = r.size then { kind := .must, coincide := true }
      else if nl > nr then { kind := .must, cover := true }
      else { kind := .must, contained := true }
    | _, _ =>
      if A.offset l.ptr = A.offset r.ptr ∧ A.base l.ptr = A.base r.ptr then
        let c := sizecmp l.size r.size
        if c = 0 then { kind := .must, coincide := true }
        else if c > 0 then { kind := .must, cover := true }
        else { kind := .must, contained := true }
      else { kind := .must }

/-- `mergeAliasRelation()` (EstimateMemory.cpp:364-404). -/
def merge (l r : Desc) : Desc :=
  if l = r then l
  else
    let opposite := l.contained && r.cover || l.cover && r.contained
    let c := (l.coincide || r.coincide) && !opposite
    if l.kind = r.kind then { kind := l.kind, coincide := c }
    else if l.kind = .partial_ ∧ r.kind = .must ∨ l.kind = .must ∧ r.kind = .partial_ then
      { kind := .partial_, coincide := c }
    else { kind := .may }

/-- A loop which merges descriptors and stops at `MayAlias` (EstimateMemory.cpp:341-349, EstimateMemory.h:198-202). -/
def mergeAll : Desc → List Desc → Desc
  | d, [] => d
  | d, d' :: ds =>
    if (merge d d').kind = .may then merge d d' else mergeAll (merge d d') ds

/-- Estimate memory: a nonempty list of ambiguous pointers and a size. -/
structure Mem where
  first : Nat
  others : List Nat
  size : Size
  deriving DecidableEq, Repr

def Mem.ptrs (m : Mem) : List Nat := m.first :: m.others

/-- `aliasRelation()` for estimate memory (EstimateMemory.cpp:334-351). -/
def memRelation (A : Llvm) (l r : Mem) : Desc :=
  let d := relation A ⟨l.first, l.size⟩ ⟨r.first, r.size⟩
  if d.kind = .may then d
  else mergeAll d (l.ptrs.flatMap fun p => r.ptrs.map fun q => relation A ⟨p, l.size⟩ ⟨q, r.size⟩)

/-- `aliasRelation()` for a nonempty range of estimate memory (EstimateMemory.h:191-204). -/
def rangeRelation (A : Llvm) (l : Mem) (r : Mem) (rs : List Mem) : Desc :=
  let d := memRelation A l r
  if d.kind = .may then d else mergeAll d (rs.map fun r => memRelation A l r)

/-! ## Specification -/

/-- Bytes which may be accessed through a pointer with the address `a`. -/
def Size.bytes (s : Size) (a : Int) (x : Int) : Prop :=
  match s with
  | .precise n | .upper n => a ≤ x ∧ x < a + n
  | .afterPointer => a ≤ x
  | .beforeOrAfter => True

/-- Bytes of a location in an execution where pointers have specified addresses. -/
def Loc.bytes (addr : Nat → Int) (l : Loc) (x : Int) : Prop := l.size.bytes (addr l.ptr) x

/-- The contract of LLVM in an execution where pointers have specified addresses. -/
structure Llvm.Sound (A : Llvm) (addr : Nat → Int) : Prop where
  no : ∀ l r, A.query l r = .no → ∀ x, ¬ (l.bytes addr x ∧ r.bytes addr x)
  overlap : ∀ l r, A.query l r = .partial_ → ∃ x, l.bytes addr x ∧ r.bytes addr x
  must : ∀ l r, A.query l r = .must → addr l.ptr = addr r.ptr
  offset : ∀ p, addr p = addr (A.base p) + A.offset p

/-- All bytes of the first location belong to the second one and the second one has other bytes. -/
def Inside (P Q : Int → Prop) : Prop := (∀ x, P x → Q x) ∧ ∃ x, Q x ∧ ¬ P x

/-- A descriptor tells the truth about two sets of bytes and addresses of their first bytes. -/
structure Desc.True (d : Desc) (a b : Int) (P Q : Int → Prop) : Prop where
  no : d.kind = .no → ∀ x, ¬ (P x ∧ Q x)
  must : d.kind = .must → a = b
  coincide : d.coincide = true → ∀ x, P x ↔ Q x
  contained : d.contained = true → Inside P Q
  cover : d.cover = true → Inside Q P

/-- `uint64_t` sums of an offset and a size are not compared across zero: ends of locations are on the same side
of the base or one of sizes is not known precisely. -/
def SameSide (A : Llvm) (l r : Loc) : Prop :=
  ∀ nl nr, l.size = .precise nl → r.size = .precise nr →
    (A.offset l.ptr + nl < 0 ↔ A.offset r.ptr + nr < 0)

/-- Offsets are values of `int64_t` and precise sizes do not exceed the maximum which is supported by LLVM. -/
structure Fits (A : Llvm) (l r : Loc) : Prop where
  offset : ∀ p, -2 ^ 63 ≤ A.offset p ∧ A.offset p < 2 ^ 63
  left : ∀ n, l.size = .precise n → n < 2 ^ 63
  right : ∀ n, r.size = .precise n → n < 2 ^ 63

/-! ## Theorems -/

theorem sizecmp_zero {l r : Size} (h : sizecmp l r = 0) (a x : Int) : l.bytes a x ↔ r.bytes a x := by
  unfold sizecmp at h
  split at h
  · rename_i heq; rw [heq]
  · cases l <;> cases r <;> simp [Size.value] at h ⊢ <;> (try (split at h <;> simp at h)) <;>
      simp only [Size.bytes] <;> omega

theorem sizecmp_pos {l r : Size} (h : 0 < sizecmp l r) (a : Int) : Inside (r.bytes a) (l.bytes a) := by
  unfold sizecmp at h
  split at h
  · simp at h
  · rename_i hne
    cases l <;> cases r <;> simp only [Size.value] at h
    all_goals (try (simp at h; done))
    all_goals (try (simp at hne; done))
    all_goals simp only [Inside, Size.bytes]
    · rename_i n m
      split at h
      · simp at h
      · split at h
        · simp at h
        · exact ⟨fun x hx => by omega, a + m, by omega, by omega⟩
    · rename_i n m
      split at h
      · simp at h
      · split at h
        · simp at h
        · exact ⟨fun x hx => by omega, a + m, by omega, by omega⟩
    · rename_i n m
      split at h
      · simp at h
      · split at h
        · simp at h
        · exact ⟨fun x hx => by omega, a + m, by omega, by omega⟩
    · rename_i n m
      split at h
      · simp at h
      · split at h
        · simp at h
        · exact ⟨fun x hx => by omega, a + m, by omega, by omega⟩
    · rename_i m
      exact ⟨fun x hx => by omega, a + m, by omega, by omega⟩
    · rename_i m
      exact ⟨fun x hx => by omega, a + m, by omega, by omega⟩
    · exact ⟨fun x _ => trivial, a - 1, trivial, by omega⟩
    · exact ⟨fun x _ => trivial, a - 1, trivial, by omega⟩
    · exact ⟨fun x _ => trivial, a - 1, trivial, by omega⟩

theorem sizecmp_neg {l r : Size} (h : sizecmp l r < 0) (a : Int) : Inside (l.bytes a) (r.bytes a) := by
  refine sizecmp_pos ?_ a
  unfold sizecmp at h ⊢
  split at h
  · simp at h
  · rename_i hne
    rw [if_neg (Ne.symm hne)]
    cases l <;> cases r <;> simp [Size.value] at h hne ⊢
    all_goals
      split at h
      · rw [if_neg (by omega), if_neg (by omega)]; decide
      · first | (simp at h; done) | (split at h <;> simp at h)

theorem u64_eq {x : Int} (h1 : -2 ^ 64 ≤ x) (h2 : x < 2 ^ 64) : u64 x = if x < 0 then x + 2 ^ 64 else x := by
  unfold u64
  split <;> omega

/-- C37 (partial). The relation of two locations tells the truth about their bytes. Missing: locations with ends on
different sides of the base, see `relation_fails`. -/
theorem relation_sound_partial (A : Llvm) (addr : Nat → Int) (hA : A.Sound addr) (l r : Loc) (hfit : Fits A l r)
    (hside : SameSide A l r) :
    (relation A l r).True (addr l.ptr) (addr r.ptr) (l.bytes addr) (r.bytes addr) := by
  obtain ⟨lp, ls⟩ := l
  obtain ⟨rp, rs⟩ := r
  have hfl := hfit.offset lp
  have hfr := hfit.offset rp
  have hno := hA.no ⟨lp, ls⟩ ⟨rp, rs⟩
  have hmust := hA.must ⟨lp, ls⟩ ⟨rp, rs⟩
  have hover := hA.overlap ⟨lp, ls⟩ ⟨rp, rs⟩
  have hbase := hA.must ⟨A.base lp, .afterPointer⟩ ⟨A.base rp, .afterPointer⟩
  have hol := hA.offset lp
  have hor := hA.offset rp
  simp only [relation, Loc.bytes] at hno hmust hover hbase hol hor ⊢
  cases hal : A.query ⟨lp, ls⟩ ⟨rp, rs⟩ <;> simp only [hal] at hno hmust hover ⊢
  · exact ⟨fun _ => hno trivial, by simp, by simp, by simp, by simp⟩
  · exact ⟨by simp, by simp, by simp, by simp, by simp⟩
  · split
    · rename_i nl nr
      have hnl := hfit.left nl rfl
      have hnr := hfit.right nr rfl
      have hs := hside nl nr rfl rfl
      simp only at hs
      obtain ⟨x0, hx1, hx2⟩ := hover trivial
      simp only [Size.bytes] at hx1 hx2
      split
      · exact ⟨by simp, by simp, by simp, by simp, by simp⟩
      · split
        · exact ⟨by simp, by simp, by simp, by simp, by simp⟩
        · split
          · exact ⟨by simp, by simp, by simp, by simp, by simp⟩
          · rename_i hb
            have hb : addr (A.base lp) = addr (A.base rp) := hbase (by simpa using hb)
            split
            · rename_i hc
              refine ⟨by simp, by simp, by simp, by simp, fun _ => ?_⟩
              rw [u64_eq (by omega) (by omega), u64_eq (by omega) (by omega)] at hc
              refine ⟨fun x hx => ?_, addr lp, ?_⟩ <;> simp only [Size.bytes, Loc.bytes] at * <;>
                (split at hc <;> split at hc <;> omega)
            · split
              · rename_i hc
                refine ⟨by simp, by simp, by simp, fun _ => ?_, by simp⟩
                rw [u64_eq (by omega) (by omega), u64_eq (by omega) (by omega)] at hc
                refine ⟨fun x hx => ?_, addr rp, ?_⟩ <;> simp only [Size.bytes, Loc.bytes] at * <;>
                  (split at hc <;> split at hc <;> omega)
              · exact ⟨by simp, by simp, by simp, by simp, by simp⟩
    · exact ⟨by simp, by simp, by simp, by simp, by simp⟩
  · have hm : addr lp = addr rp := hmust trivial
    show Desc.True _ (addr lp) (addr rp) (fun x => ls.bytes (addr lp) x) (fun x => rs.bytes (addr rp) x)
    rw [← hm]
    split
    · rename_i nl nr
      split
      · rename_i he
        refine ⟨by simp, by simp, fun _ x => ?_, by simp, by simp⟩
        rw [he]
      · rename_i he
        have he : nl ≠ nr := fun h => he (by rw [h])
        split
        · refine ⟨by simp, by simp, by simp, by simp, fun _ => ⟨fun x hx => ?_, addr lp + nr, ?_⟩⟩ <;>
            simp only [Size.bytes, Loc.bytes] at * <;> omega
        · refine ⟨by simp, by simp, by simp, fun _ => ⟨fun x hx => ?_, addr lp + nl, ?_⟩, by simp⟩ <;>
            simp only [Size.bytes, Loc.bytes] at * <;> omega
    · split
      · split
        · rename_i hc
          exact ⟨by simp, by simp, fun _ x => sizecmp_zero hc _ x, by simp, by simp⟩
        · split
          · rename_i hc
            exact ⟨by simp, by simp, by simp, by simp, fun _ => sizecmp_pos hc _⟩
          · exact ⟨by simp, by simp, by simp, fun _ => sizecmp_neg (by omega) _, by simp⟩
      · exact ⟨by simp, by simp, by simp, by simp, by simp⟩

/-- C37. For precise sizes and the same address the answer is complete. -/
theorem relation_must (A : Llvm) (l r : Loc) (nl nr : Nat) (hl : l.size = .precise nl) (hr : r.size = .precise nr)
    (h : A.query l r = .must) : ((relation A l r).coincide = true ↔ nl = nr) ∧
      ((relation A l r).cover = true ↔ nr < nl) ∧ ((relation A l r).contained = true ↔ nl < nr) := by
  simp only [relation, h, hl, hr, Size.precise.injEq]
  by_cases h1 : nl = nr
  · subst h1; simp
  · by_cases h2 : nl > nr
    · simp [h1, h2]; omega
    · simp [h1, h2]; omega

/-! ### Sets of ambiguous pointers -/

/-- The relation of each pair of pointers. -/
structure Desc.TrueOf (d : Desc) (addr : Nat → Int) (l r : Loc) : Prop where
  no : d.kind = .no → ∀ x, ¬ (l.bytes addr x ∧ r.bytes addr x)
  must : d.kind = .must → addr l.ptr = addr r.ptr
  contained : d.contained = true → Inside (l.bytes addr) (r.bytes addr)
  cover : d.cover = true → Inside (r.bytes addr) (l.bytes addr)

/-- Sizes describe the same bytes. -/
def SameSize (s t : Size) : Prop := ∀ a x, s.bytes a x ↔ t.bytes a x

/-- A descriptor of unknown relation has no additional traits. -/
def Desc.Clean (d : Desc) : Prop := d.kind = .may → d.coincide = false ∧ d.contained = false ∧ d.cover = false

theorem relation_clean (A : Llvm) (l r : Loc) : (relation A l r).Clean := by
  intro h
  revert h
  simp only [relation]
  cases A.query l r <;> simp only
  · simp
  · simp
  · split <;> (repeat' split) <;> simp
  · split <;> (repeat' split) <;> simp

theorem relation_coincide {A : Llvm} {l r : Loc} (h : (relation A l r).coincide = true) : SameSize l.size r.size := by
  revert h
  simp only [relation]
  cases A.query l r <;> simp only
  · simp
  · simp
  · split <;> (repeat' split) <;> simp
  · split
    · rename_i h1 h2
      rw [h1, h2]
      split
      · rename_i he
        intro _ a x
        rw [he]
      · split <;> simp
    · split
      · split
        · rename_i hc
          intro _ a x
          exact sizecmp_zero hc a x
        · split <;> simp
      · simp

theorem merge_clean {l r : Desc} (hl : l.Clean) (hr : r.Clean) : (merge l r).Clean := by
  intro h
  revert h
  unfold merge
  split
  · exact hl
  · simp only
    split
    · rename_i hk
      intro h
      simp only at h
      have h1 := hl h
      have h2 := hr (hk ▸ h)
      simp [h1, h2]
    · split <;> simp

theorem merge_left {l r : Desc} {addr : Nat → Int} {p q : Loc} (h : l.TrueOf addr p q) :
    (merge l r).TrueOf addr p q := by
  unfold merge
  split
  · exact h
  · simp only
    split
    · exact ⟨h.no, h.must, by simp, by simp⟩
    · split
      · exact ⟨by simp, by simp, by simp, by simp⟩
      · exact ⟨by simp, by simp, by simp, by simp⟩

theorem merge_right {l r : Desc} {addr : Nat → Int} {p q : Loc} (h : r.TrueOf addr p q) :
    (merge l r).TrueOf addr p q := by
  unfold merge
  split
  · rename_i heq
    rw [heq]
    exact h
  · simp only
    split
    · rename_i hk
      exact ⟨fun hn => h.no (hk ▸ hn), fun hn => h.must (hk ▸ hn), by simp, by simp⟩
    · split
      · exact ⟨by simp, by simp, by simp, by simp⟩
      · exact ⟨by simp, by simp, by simp, by simp⟩

/-- C60 (partial). If claims about kinds of aliases and about inclusion hold after a merge, they hold for both
merged relations. Missing: the claim that sizes coincide, see `range_coincide_fails`. -/
theorem merge_sound_partial (l r : Desc) (addr : Nat → Int) (p q : Loc)
    (h : l.TrueOf addr p q ∨ r.TrueOf addr p q) : (merge l r).TrueOf addr p q :=
  h.elim merge_left merge_right

theorem merge_coincide {l r : Desc} (h : (merge l r).coincide = true) : l.coincide = true ∨ r.coincide = true := by
  revert h
  unfold merge
  split
  · exact .inl
  · simp only
    split
    · simp only [Bool.and_eq_true, Bool.or_eq_true]
      exact fun h => h.1
    · split
      · simp only [Bool.and_eq_true, Bool.or_eq_true]
        exact fun h => h.1
      · simp

theorem trueOf_may {d : Desc} (hc : d.Clean) (h : d.kind = .may) (addr : Nat → Int) (p q : Loc) :
    d.TrueOf addr p q := by
  obtain ⟨-, h2, h3⟩ := hc h
  exact ⟨by simp [h], by simp [h], by simp [h2], by simp [h3]⟩

theorem mergeAll_sound {addr : Nat → Int} {p q : Loc} : ∀ (ds : List Desc) (d : Desc), d.Clean →
    (∀ d' ∈ ds, d'.Clean) → (∃ d' ∈ d :: ds, d'.TrueOf addr p q) → (mergeAll d ds).TrueOf addr p q := by
  intro ds
  induction ds with
  | nil =>
    rintro d _ _ ⟨d', hd', h⟩
    rw [List.mem_singleton.1 hd'] at h
    exact h
  | cons e ds ih =>
    rintro d hd hds ⟨d', hd', h⟩
    have hclean := merge_clean hd (hds e List.mem_cons_self)
    unfold mergeAll
    split
    · rename_i hk
      exact trueOf_may hclean hk addr p q
    · refine ih _ hclean (fun x hx => hds x (List.mem_cons_of_mem _ hx)) ?_
      rcases List.mem_cons.1 hd' with rfl | hd'
      · exact ⟨_, List.mem_cons_self, merge_left h⟩
      · rcases List.mem_cons.1 hd' with rfl | hd'
        · exact ⟨_, List.mem_cons_self, merge_right h⟩
        · exact ⟨d', List.mem_cons_of_mem _ hd', h⟩

theorem mergeAll_clean : ∀ (ds : List Desc) (d : Desc), d.Clean → (∀ d' ∈ ds, d'.Clean) → (mergeAll d ds).Clean := by
  intro ds
  induction ds with
  | nil => intro d hd _; exact hd
  | cons e ds ih =>
    intro d hd hds
    have hclean := merge_clean hd (hds e List.mem_cons_self)
    unfold mergeAll
    split
    · exact hclean
    · exact ih _ hclean fun x hx => hds x (List.mem_cons_of_mem _ hx)

theorem mergeAll_coincide : ∀ (ds : List Desc) (d : Desc), (mergeAll d ds).coincide = true →
    ∃ d' ∈ d :: ds, d'.coincide = true := by
  intro ds
  induction ds with
  | nil => intro d h; exact ⟨d, List.mem_cons_self, h⟩
  | cons e ds ih =>
    intro d h
    have key : ∀ {x : Desc}, x = merge d e → x.coincide = true → ∃ d' ∈ d :: e :: ds, d'.coincide = true := by
      rintro x rfl hx
      rcases merge_coincide hx with hx | hx
      · exact ⟨d, List.mem_cons_self, hx⟩
      · exact ⟨e, List.mem_cons_of_mem _ List.mem_cons_self, hx⟩
    unfold mergeAll at h
    split at h
    · exact key rfl h
    · obtain ⟨x, hx, hx'⟩ := ih _ h
      rcases List.mem_cons.1 hx with rfl | hx
      · exact key rfl hx'
      · exact ⟨x, List.mem_cons_of_mem _ (List.mem_cons_of_mem _ hx), hx'⟩

theorem memRelation_clean (A : Llvm) (l r : Mem) : (memRelation A l r).Clean := by
  unfold memRelation
  simp only
  split
  · exact relation_clean _ _ _
  · refine mergeAll_clean _ _ (relation_clean _ _ _) ?_
    intro d hd
    obtain ⟨p, -, hd⟩ := List.mem_flatMap.1 hd
    obtain ⟨q, -, rfl⟩ := List.mem_map.1 hd
    exact relation_clean _ _ _

/-- C37 (partial). The relation of estimate memory tells the truth about bytes which are accessed through any pair
of ambiguous pointers. Missing: locations with ends on different sides of the base, see `relation_fails`. -/
theorem memRelation_sound_partial (A : Llvm) (addr : Nat → Int) (hA : A.Sound addr) (l r : Mem)
    (hfit : ∀ p ∈ l.ptrs, ∀ q ∈ r.ptrs, Fits A ⟨p, l.size⟩ ⟨q, r.size⟩)
    (hside : ∀ p ∈ l.ptrs, ∀ q ∈ r.ptrs, SameSide A ⟨p, l.size⟩ ⟨q, r.size⟩)
    (p q : Nat) (hp : p ∈ l.ptrs) (hq : q ∈ r.ptrs) :
    (memRelation A l r).TrueOf addr ⟨p, l.size⟩ ⟨q, r.size⟩ ∧
    ((memRelation A l r).coincide = true → SameSize l.size r.size) ∧
    ((memRelation A l r).coincide = true → (memRelation A l r).kind = .must →
      ∀ x, Loc.bytes addr ⟨p, l.size⟩ x ↔ Loc.bytes addr ⟨q, r.size⟩ x) := by
  have hrel : (relation A ⟨p, l.size⟩ ⟨q, r.size⟩).TrueOf addr ⟨p, l.size⟩ ⟨q, r.size⟩ := by
    have h := relation_sound_partial A addr hA ⟨p, l.size⟩ ⟨q, r.size⟩ (hfit p hp q hq) (hside p hp q hq)
    exact ⟨h.no, h.must, h.contained, h.cover⟩
  have h1 : (memRelation A l r).TrueOf addr ⟨p, l.size⟩ ⟨q, r.size⟩ := by
    unfold memRelation
    simp only
    split
    · rename_i hk
      exact trueOf_may (relation_clean _ _ _) hk _ _ _
    · refine mergeAll_sound _ _ (relation_clean _ _ _) ?_ ⟨_, List.mem_cons_of_mem _ ?_, hrel⟩
      · intro d hd
        obtain ⟨p, -, hd⟩ := List.mem_flatMap.1 hd
        obtain ⟨q, -, rfl⟩ := List.mem_map.1 hd
        exact relation_clean _ _ _
      · exact List.mem_flatMap.2 ⟨p, hp, List.mem_map.2 ⟨q, hq, rfl⟩⟩
  have h2 : (memRelation A l r).coincide = true → SameSize l.size r.size := by
    unfold memRelation
    simp only
    split
    · exact relation_coincide
    · intro h
      obtain ⟨d, hd, hc⟩ := mergeAll_coincide _ _ h
      rcases List.mem_cons.1 hd with rfl | hd
      · exact relation_coincide hc
      · obtain ⟨p, -, hd⟩ := List.mem_flatMap.1 hd
        obtain ⟨q, -, rfl⟩ := List.mem_map.1 hd
        exact relation_coincide hc
  refine ⟨h1, h2, fun hc hk x => ?_⟩
  have := h1.must hk
  simp only at this
  simp only [Loc.bytes, this]
  exact h2 hc _ x

/-- C60 (partial). The relation of estimate memory to memory of an alias node tells the truth about all locations of
this node. Missing: the claim that sizes coincide, see `range_coincide_fails`. -/
theorem rangeRelation_sound_partial (A : Llvm) (addr : Nat → Int) (hA : A.Sound addr) (l r : Mem) (rs : List Mem)
    (hfit : ∀ r' ∈ r :: rs, ∀ p ∈ l.ptrs, ∀ q ∈ r'.ptrs, Fits A ⟨p, l.size⟩ ⟨q, r'.size⟩)
    (hside : ∀ r' ∈ r :: rs, ∀ p ∈ l.ptrs, ∀ q ∈ r'.ptrs, SameSide A ⟨p, l.size⟩ ⟨q, r'.size⟩)
    (r' : Mem) (hr : r' ∈ r :: rs) (p q : Nat) (hp : p ∈ l.ptrs) (hq : q ∈ r'.ptrs) :
    (rangeRelation A l r rs).TrueOf addr ⟨p, l.size⟩ ⟨q, r'.size⟩ := by
  have h := (memRelation_sound_partial A addr hA l r' (hfit r' hr) (hside r' hr) p q hp hq).1
  unfold rangeRelation
  simp only
  split
  · rename_i hk
    exact trueOf_may (memRelation_clean _ _ _) hk _ _ _
  · refine mergeAll_sound _ _ (memRelation_clean _ _ _) ?_ ?_
    · intro d hd
      obtain ⟨x, -, rfl⟩ := List.mem_map.1 hd
      exact memRelation_clean _ _ _
    · rcases List.mem_cons.1 hr with rfl | hr
      · exact ⟨_, List.mem_cons_self, h⟩
      · exact ⟨_, List.mem_cons_of_mem _ (List.mem_map.2 ⟨r', hr, rfl⟩), h⟩

/-! ## Examples and counterexamples -/

/-- Offsets of pointers `1`, `2` and `3`. -/
def exOff (o1 o2 : Int) (p : Nat) : Int := if p = 1 then o1 else if p = 2 then o2 else 0

/-- An exact alias analysis for known addresses and precise sizes. -/
def exQuery (a b : Int) : Size → Size → AR
  | .precise n, .precise m =>
    if a = b then .must
    else if a + n ≤ b ∨ b + m ≤ a then .no
    else if 0 < n ∧ 0 < m then .partial_
    else .may
  | _, _ => if a = b then .must else .may

/-- Pointers `1`, `2` and `3` are `p + o1`, `p + o2` and `p` where `p` is `0`. -/
def exA (o1 o2 : Int) : Llvm where
  base _ := 0
  offset := exOff o1 o2
  query l r := exQuery (exOff o1 o2 l.ptr) (exOff o1 o2 r.ptr) l.size r.size

/-- The address of `p` is 100. -/
def exAddr (o1 o2 : Int) (p : Nat) : Int := 100 + exOff o1 o2 p

theorem exQuery_sound (a b : Int) (s t : Size) :
    (exQuery a b s t = .no → ∀ x, ¬ (s.bytes (100 + a) x ∧ t.bytes (100 + b) x)) ∧
    (exQuery a b s t = .partial_ → ∃ x, s.bytes (100 + a) x ∧ t.bytes (100 + b) x) ∧
    (exQuery a b s t = .must → a = b) := by
  unfold exQuery
  split
  · rename_i n m
    simp only [Size.bytes]
    split
    · rename_i h; simp [h]
    · split
      · refine ⟨fun _ x => by omega, by simp, by simp⟩
      · split
        · refine ⟨by simp, fun _ => ⟨100 + max a b, by omega, by omega⟩, by simp⟩
        · simp
  · split
    · rename_i h; simp [h]
    · simp

theorem exSound (o1 o2 : Int) : (exA o1 o2).Sound (exAddr o1 o2) :=
  ⟨fun _ _ h => (exQuery_sound _ _ _ _).1 h, fun _ _ h => (exQuery_sound _ _ _ _).2.1 h,
    fun _ _ h => congrArg (100 + ·) ((exQuery_sound _ _ _ _).2.2 h), fun p => by simp [exAddr, exA, exOff]⟩

/-- C37. Six bytes before the address `p - 2` are reported to cover eight bytes from `p - 4`: ends of locations are
compared as unsigned values. -/
theorem relation_fails :
    ¬ ∀ (A : Llvm) (addr : Nat → Int) (l r : Loc), A.Sound addr → Fits A l r →
      (relation A l r).True (addr l.ptr) (addr r.ptr) (l.bytes addr) (r.bytes addr) := by
  intro h
  have h := h (exA (-8) (-4)) (exAddr (-8) (-4)) ⟨1, .precise 6⟩ ⟨2, .precise 8⟩ (exSound _ _) (by
    refine ⟨fun p => ?_, fun n hn => ?_, fun n hn => ?_⟩
    · simp only [exA, exOff]
      split
      · decide
      · split <;> decide
    · simp only [Size.precise.injEq] at hn; omega
    · simp only [Size.precise.injEq] at hn; omega)
  have h1 := h.cover (by decide)
  have h2 := h1.1 103 (by simp [Loc.bytes, Size.bytes, exAddr, exOff])
  simp [Loc.bytes, Size.bytes, exAddr, exOff] at h2

/-- C60. Sizes 4 and 8 of memory of a node are reported to coincide with the size 4, nothing says that the second one
is larger. -/
theorem range_coincide_fails :
    ¬ ∀ (A : Llvm) (addr : Nat → Int) (l r : Mem) (rs : List Mem), A.Sound addr →
      (rangeRelation A l r rs).coincide = true → (rangeRelation A l r rs).contained = false →
      (rangeRelation A l r rs).cover = false → ∀ r' ∈ r :: rs, SameSize l.size r'.size := by
  intro h
  have h := h (exA 0 0) (exAddr 0 0) ⟨3, [], .precise 4⟩ ⟨3, [], .precise 4⟩ [⟨3, [], .precise 8⟩] (exSound _ _)
    (by decide) (by decide) (by decide) ⟨3, [], .precise 8⟩ (by simp)
  have := (h 0 7).2 (by simp [Size.bytes])
  simp [Size.bytes] at this

theorem exFits (o1 o2 : Int) (h1 : -2 ^ 63 ≤ o1 ∧ o1 < 2 ^ 63) (h2 : -2 ^ 63 ≤ o2 ∧ o2 < 2 ^ 63) (l r : Loc)
    (hl : l.size = .precise 4 ∨ l.size = .precise 16) (hr : r.size = .precise 4 ∨ r.size = .precise 16) :
    Fits (exA o1 o2) l r := by
  refine ⟨fun p => ?_, fun n hn => ?_, fun n hn => ?_⟩
  · simp only [exA, exOff]
    split
    · exact h1
    · split
      · exact h2
      · decide
  · rcases hl with hl | hl <;> rw [hn] at hl <;> simp only [Size.precise.injEq] at hl <;> omega
  · rcases hr with hr | hr <;> rw [hn] at hr <;> simp only [Size.precise.injEq] at hr <;> omega

/-- Hypotheses of `memRelation_sound_partial` hold: 16 bytes from `p + 4` cover 4 bytes from `p + 8`. -/
example : (exA 4 8).Sound (exAddr 4 8) ∧ Fits (exA 4 8) ⟨1, .precise 16⟩ ⟨2, .precise 4⟩ ∧
    SameSide (exA 4 8) ⟨1, .precise 16⟩ ⟨2, .precise 4⟩ ∧
    memRelation (exA 4 8) ⟨1, [], .precise 16⟩ ⟨2, [], .precise 4⟩ = { kind := .partial_, cover := true } ∧
    memRelation (exA 4 4) ⟨1, [], .precise 16⟩ ⟨2, [1], .precise 16⟩ = { kind := .must, coincide := true } ∧
    rangeRelation (exA 4 4) ⟨1, [], .precise 4⟩ ⟨2, [1], .precise 16⟩ [⟨1, [], .precise 8⟩] =
      { kind := .must, contained := true } := by
  refine ⟨exSound _ _, exFits 4 8 (by decide) (by decide) _ _ (.inr rfl) (.inl rfl), ?_, by decide, by decide, by decide⟩
  intro nl nr hl hr
  simp only [Size.precise.injEq] at hl hr
  subst hl hr
  decide

end Alias
end Tsar
