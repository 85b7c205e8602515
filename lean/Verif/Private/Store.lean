import Verif.Private.Propagate

/-!
# Results for alias nodes

Models `storeResults()` and the result of `checkFirstPrivate()` from
`lib/Analysis/Memory/PrivateAnalysis.cpp`: property C59.
-/

namespace Tsar
namespace Private

open BitTrait

/-! ## Model -/

/-- Traits which describe kinds of loop-carried dependencies. -/
def kindOf : Fin 3 → DepTrait
  | 0 => .flow
  | 1 => .anti
  | 2 => .output

/-- `bcl::trait::unset<DependenceImp::Descriptor>()`. -/
def unsetKinds (d : DepTrait → Bool) : DepTrait → Bool :=
  fun x => if x = .flow ∨ x = .anti ∨ x = .output then false else d x

/-- Kinds are set one by one: `for_each(SummarizeFunctor)` or `bcl::trait::set(CombinedDepDptr, ...)`. -/
def setKinds (k : Kinds) (d : DepTrait → Bool) : DepTrait → Bool :=
  ([0, 1, 2] : List (Fin 3)).foldl (fun d i => if k i then setDep d (kindOf i) else d) d

/-- `checkFirstPrivate()` (PrivateAnalysis.cpp:1163-1219): `cover` is the result of the search for leaves which
are always defined. Returns the new trait and the new descriptor. -/
def checkFirst (cover : Bool) (t : Trait) (d : DepTrait → Bool) : Trait × (DepTrait → Bool) :=
  if d .firstPrivate || (!d .lastPrivate && !d .secondToLastPrivate) then (t, d)
  else if cover then (t, d)
  else (t &&& (if hasSharedJoin t then FirstPrivate ||| SharedJoin else FirstPrivate), setDep d .firstPrivate)

/-- A result for one element of a list of traits (PrivateAnalysis.cpp:1315-1330, 1352-1370). `none`: the behaviour
is undefined (`llvm_unreachable` or a missing description of a dependence). The flag `ExplicitAccess` is
omitted. -/
def storeElem (cover : Bool) (deps : Deps) (i : Item) : Option Dptr :=
  (toDescriptor i.2).bind fun d =>
    let c := checkFirst cover i.2 d.dep
    let u := unsetKinds c.2
    if dropUnitFlag c.1 = Dependency then (deps i.1).map fun k => ⟨d.unit, setKinds k u⟩
    else some ⟨d.unit, u⟩

/-- Kinds of dependencies which are added to the combined description (PrivateAnalysis.cpp:1366-1369). -/
def elemKinds (cover : Bool) (deps : Deps) (i : Item) : Kinds :=
  match toDescriptor i.2 with
  | some d =>
    if dropUnitFlag (checkFirst cover i.2 d.dep).1 = Dependency then (deps i.1).getD fun _ => false
    else fun _ => false
  | none => fun _ => false

/-- Kinds of dependencies for unknown memory (PrivateAnalysis.cpp:1386-1387): all kinds. -/
def unknownKinds (t : Trait) : Kinds := fun _ => decide (dropUnitFlag t = Dependency)

/-- `CombinedTrait` (PrivateAnalysis.cpp:1344-1404) of a node with several elements. -/
def combined (ts : List Trait) : Trait :=
  let c := joinAll ts
  if (ts.filter fun t => dropUnitFlag t != NoAccess).length > 1 then
    (c ||| AllUnitFlags) &&&
      (if dropUnitFlag c = NoAccess then NoAccess
       else if dropUnitFlag c = Readonly then Readonly
       else if hasSharedJoin c then Shared else Dependency)
  else c

/-- Do `a` or `b` contain a kind? -/
def orKinds (a b : Kinds) : Kinds := fun k => a k || b k

/-- `storeResults()` (PrivateAnalysis.cpp:1275-1421): the description of an alias node and descriptions of
elements of its list. `cover m`: results of `checkFirstPrivate()`. -/
def storeNode (cover : Nat → Bool) (deps : Deps) (l : List Item) (unk : List Trait) : Option (Dptr × List Dptr) :=
  match l, unk with
  | [i], [] => (storeElem (cover i.1) deps i).map fun d => (d, [d])
  | l, unk =>
    (l.mapM fun i => storeElem (cover i.1) deps i).bind fun es =>
      (toDescriptor (combined (l.map Prod.snd ++ unk))).map fun d =>
        let ks := (l.map fun i => elemKinds (cover i.1) deps i).foldr orKinds
          ((unk.map unknownKinds).foldr orKinds fun _ => false)
        (⟨d.unit, setKinds ks (unsetKinds d.dep)⟩, es)

/-! ## Specification -/

/-- At least one kind of dependence is reported. -/
def anyKind (d : Dptr) : Bool := d.dep .flow || d.dep .anti || d.dep .output

/-- It is reported that there are no dependencies or that they may be eliminated. -/
def harmless (d : Dptr) : Bool :=
  d.dep .noAccess || d.dep .readonly || d.dep .shared || isPrivate d || d.dep .reduction || d.dep .induction

/-- What a description means for a location: see `resolve_sound`. -/
structure Correct (its : List (List Acc)) (live : Nat → Prop) (bytes : Nat → Nat → Prop) (d : Dptr) : Prop where
  read : isPrivate d = true → ∀ m b, bytes m b → ∀ n p, (its.getD n [])[p]? = some (.rd b) →
    privRead (d.dep .firstPrivate) its n p b = some (seqRead its n p b)
  final : isPrivate d = true → ∀ m b, bytes m b → live b →
    privFinal (d.dep .firstPrivate) (outOf d) its b = some (seqFinal its b)
  shared : d.dep .shared = true → ∀ m b, bytes m b → ¬ Carried its b
  readonly : d.dep .readonly = true → ∀ m b, bytes m b → ∀ n, .wr b ∉ its.getD n []
  unused : d.unit .useAfterLoop = false → ∀ m b, bytes m b → ¬ live b
  access : d.dep .noAccess = false

/-! ## Lemmas -/

theorem correct_of_le {its : List (List Acc)} {live : Nat → Prop} {bytes : Nat → Nat → Prop} {i : LocInfo}
    (hf : Facts its live bytes i) {t : Trait} (hj : Joined t) (hle : t &&& resolveLoc i = t) {d : Dptr}
    (hd : toDescriptor t = some d) : Correct its live bytes d := by
  obtain ⟨d', hd', h1, h2, h3, h4, -⟩ := resolve_sound its live bytes i hf t hj hle
  rw [hd] at hd'
  cases hd'
  refine ⟨fun h m b hb => (h1 h m b hb).1, fun h m b hb => (h1 h m b hb).2, h2, h3, h4, ?_⟩
  cases hna : d.dep .noAccess with
  | false => rfl
  | true =>
    obtain ⟨ls, hls, hp⟩ := parts_bits _ (hi_mem hj)
    rw [toDescriptor, depCalls_hi, hls] at hd
    cases hd
    have h6 := bit_not_of_and hle (bits_7 i).1
    simp only at hp hna
    rw [hp.2.2.2.2.2.2.2.2.2.1 hna] at h6
    exact absurd h6 (by decide)

theorem setKinds_cases (k : Kinds) (d : DepTrait → Bool) :
    (setKinds k d = d ∧ ∀ i, k i = false) ∨
    ((∃ i, k i = true) ∧ (∀ x, x ≠ .flow → x ≠ .anti → x ≠ .output → setKinds k d x = false) ∧
      ∀ i, k i = true → setKinds k d (kindOf i) = true) := by
  have hk : ∀ P : Fin 3 → Prop, (∀ i, P i) ↔ P 0 ∧ P 1 ∧ P 2 := by
    intro P
    constructor
    · exact fun h => ⟨h 0, h 1, h 2⟩
    · rintro ⟨h0, h1, h2⟩ ⟨i, hi⟩
      match i, hi with
      | 0, _ => exact h0
      | 1, _ => exact h1
      | 2, _ => exact h2
  have he : (∃ i, k i = true) ↔ (k 0 = true ∨ k 1 = true ∨ k 2 = true) := by
    constructor
    · rintro ⟨⟨i, hi⟩, h⟩
      match i, hi with
      | 0, _ => exact .inl h
      | 1, _ => exact .inr (.inl h)
      | 2, _ => exact .inr (.inr h)
    · rintro (h | h | h)
      exacts [⟨_, h⟩, ⟨_, h⟩, ⟨_, h⟩]
  have c1 : ∀ x y : DepTrait, x ≠ .flow → x ≠ .anti → x ≠ .output → (y = .flow ∨ y = .anti ∨ y = .output) →
      DepTrait.compatible x y = false := by
    intro x y
    cases x <;> rintro h1 h2 h3 (rfl | rfl | rfl) <;> first | rfl | exact absurd rfl h1 | exact absurd rfl h2 | exact absurd rfl h3
  rw [hk (fun i => k i = false), he, hk (fun i => k i = true → setKinds k d (kindOf i) = true)]
  simp only [setKinds, List.foldl_cons, List.foldl_nil, kindOf]
  cases h0 : k 0 <;> cases h1 : k 1 <;> cases h2 : k 2
  · left; simp
  all_goals
    right
    refine ⟨by simp, ?_, by simp [setDep, DepTrait.compatible, DepTrait.unions]⟩
    intro x e1 e2 e3
    have f1 := c1 x .flow e1 e2 e3 (by simp)
    have f2 := c1 x .anti e1 e2 e3 (by simp)
    have f3 := c1 x .output e1 e2 e3 (by simp)
    simp [setDep, e1, e2, e3, f1, f2, f3]

/-- Kinds do not add other claims. -/
theorem Correct.kinds {its : List (List Acc)} {live : Nat → Prop} {bytes : Nat → Nat → Prop} {d : Dptr}
    (h : Correct its live bytes d) (k : Kinds) : Correct its live bytes ⟨d.unit, setKinds k (unsetKinds d.dep)⟩ := by
  rcases setKinds_cases k (unsetKinds d.dep) with ⟨he, -⟩ | ⟨-, he, -⟩
  · rw [he]
    have e : ∀ x, x ≠ .flow → x ≠ .anti → x ≠ .output → unsetKinds d.dep x = d.dep x := by
      intro x h1 h2 h3
      simp [unsetKinds, h1, h2, h3]
    have hp : isPrivate ⟨d.unit, unsetKinds d.dep⟩ = isPrivate d := by simp [isPrivate, e]
    have ho : outOf ⟨d.unit, unsetKinds d.dep⟩ = outOf d := by simp [outOf, e]
    have hfp : unsetKinds d.dep .firstPrivate = d.dep .firstPrivate := e _ (by simp) (by simp) (by simp)
    refine ⟨?_, ?_, fun hs => h.shared (by rw [← hs]; exact (e _ (by simp) (by simp) (by simp)).symm),
      fun hs => h.readonly (by rw [← hs]; exact (e _ (by simp) (by simp) (by simp)).symm), h.unused, ?_⟩
    · rw [hp]; simp only [hfp]; exact h.read
    · rw [hp, ho]; simp only [hfp]; exact h.final
    · have := e .noAccess (by simp) (by simp) (by simp)
      simp only [this]; exact h.access
  · have np : isPrivate ⟨d.unit, setKinds k (unsetKinds d.dep)⟩ = false := by
      simp [isPrivate, he]
    refine ⟨fun hp => ?_, fun hp => ?_, fun hp => ?_, fun hp => ?_, h.unused, by simp [he]⟩
    · rw [np] at hp; cases hp
    · rw [np] at hp; cases hp
    · simp [he] at hp
    · simp [he] at hp

theorem first_table : ∀ x ∈ parts, ((depCalls (x ++ BitVec.allOnes 10 : BitVec 19)).all fun ls =>
    let d : DepTrait → Bool := ls.foldl setDep fun _ => false
    (d .firstPrivate || (!d .lastPrivate && !d .secondToLastPrivate)) ||
    ((depCalls ((x &&& hi (if x &&& 1#9 ≠ 0 then FirstPrivate ||| SharedJoin else FirstPrivate)) ++
      BitVec.allOnes 10 : BitVec 19)).any fun ls' =>
        ([.noAccess, .readonly, .reduction, .induction, .flow, .anti, .output, .priv, .shared, .lastPrivate,
          .firstPrivate, .secondToLastPrivate, .dynamicPrivate] : List DepTrait).all fun y =>
          decide ((ls'.foldl setDep fun _ => false : DepTrait → Bool) y = setDep d .firstPrivate y))) = true := by
  decide +kernel

theorem joined_first (s : Bool) : Joined (if s then FirstPrivate ||| SharedJoin else FirstPrivate) := by
  cases s
  · exact .base .firstPrivate
  · exact .base .sharedFirst

theorem unit_first (s : Bool) (t : Trait) (u : UnitTrait) :
    toUnit (t &&& (if s then FirstPrivate ||| SharedJoin else FirstPrivate)) u = toUnit t u := by
  rw [toUnit_eq, toUnit_eq, BitVec.getLsbD_and]
  cases s <;> cases u <;> simp [UnitTrait.bit, FirstPrivate, SharedJoin]

/-- The description is changed consistently with the trait. -/
theorem checkFirst_spec {t : Trait} (hj : Joined t) {d : Dptr} (hd : toDescriptor t = some d) (cover : Bool) :
    toDescriptor (checkFirst cover t d.dep).1 = some ⟨d.unit, (checkFirst cover t d.dep).2⟩ ∧
    Joined (checkFirst cover t d.dep).1 ∧ (checkFirst cover t d.dep).1 &&& t = (checkFirst cover t d.dep).1 ∧
    ((checkFirst cover t d.dep).2 .lastPrivate = true ∨ (checkFirst cover t d.dep).2 .secondToLastPrivate = true →
      cover = true ∨ (checkFirst cover t d.dep).2 .firstPrivate = true) := by
  unfold checkFirst
  split
  · next h =>
    refine ⟨hd, hj, BitVec.and_self, ?_⟩
    intro h'
    rw [Bool.or_eq_true, Bool.and_eq_true, Bool.not_eq_true', Bool.not_eq_true'] at h
    rcases h with h | ⟨h1, h2⟩
    · exact .inr h
    · simp [h1, h2] at h'
  · next h =>
    split
    · next hc => exact ⟨hd, hj, BitVec.and_self, fun _ => .inl hc⟩
    · refine ⟨?_, .join hj (joined_first (hasSharedJoin t)), meet_le_left _ _, fun _ => .inr (by simp [setDep])⟩
      rw [toDescriptor, depCalls_hi] at hd
      obtain ⟨ls, hls, hd'⟩ := Option.map_eq_some_iff.1 hd
      have ht := first_table (hi t) (hi_mem hj)
      rw [hls] at ht
      simp only [Option.all_some, Bool.or_eq_true] at ht
      rw [← hd'] at h ⊢
      simp only at h ⊢
      rcases ht with ht | ht
      · exact absurd (by simpa using ht) h
      · rw [toDescriptor, depCalls_hi, hi_and]
        have hsj : (if hasSharedJoin t = true then FirstPrivate ||| SharedJoin else FirstPrivate) =
            (if hi t &&& 1#9 ≠ 0 then FirstPrivate ||| SharedJoin else FirstPrivate) := by
          rw [hasSharedJoin_eq]
          simp only [decide_eq_true_eq]
        rw [hsj]
        cases hc : depCalls ((hi t &&& hi (if hi t &&& 1#9 ≠ 0 then FirstPrivate ||| SharedJoin else FirstPrivate)) ++
          BitVec.allOnes 10 : BitVec 19) with
        | none => rw [hc] at ht; cases ht
        | some ls' =>
          rw [hc] at ht
          simp only [Option.any_some, List.all_eq_true, decide_eq_true_eq] at ht
          simp only [Option.map_some, Option.some.injEq, Dptr.mk.injEq]
          refine ⟨?_, ?_⟩
          · funext u
            rw [← hsj]
            exact unit_first _ t u
          · funext y
            exact ht y (by cases y <;> simp)

theorem storeElem_spec {t : Trait} (hj : Joined t) (cover : Bool) (deps : Deps) (m : Nat) {d : Dptr}
    (hs : storeElem cover deps (m, t) = some d) :
    ∃ d0 t', toDescriptor t = some d0 ∧ toDescriptor t' = some ⟨d.unit, (checkFirst cover t d0.dep).2⟩ ∧
      t' = (checkFirst cover t d0.dep).1 ∧ Joined t' ∧ t' &&& t = t' ∧
      (d.dep = unsetKinds (checkFirst cover t d0.dep).2 ∧ dropUnitFlag t' ≠ Dependency ∨
        ∃ k, deps m = some k ∧ d.dep = setKinds k (unsetKinds (checkFirst cover t d0.dep).2) ∧
          dropUnitFlag t' = Dependency) := by
  unfold storeElem at hs
  obtain ⟨d0, hd0, hs⟩ := Option.bind_eq_some_iff.1 hs
  obtain ⟨c1, c2, c3, -⟩ := checkFirst_spec hj hd0 cover
  simp only at hs
  split at hs
  · next he =>
    obtain ⟨k, hk, rfl⟩ := Option.map_eq_some_iff.1 hs
    exact ⟨d0, _, hd0, c1, rfl, c2, c3, .inr ⟨k, hk, rfl, he⟩⟩
  · next he =>
    cases hs
    exact ⟨d0, _, hd0, c1, rfl, c2, c3, .inl ⟨rfl, he⟩⟩

theorem unsetKinds_eq_setKinds (d : DepTrait → Bool) : unsetKinds d = setKinds (fun _ => false) (unsetKinds d) := rfl

theorem combined_cases (ts : List Trait) :
    ((ts.filter fun t => dropUnitFlag t != NoAccess).length ≤ 1 ∧ combined ts = joinAll ts) ∨
    (1 < (ts.filter fun t => dropUnitFlag t != NoAccess).length ∧
      combined ts = (joinAll ts ||| AllUnitFlags) &&&
      (if dropUnitFlag (joinAll ts) = NoAccess then NoAccess
       else if dropUnitFlag (joinAll ts) = Readonly then Readonly
       else if hasSharedJoin (joinAll ts) then Shared else Dependency)) := by
  unfold combined
  by_cases h : (ts.filter fun t => dropUnitFlag t != NoAccess).length > 1
  · rw [if_pos h]
    exact .inr ⟨h, rfl⟩
  · rw [if_neg h]
    exact .inl ⟨by omega, rfl⟩

/-- Parts of a combined trait. -/
theorem combined_hi (c x : Trait) (hx : x = NoAccess ∨ x = Readonly ∨ x = Shared ∨ x = Dependency) :
    hi ((c ||| AllUnitFlags) &&& x) = hi x ∧ ∀ u, toUnit ((c ||| AllUnitFlags) &&& x) u = toUnit c u := by
  constructor
  · rw [hi_and]
    have : hi (c ||| AllUnitFlags) = BitVec.allOnes 9 := by
      ext k hk
      simp only [hi, BitVec.getElem_extractLsb', BitVec.getLsbD_or, BitVec.getElem_allOnes]
      have : ∀ k < 9, AllUnitFlags.getLsbD (10 + k) = true := by decide
      rw [this k hk, Bool.or_true]
    rw [this, BitVec.allOnes_and]
  · intro u
    rw [toUnit_eq, toUnit_eq, BitVec.getLsbD_and, BitVec.getLsbD_or]
    have h1 : AllUnitFlags.getLsbD u.bit = false := by cases u <;> decide
    have h2 : x.getLsbD u.bit = true := by
      rcases hx with rfl | rfl | rfl | rfl <;> cases u <;> decide
    rw [h1, h2, Bool.or_false, Bool.and_true]

theorem hi_of_drop {c x : Trait} (h : dropUnitFlag c = x) : hi c = hi x := by
  rw [← h, dropUnit_eq]
  have : ∀ x : BitVec 9, hi (x ++ BitVec.allOnes 10 : BitVec 19) = x := by decide +kernel
  exact (this _).symm

theorem joinAll_le {ts : List Trait} {t : Trait} (h : t ∈ ts) : joinAll ts &&& t = joinAll ts := by
  apply BitVec.eq_of_getLsbD_eq
  intro k hk
  rw [BitVec.getLsbD_and, joinAll_bit ts k hk]
  cases ht : t.getLsbD k with
  | true => rw [Bool.and_true]
  | false =>
    rw [Bool.and_false, eq_comm, List.all_eq_false]
    exact ⟨t, h, by simp [ht]⟩

theorem mapM_get {α β : Type} {g : α → Option β} : ∀ {l : List α} {r : List β}, l.mapM g = some r →
    r.length = l.length ∧ ∀ (k : Nat) (a : α), l[k]? = some a → ∃ b, r[k]? = some b ∧ g a = some b := by
  intro l
  induction l with
  | nil => intro r h; cases h; exact ⟨rfl, by simp⟩
  | cons x l ih =>
    intro r h
    rw [List.mapM_cons] at h
    obtain ⟨b, hb, h⟩ := Option.bind_eq_some_iff.1 h
    obtain ⟨r', hr', h⟩ := Option.bind_eq_some_iff.1 h
    cases h
    obtain ⟨h1, h2⟩ := ih hr'
    refine ⟨by simp [h1], ?_⟩
    intro k a hk
    cases k with
    | zero => simp only [List.getElem?_cons_zero, Option.some.injEq] at hk ⊢; subst hk; exact ⟨b, rfl, hb⟩
    | succ k => exact h2 k a hk

/-- A combined trait is correct. -/
theorem combined_correct {its : List (List Acc)} {live : Nat → Prop} {bytes : Nat → Nat → Prop} {i : LocInfo}
    (hf : Facts its live bytes i) {ts : List Trait} (hj : ∀ t ∈ ts, Joined t) {t : Trait} (ht : t ∈ ts)
    (hle : t &&& resolveLoc i = t) {d : Dptr} (hd : toDescriptor (combined ts) = some d) :
    Correct its live bytes d := by
  have hjoin := joined_joinAll hj
  have hle' := le_trans' (joinAll_le ht) hle
  rcases combined_cases ts with ⟨-, hc⟩ | ⟨-, hc⟩
  · rw [hc] at hd
    exact correct_of_le hf hjoin hle' hd
  · rw [hc] at hd
    have hb := bitFacts_mono hle' (bitFacts_loc hf)
    have key : ∀ x, (x = NoAccess ∨ x = Readonly ∨ x = Shared ∨ x = Dependency) →
        toDescriptor ((joinAll ts ||| AllUnitFlags) &&& x) = some d →
        ∃ ls, depCalls x = some ls ∧ d = ⟨toUnit (joinAll ts), ls.foldl setDep fun _ => false⟩ := by
      intro x hx hd
      obtain ⟨h1, h2⟩ := combined_hi (joinAll ts) x hx
      rw [toDescriptor, depCalls_hi, h1, ← depCalls_hi] at hd
      obtain ⟨ls, hls, rfl⟩ := Option.map_eq_some_iff.1 hd
      refine ⟨ls, hls, ?_⟩
      simp only [Dptr.mk.injEq, and_true]
      funext u
      exact h2 u
    split at hd
    · next h =>
      have h6 := bit_not_of_and hle' (bits_7 i).1
      rw [hi_of_drop h] at h6
      exact absurd h6 (by decide)
    split at hd
    · next h =>
      obtain ⟨ls, hls, rfl⟩ := key _ (.inr (.inl rfl)) hd
      have : ls = [.readonly] := by
        have h1 : depCalls Readonly = some [.readonly] := by decide
        rw [h1] at hls; exact (Option.some.inj hls).symm
      subst this
      have hro : (hi (joinAll ts)).getLsbD 5 = true := by rw [hi_of_drop h]; decide
      exact ⟨by intro h; exact absurd (show false = true from h) (by decide), by intro h; exact absurd (show false = true from h) (by decide),
        by intro h; exact absurd (show false = true from h) (by decide), fun _ => hb.b5 hro, hb.live, rfl⟩
    split at hd
    · next h =>
      obtain ⟨ls, hls, rfl⟩ := key _ (.inr (.inr (.inl rfl))) hd
      have : ls = [.shared] := by
        have h1 : depCalls Shared = some [.shared] := by decide
        rw [h1] at hls; exact (Option.some.inj hls).symm
      subst this
      have hsh : (hi (joinAll ts)).getLsbD 0 = true := by
        rw [hasSharedJoin_eq, decide_eq_true_eq] at h
        have : ∀ x : BitVec 9, x &&& 1#9 ≠ 0 → x.getLsbD 0 = true := by decide +kernel
        exact this _ h
      exact ⟨by intro h; exact absurd (show false = true from h) (by decide), by intro h; exact absurd (show false = true from h) (by decide),
        fun _ => hb.b0 hsh, by intro h; exact absurd (show false = true from h) (by decide), hb.live, rfl⟩
    · obtain ⟨ls, hls, rfl⟩ := key _ (.inr (.inr (.inr rfl))) hd
      have : ls = [.flow, .anti, .output] := by
        have h1 : depCalls Dependency = some [.flow, .anti, .output] := by decide
        rw [h1] at hls; exact (Option.some.inj hls).symm
      subst this
      exact ⟨by intro h; exact absurd (show false = true from h) (by decide), by intro h; exact absurd (show false = true from h) (by decide),
        by intro h; exact absurd (show false = true from h) (by decide), by intro h; exact absurd (show false = true from h) (by decide), hb.live, rfl⟩

/-- A description of one element is correct. -/
theorem storeElem_correct {its : List (List Acc)} {live : Nat → Prop} {bytes : Nat → Nat → Prop} {i : LocInfo}
    (hf : Facts its live bytes i) {t : Trait} (hj : Joined t) (hle : t &&& resolveLoc i = t) {cover : Bool}
    {deps : Deps} {m : Nat} {d : Dptr} (hs : storeElem cover deps (m, t) = some d) : Correct its live bytes d := by
  obtain ⟨d0, t', -, h1, -, h3, h4, h5⟩ := storeElem_spec hj cover deps m hs
  have hc := correct_of_le hf h3 (le_trans' h4 hle) h1
  obtain ⟨du, dd⟩ := d
  simp only at hc h5 ⊢
  rcases h5 with ⟨rfl, -⟩ | ⟨k, -, rfl, -⟩
  · exact hc.kinds fun _ => false
  · exact hc.kinds k

theorem storeNode_cases (cover : Nat → Bool) (deps : Deps) (l : List Item) (unk : List Trait) :
    (∃ i, l = [i] ∧ unk = [] ∧ storeNode cover deps l unk = (storeElem (cover i.1) deps i).map fun d => (d, [d])) ∨
    storeNode cover deps l unk = (l.mapM fun i => storeElem (cover i.1) deps i).bind fun es =>
      (toDescriptor (combined (l.map Prod.snd ++ unk))).map fun d =>
        (⟨d.unit, setKinds ((l.map fun i => elemKinds (cover i.1) deps i).foldr orKinds
          ((unk.map unknownKinds).foldr orKinds fun _ => false)) (unsetKinds d.dep)⟩, es) := by
  unfold storeNode
  split
  · next i => exact .inl ⟨i, rfl, rfl, rfl⟩
  · exact .inr rfl

theorem foldr_orKinds {ks : List Kinds} {z : Kinds} {i : Fin 3} :
    ks.foldr orKinds z i = true ↔ (∃ k ∈ ks, k i = true) ∨ z i = true := by
  induction ks with
  | nil => simp
  | cons k ks ih =>
    rw [List.foldr_cons, orKinds, Bool.or_eq_true, ih]
    simp only [List.mem_cons, exists_eq_or_imp]
    exact or_assoc.symm

theorem anyKind_set {k : Kinds} {u : UnitTrait → Bool} {d : DepTrait → Bool} {i : Fin 3} (h : k i = true) :
    anyKind ⟨u, setKinds k d⟩ = true := by
  rcases setKinds_cases k d with ⟨-, he⟩ | ⟨-, -, he⟩
  · rw [he i] at h; cases h
  · have := he i h
    unfold anyKind
    match i with
    | 0 => simp only [kindOf] at this; simp [this]
    | 1 => simp only [kindOf] at this; simp [this]
    | 2 => simp only [kindOf] at this; simp [this]

theorem harmless_unset {u : UnitTrait → Bool} {d : DepTrait → Bool} (h : harmless ⟨u, d⟩ = true) :
    harmless ⟨u, unsetKinds d⟩ = true := by
  have e : ∀ x, x ≠ .flow → x ≠ .anti → x ≠ .output → unsetKinds d x = d x := by
    intro x h1 h2 h3
    simp [unsetKinds, h1, h2, h3]
  rw [← h]
  simp [harmless, isPrivate, e]

theorem joinAll_cons (t : Trait) (ts : List Trait) : joinAll (t :: ts) = t &&& joinAll ts := by
  rw [joinAll, List.foldl_cons, foldl_and, noAccess_and]

theorem joinAll_filter (ts : List Trait) :
    hi (joinAll ts) = hi (joinAll (ts.filter fun t => dropUnitFlag t != NoAccess)) := by
  induction ts with
  | nil => rfl
  | cons t ts ih =>
    rw [joinAll_cons, hi_and, ih]
    cases h : dropUnitFlag t != NoAccess with
    | true => rw [List.filter_cons_of_pos (p := fun t => dropUnitFlag t != NoAccess) h, joinAll_cons, hi_and]
    | false =>
      rw [List.filter_cons_of_neg (p := fun t => dropUnitFlag t != NoAccess) (by simp only [h]; simp)]
      have : hi t = BitVec.allOnes 9 := by
        rw [bne_eq_false_iff_eq] at h
        rw [hi_of_drop h]; decide
      rw [this, BitVec.allOnes_and]

theorem shared_bit (t : Trait) : hasSharedJoin t = (hi t).getLsbD 0 := by
  rw [hasSharedJoin_eq]
  have : ∀ x : BitVec 9, decide (x &&& 1#9 ≠ 0) = x.getLsbD 0 := by decide +kernel
  exact this _

theorem joinAll_shared {ts : List Trait} (h : ∀ t ∈ ts, hasSharedJoin t = true) : hasSharedJoin (joinAll ts) = true := by
  induction ts with
  | nil => decide
  | cons t ts ih =>
    rw [shared_bit, joinAll_cons, hi_and, BitVec.getLsbD_and, ← shared_bit, ← shared_bit,
      h t List.mem_cons_self, ih fun t ht => h t (List.mem_cons_of_mem _ ht)]
    rfl

/-- A description without kinds of dependencies. -/
theorem harmless_part : ∀ x ∈ parts, x ≠ 0 → ((depCalls (x ++ BitVec.allOnes 10 : BitVec 19)).all fun ls =>
    harmless ⟨fun _ => false, ls.foldl setDep fun _ => false⟩) = true := by
  decide +kernel

theorem harmless_of {t : Trait} (hj : Joined t) (ht : dropUnitFlag t ≠ Dependency) {d : Dptr}
    (hd : toDescriptor t = some d) : harmless d = true := by
  have hne : hi t ≠ 0 := by
    intro h
    apply ht
    rw [dropUnit_eq, h]
    decide
  have := harmless_part (hi t) (hi_mem hj) hne
  rw [toDescriptor, depCalls_hi] at hd
  obtain ⟨ls, hls, rfl⟩ := Option.map_eq_some_iff.1 hd
  rw [hls] at this
  exact this

/-! ## C59 -/

/-- **C59** does not hold: a dependence due to a pointer which is not read-only is not recorded in the map of
dependencies, `mergeDependence()` creates an empty description, as a result nothing is reported for a node. -/
theorem store_reports_fails : ¬ ∀ (cover : Nat → Bool) (deps : Deps) (l : List Item) (unk : List Trait) d es,
    (∀ i ∈ l, Joined i.2) → (∀ t ∈ unk, Joined t) → storeNode cover deps l unk = some (d, es) →
    (anyKind d || harmless d) = true := by
  intro h
  have := h (fun _ => true) (mergeDep 0 Dependency 0 fun _ => none) [(0, Dependency)] [] _ _
    (by
      intro i hi
      rw [List.mem_singleton] at hi
      subst hi
      exact .base .dependency) (by simp) rfl
  exact absurd this (by decide)

/-- **C59** does not hold: there are two private locations which are not shared in a node, nothing is reported for
the node. -/
theorem store_reports_private_fails : ¬ ∀ (cover : Nat → Bool) (deps : Deps) (l : List Item) (unk : List Trait) d es,
    (∀ i ∈ l, Joined i.2) → (∀ t ∈ unk, Joined t) → (∀ i ∈ l, dropUnitFlag i.2 ≠ Dependency) →
    storeNode cover deps l unk = some (d, es) → (anyKind d || harmless d) = true := by
  intro h
  have := h (fun _ => true) (fun _ => none) [(0, Private), (1, Private)] [] _ _
    (by
      intro i hi
      simp only [List.mem_cons, List.not_mem_nil, or_false] at hi
      rcases hi with rfl | rfl <;> exact .base .priv) (by simp) (by decide) rfl
  exact absurd this (by decide)

/-- **C59.** If something is claimed for an alias node or for memory in it, it is true for each location which
is accessed in the loop and is covered by the memory: see `Correct`. The list consists of memory with traits (see
`propagate_antichain`), `t` is less than a trait of the location. -/
theorem store_sound (cover : Nat → Bool) (deps : Deps) (l : List Item) (unk : List Trait)
    (hl : ∀ i ∈ l, Joined i.2) (hu : ∀ t ∈ unk, Joined t) (d : Dptr) (es : List Dptr)
    (hs : storeNode cover deps l unk = some (d, es)) (its : List (List Acc)) (live : Nat → Prop)
    (bytes : Nat → Nat → Prop) (i : LocInfo) (hf : Facts its live bytes i) (k m : Nat) (t : Trait)
    (hk : l[k]? = some (m, t)) (hle : t &&& resolveLoc i = t) :
    Correct its live bytes d ∧ ∃ e, es[k]? = some e ∧ Correct its live bytes e := by
  have hm := List.mem_of_getElem? hk
  rcases storeNode_cases cover deps l unk with ⟨j, rfl, rfl, he⟩ | he
  · rw [he] at hs
    obtain ⟨d', hd', hs⟩ := Option.map_eq_some_iff.1 hs
    cases hs
    have hk0 : k = 0 := by
      have := (List.getElem?_eq_some_iff.1 hk).1
      simp only [List.length_cons, List.length_nil] at this
      omega
    subst hk0
    simp only [List.getElem?_cons_zero, Option.some.injEq] at hk
    subst hk
    have := storeElem_correct hf (hl _ hm) hle hd'
    exact ⟨this, d, rfl, this⟩
  · rw [he] at hs
    obtain ⟨es', hes, hs⟩ := Option.bind_eq_some_iff.1 hs
    obtain ⟨d', hd', hs⟩ := Option.map_eq_some_iff.1 hs
    cases hs
    constructor
    · refine (combined_correct hf ?_ (List.mem_append_left _ (List.mem_map_of_mem (f := Prod.snd) hm)) hle hd').kinds _
      intro t ht
      rcases List.mem_append.1 ht with ht | ht
      · obtain ⟨j, hj, rfl⟩ := List.mem_map.1 ht
        exact hl j hj
      · exact hu t ht
    · obtain ⟨e, h1, h2⟩ := (mapM_get hes).2 k _ hk
      exact ⟨e, h1, storeElem_correct hf (hl _ hm) hle h2⟩

/-- **C59.** A dependence is reported for a node with unknown memory which may be written. -/
theorem store_unknown (cover : Nat → Bool) (deps : Deps) (l : List Item) (unk : List Trait) (d : Dptr)
    (es : List Dptr) (hs : storeNode cover deps l unk = some (d, es)) (t : Trait) (ht : t ∈ unk)
    (hd : dropUnitFlag t = Dependency) : anyKind d = true := by
  rcases storeNode_cases cover deps l unk with ⟨j, rfl, rfl, he⟩ | he
  · cases ht
  · rw [he] at hs
    obtain ⟨es', hes, hs⟩ := Option.bind_eq_some_iff.1 hs
    obtain ⟨d', hd', hs⟩ := Option.map_eq_some_iff.1 hs
    cases hs
    refine anyKind_set (i := 0) (foldr_orKinds.2 (.inr (foldr_orKinds.2 (.inl ?_))))
    exact ⟨_, List.mem_map_of_mem ht, by simp [unknownKinds, hd]⟩

/-- **C59**, a part: something is reported for a node if kinds of dependencies are known for each memory with
dependencies and if it is not the case that there are several locations which are privatizable only. -/
theorem store_reports_partial (cover : Nat → Bool) (deps : Deps) (l : List Item) (unk : List Trait)
    (hl : ∀ i ∈ l, Joined i.2) (hu : ∀ t ∈ unk, Joined t) (d : Dptr) (es : List Dptr)
    (hs : storeNode cover deps l unk = some (d, es))
    (hrec : ∀ i ∈ l, dropUnitFlag i.2 = Dependency → ∃ k, Rec deps i.1 k)
    (hsev : ((l.map Prod.snd ++ unk).filter fun t => dropUnitFlag t != NoAccess).length ≤ 1 ∨
      (∀ t ∈ l.map Prod.snd ++ unk, hasSharedJoin t = true) ∨
      ∃ t ∈ l.map Prod.snd ++ unk, dropUnitFlag t = Dependency) :
    (anyKind d || harmless d) = true := by
  have hall : ∀ t ∈ l.map Prod.snd ++ unk, Joined t := by
    intro t ht
    rcases List.mem_append.1 ht with ht | ht
    · obtain ⟨j, hj, rfl⟩ := List.mem_map.1 ht
      exact hl j hj
    · exact hu t ht
  have first : ∀ (t : Trait) (d0 : Dptr) (c : Bool), Joined t → toDescriptor t = some d0 →
      (dropUnitFlag (checkFirst c t d0.dep).1 = Dependency ↔ dropUnitFlag t = Dependency) := by
    intro t d0 c hj hd0
    constructor
    · intro h
      by_contra hne
      have hh := checkFirst_spec hj hd0 c
      unfold checkFirst at h hh
      split at h
      · exact hne h
      · split at h
        · exact hne h
        · next h1 h2 =>
          rw [if_neg h1, if_neg h2] at hh
          have e1 := hi_of_drop h
          have e2 := hh.1
          rw [toDescriptor, depCalls_hi, e1] at e2
          have e3 : depCalls (hi Dependency ++ BitVec.allOnes 10 : BitVec 19) = some [.flow, .anti, .output] := by decide
          rw [e3] at e2
          simp only [Option.map_some, Option.some.injEq, Dptr.mk.injEq] at e2
          have e4 := congrFun e2.2 .firstPrivate
          rw [show setDep d0.dep .firstPrivate .firstPrivate = true from by simp [setDep]] at e4
          exact absurd e4 (by decide)
    · intro h
      have e1 := hi_of_drop h
      rw [toDescriptor, depCalls_hi, e1] at hd0
      have e3 : depCalls (hi Dependency ++ BitVec.allOnes 10 : BitVec 19) = some [.flow, .anti, .output] := by decide
      rw [e3] at hd0
      cases hd0
      unfold checkFirst
      rw [if_pos (by rfl)]
      exact h
  rcases storeNode_cases cover deps l unk with ⟨j, rfl, rfl, he⟩ | he
  · rw [he] at hs
    obtain ⟨d', hd', hs⟩ := Option.map_eq_some_iff.1 hs
    cases hs
    obtain ⟨m, t⟩ := j
    have hj := hl _ List.mem_cons_self
    obtain ⟨d0, t', h0, h1, h2, h3, -, h5⟩ := storeElem_spec hj _ deps m hd'
    obtain ⟨du, dd⟩ := d
    simp only at h5 h1
    rcases h5 with ⟨rfl, hne⟩ | ⟨k, hk, rfl, hde⟩
    · rw [harmless_unset (harmless_of h3 hne h1), Bool.or_true]
    · rw [h2] at hde
      obtain ⟨i, ks, hks, hki⟩ := hrec (m, t) List.mem_cons_self ((first t d0 _ hj h0).1 hde)
      rw [hk] at hks
      cases hks
      rw [anyKind_set hki, Bool.true_or]
  · rw [he] at hs
    obtain ⟨es', hes, hs⟩ := Option.bind_eq_some_iff.1 hs
    obtain ⟨d', hd', hs⟩ := Option.map_eq_some_iff.1 hs
    cases hs
    have hdep : (∃ t ∈ l.map Prod.snd ++ unk, dropUnitFlag t = Dependency) → anyKind (⟨d'.unit, setKinds
        ((l.map fun i => elemKinds (cover i.1) deps i).foldr orKinds
          ((unk.map unknownKinds).foldr orKinds fun _ => false)) (unsetKinds d'.dep)⟩ : Dptr) = true := by
      rintro ⟨t, ht, hde⟩
      rcases List.mem_append.1 ht with ht | ht
      · obtain ⟨⟨m, t'⟩, hj, rfl⟩ := List.mem_map.1 ht
        obtain ⟨k, ks, hks, hki⟩ := hrec _ hj hde
        obtain ⟨kk, hkk⟩ := List.getElem?_of_mem hj
        obtain ⟨e, -, hel⟩ := (mapM_get hes).2 kk _ hkk
        refine anyKind_set (i := k) (foldr_orKinds.2 (.inl ⟨_, List.mem_map_of_mem hj, ?_⟩))
        obtain ⟨d0, t', h0, -, -, -, -, -⟩ := storeElem_spec (hl _ hj) _ deps m hel
        unfold elemKinds
        simp only [h0]
        rw [if_pos ((first _ d0 _ (hl _ hj) h0).2 hde)]
        simp only at hks
        rw [hks]
        exact hki
      · refine anyKind_set (i := 0) (foldr_orKinds.2 (.inr (foldr_orKinds.2 (.inl ?_))))
        exact ⟨_, List.mem_map_of_mem ht, by simp [unknownKinds, hde]⟩
    by_cases hex : ∃ t ∈ l.map Prod.snd ++ unk, dropUnitFlag t = Dependency
    · rw [hdep hex, Bool.true_or]
    · have hset : ∀ K : Kinds, harmless d' = true →
          (anyKind ⟨d'.unit, setKinds K (unsetKinds d'.dep)⟩ || harmless ⟨d'.unit, setKinds K (unsetKinds d'.dep)⟩) = true := by
        intro K hh
        rcases setKinds_cases K (unsetKinds d'.dep) with ⟨e, -⟩ | ⟨⟨i, hi⟩, -, -⟩
        · rw [e, harmless_unset hh, Bool.or_true]
        · rw [anyKind_set hi, Bool.true_or]
      apply hset
      rcases combined_cases (l.map Prod.snd ++ unk) with ⟨hn, hc⟩ | ⟨hn, hc⟩
      · rw [hc] at hd'
        refine harmless_of (joined_joinAll hall) ?_ hd'
        intro hde
        refine hex ?_
        have hf := joinAll_filter (l.map Prod.snd ++ unk)
        cases hfl : (l.map Prod.snd ++ unk).filter fun t => dropUnitFlag t != NoAccess with
        | nil =>
          rw [hfl] at hf
          rw [hi_of_drop hde] at hf
          exact absurd hf (by decide)
        | cons t r =>
          rw [hfl] at hn hf
          have hr : r = [] := List.eq_nil_of_length_eq_zero (by simp only [List.length_cons] at hn; omega)
          subst hr
          rw [hi_of_drop hde] at hf
          refine ⟨t, List.mem_of_mem_filter (by rw [hfl]; exact List.mem_cons_self), ?_⟩
          have : joinAll [t] = t := noAccess_and t
          rw [this] at hf
          rw [dropUnit_eq, ← hf]
          decide
      · have hsh : ∀ t ∈ l.map Prod.snd ++ unk, hasSharedJoin t = true := by
          rcases hsev with h | h | h
          · omega
          · exact h
          · exact absurd h hex
        have hsh' := joinAll_shared hsh
        rw [hc] at hd'
        have key : ∀ x, (x = NoAccess ∨ x = Readonly ∨ x = Shared) →
            toDescriptor ((joinAll (l.map Prod.snd ++ unk) ||| AllUnitFlags) &&& x) = some d' → harmless d' = true := by
          intro x hx hd
          have e := (combined_hi (joinAll (l.map Prod.snd ++ unk)) x
            (by rcases hx with h | h | h
                exacts [.inl h, .inr (.inl h), .inr (.inr (.inl h))])).1
          have hmem : hi x ∈ parts := by rcases hx with rfl | rfl | rfl <;> decide
          have hne : hi x ≠ 0 := by rcases hx with rfl | rfl | rfl <;> decide
          rw [toDescriptor, depCalls_hi, e] at hd
          obtain ⟨ls, hls, rfl⟩ := Option.map_eq_some_iff.1 hd
          have := harmless_part _ hmem hne
          rw [hls] at this
          exact this
        split at hd'
        · exact key _ (.inl rfl) hd'
        split at hd'
        · exact key _ (.inr (.inl rfl)) hd'
        exact key _ (.inr (.inr rfl)) hd'

/-- **C59.** If memory is copied out of a loop, all its bytes are defined or it is also copied into the loop. -/
theorem store_first (cover : Nat → Bool) (deps : Deps) (m : Nat) (t : Trait) (hj : Joined t) (d : Dptr)
    (hs : storeElem (cover m) deps (m, t) = some d)
    (hd : d.dep .lastPrivate = true ∨ d.dep .secondToLastPrivate = true) :
    cover m = true ∨ d.dep .firstPrivate = true := by
  obtain ⟨d0, t', h0, -, -, -, -, h5⟩ := storeElem_spec hj _ deps m hs
  obtain ⟨-, -, -, h6⟩ := checkFirst_spec hj h0 (cover m)
  rcases h5 with ⟨h5, -⟩ | ⟨k, -, h5, -⟩
  · rw [h5] at hd ⊢
    exact h6 hd
  · rw [h5] at hd ⊢
    rcases setKinds_cases k (unsetKinds (checkFirst (cover m) t d0.dep).2) with ⟨e, -⟩ | ⟨-, e, -⟩
    · rw [e] at hd ⊢
      exact h6 hd
    · simp [e] at hd

/-- **C59** does not hold for nodes: if there is memory without accesses in a node (its address is used only), it
is not reported for the node that the memory must be copied into the loop. -/
theorem store_first_fails : ¬ ∀ (cover : Nat → Bool) (deps : Deps) (l : List Item) (d : Dptr) (es : List Dptr),
    (∀ i ∈ l, Joined i.2) → storeNode cover deps l [] = some (d, es) → d.dep .lastPrivate = true →
    (∀ i ∈ l, cover i.1 = true) ∨ d.dep .firstPrivate = true := by
  intro h
  have := h (fun _ => false) (fun _ => none) [(0, LastPrivate), (1, AddressAccess)] _ _
    (by
      intro i hi
      simp only [List.mem_cons, List.not_mem_nil, or_false] at hi
      rcases hi with rfl | rfl
      · exact .base .lastPrivate
      · exact .base (.unit .addressAccess)) rfl (by decide)
  rcases this with h | h
  · exact absurd (h (0, LastPrivate) (by simp)) (by decide)
  · exact absurd h (by decide)

/-! ## Non-vacuity -/

/-- Memory which is last private with memory which is read-only: a dependence is not reported if it is shared. -/
example : ∃ d es, storeNode (fun _ => true) (fun _ => none)
    [(0, LastPrivate ||| SharedJoin), (1, Readonly)] [] = some (d, es) ∧ d.dep .shared = true ∧
    anyKind d = false := ⟨_, _, rfl, by decide, by decide⟩

/-- A loop from `exFacts`: memory is reported as last private. -/
example : ∃ d es, storeNode (fun _ => true) (fun _ => none) [(0, resolveBase [exInfo])] [] = some (d, es) ∧
    d.dep .lastPrivate = true ∧ Correct exIts (fun b => b = 0) (fun _ b => b = 0) d := by
  refine ⟨_, _, rfl, by decide, ?_⟩
  exact (store_sound (fun _ => true) (fun _ => none) [(0, resolveBase [exInfo])] []
    (by intro i hi; rw [List.mem_singleton] at hi; subst hi; exact (resolveBase_spec [exInfo]).1)
    (by simp) _ _ rfl exIts _ _ exInfo exFacts 0 0 _ rfl ((resolveBase_spec [exInfo]).2 _ (by simp))).1

/-- A dependence with a known kind and unknown memory. -/
example : ∃ d es, storeNode (fun _ => true) exDeps [(2, Dependency), (3, Private)] [Readonly] = some (d, es) ∧
    d.dep .flow = true ∧ d.dep .anti = false := ⟨_, _, rfl, by decide, by decide⟩

end Private
end Tsar
