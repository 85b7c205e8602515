import Verif.DIDep.Fails

/-!
# Clarification of metadata-level traits (C81)
-/

namespace Tsar
namespace DIDep

open BitTrait Parallel

/-! ## Specification -/

/-- What really happens with a memory location in a loop. -/
structure Facts where
  /-- The location is accessed. -/
  accessed : Prop
  /-- The location is written. -/
  written : Prop
  /-- There is a loop-carried dependence with these distances. -/
  carried : Tag → (Nat → Int) → Prop
  /-- A private copy of the location must be initialized with the value which precedes the loop. -/
  init : Prop
  /-- The value after the loop is not used. -/
  noOut : Prop
  /-- The value after the loop is the value which is written on the last iteration. -/
  lastOut : Prop
  /-- The value after the loop is the value which is written on the second to last iteration. -/
  secondOut : Prop
  /-- The value after the loop is the value which is written on some iteration known at run-time. -/
  dynamicOut : Prop
  /-- The location is a reduction variable. -/
  reduction : Prop
  /-- The location is an induction variable. -/
  induction : Prop

/-- All claims of a trait are true. -/
structure Trait.Sound (t : Trait) (b : Facts) : Prop where
  noAccess : t.dptr.dep .noAccess = true → ¬ b.accessed
  readonly : t.dptr.dep .readonly = true → ¬ b.written
  shared : t.dptr.dep .shared = true → ∀ k d, ¬ b.carried k d
  /-- Only dependencies which are allowed by the trait are possible. -/
  carried : ∀ k d, b.carried k d → t.Allows k d
  /-- A privatizable location which is not marked as a first private does not require initialization. -/
  init : Privatizable t.dptr → t.dptr.dep .firstPrivate = false → ¬ b.init
  /-- The value of a privatizable location is not used after the loop if the way to obtain this value is not
  specified. -/
  noOut : Privatizable t.dptr → t.dptr.dep .lastPrivate = false → t.dptr.dep .secondToLastPrivate = false →
    t.dptr.dep .dynamicPrivate = false → b.noOut
  lastOut : t.dptr.dep .lastPrivate = true → b.lastOut
  secondOut : t.dptr.dep .secondToLastPrivate = true → b.secondOut
  dynamicOut : t.dptr.dep .dynamicPrivate = true → b.dynamicOut
  reduction : t.dptr.dep .reduction = true → b.reduction
  induction : t.dptr.dep .induction = true → b.induction

/-- Alternatives which are set belong to a common union (no alternative may be set), and values are attached to
traits which are set. -/
structure Trait.Ok (t : Trait) : Prop where
  compat : ∃ u ∈ DepTrait.unions, ∀ a, t.dptr.dep a = true → a ∈ u
  attached : ∀ k, (t.rep k).isSome = true → t.is k = true

theorem Trait.WF.ok {t : Trait} (h : t.WF) : t.Ok := ⟨h.legal.2, h.attached⟩

/-! ## Proofs -/

theorem keepOld_other (from' old : Dptr) (a : DepTrait) (h : ¬ IsDepKind a) : (keepOld from' old).dep a = from'.dep a := by
  cases a <;> first | rfl | exact absurd (by simp [IsDepKind]) h

theorem keepOld_kind (from' old : Dptr) (k : Tag) : (keepOld from' old).dep k.dep = (from'.dep k.dep && old.dep k.dep) := by
  cases k <;> rfl

/-- Possible results of `clarifyDescriptor`. -/
inductive Outcome (from' old : Dptr) : Bool × Dptr → Prop
  | kept : Outcome from' old (false, old)
  | shared (h1 : old.dep .secondToLastPrivate = true) (h2 : from'.dep .shared = true) :
      Outcome from' old (true, { old with dep := setDep old.dep .shared })
  | dropped (h1 : from'.dep .firstPrivate = false) (h2 : old.dep .firstPrivate = true)
      (h3 : old.dep .lastPrivate = true ∨ old.dep .secondToLastPrivate = true ∨ old.dep .dynamicPrivate = true)
      (h4 : from'.hasNoDep = false) :
      Outcome from' old (true, { old with dep := unsetDep old.dep .firstPrivate })
  | replaced (h : old.dep .noAccess = false ∧ old.dep .readonly = false) : Outcome from' old (true, keepOld from' old)

theorem outcome (from' old : Dptr) : Outcome from' old (clarifyDescriptor from' old) := by
  unfold clarifyDescriptor
  simp only
  split
  · exact .kept
  rename_i h0
  split
  · exact .kept
  split
  · exact .kept
  split
  · rename_i h1
    rw [Bool.and_eq_true] at h1
    split
    · rename_i h2
      rw [Bool.and_eq_true] at h2
      exact .shared h1.1 h2.1
    · exact .kept
  have hr : old.dep .noAccess = false ∧ old.dep .readonly = false := by
    simpa [any] using h0
  cases hc : (!(keepOld from' old).dep .firstPrivate && old.dep .firstPrivate) with
  | false =>
    simp only [Bool.false_eq_true, ↓reduceIte]
    split
    · exact .kept
    split
    · exact .kept
    · exact .replaced hr
  | true =>
    simp only [↓reduceIte]
    have hc' := hc
    rw [Bool.and_eq_true, Bool.not_eq_true'] at hc'
    split
    · rename_i h3
      rw [Bool.and_eq_true] at h3
      refine .dropped hc'.1 hc'.2 ?_ ?_
      · have := h3.1
        simp [any, unsetDep] at this
        tauto
      · have := h3.2
        simp [any, keepOld] at this
        simp [Dptr.hasNoDep, this]
    split
    · rename_i h3
      rw [Bool.and_eq_true] at h3
      refine .dropped hc'.1 hc'.2 ?_ ?_
      · have := h3.1
        simp [unsetDep] at this
        tauto
      · have := h3.2
        simp [any, keepOld] at this
        simp [Dptr.hasNoDep, this]
    · exact .replaced hr

theorem clarify_dptr (from' old : Trait) : (clarify from' old).dptr = (clarifyDescriptor from'.dptr old.dptr).2 := by
  unfold clarify
  simp only
  split <;> rfl

theorem moveIf_from {a c : Option Rep} {b : Bool} {r : Rep} (h : moveIf a b c = some r) : a = some r ∨ c = some r := by
  unfold moveIf at h
  split at h
  · exact Or.inr h
  · cases a with
    | none => exact Or.inr h
    | some x =>
      cases c with
      | none => exact Or.inl h
      | some o =>
        simp only at h
        split at h
        · exact Or.inr h
        · exact Or.inl h

theorem clarify_rep_from (from' old : Trait) (k : Tag) (r : Rep) (h : (clarify from' old).rep k = some r) :
    old.rep k = some r ∨ from'.rep k = some r := by
  have e : ∀ {c : Prop} [Decidable c] {x : Option Rep}, (if c then x else none) = some r → x = some r := by
    intro c _ x hx
    split at hx
    · exact hx
    · cases hx
  unfold clarify at h
  simp only at h
  split at h
  · rcases moveIf_from h with h | h
    · exact Or.inr (e h)
    · exact Or.inl (e h)
  · exact Or.inl (e h)

theorem compat_kind {t : Trait} (h : t.Ok) {k : Tag} (hk : t.is k = true) {a : DepTrait} (ha : t.dptr.dep a = true) :
    IsDepKind a := by
  obtain ⟨u, hu, hs⟩ := h.compat
  have hf := hs _ hk
  have hu' : u = [.flow, .anti, .output] := by
    revert u; cases k <;> simp [DepTrait.unions, Tag.dep]
  subst hu'
  have := hs a ha
  unfold IsDepKind
  simpa using this

theorem compat_other {t : Trait} (h : t.Ok) {k : Tag} (hk : t.is k = true) {a : DepTrait} (ha : ¬ IsDepKind a) :
    t.dptr.dep a = false := by
  rw [Bool.eq_false_iff]
  exact fun h' => ha (compat_kind h hk h')

theorem compat_spurious {t : Trait} (h : t.Ok) (hs : t.spurious = true) (k : Tag) : t.dptr.dep k.dep = false := by
  rw [Bool.eq_false_iff]
  intro hk
  rcases (spurious_iff t.dptr).1 hs with ⟨_, h2⟩ | h2
  · rw [h2 _ k.isKind] at hk; cases hk
  · rcases h2 with h2 | h2 | h2 | h2 | h2 <;> exact absurd (compat_kind h hk h2) (by simp [IsDepKind])

/-- Everything which is allowed by both descriptions is allowed by the result. -/
theorem clarify_allows {from' old : Trait} (hf : from'.Ok) (ho : old.Ok) (k : Tag) (d : Nat → Int)
    (h1 : from'.Allows k d) (h2 : old.Allows k d) : (clarify from' old).Allows k d := by
  have hd := clarify_dptr from' old
  have hw : ∀ r, (clarify from' old).rep k = some r → Within d r.dist := by
    intro r hr
    rcases clarify_rep_from from' old k r hr with h | h
    · rcases h2 with ⟨_, h2⟩ | ⟨h2, _⟩
      · exact h2 r h
      · rw [ho.attached k (by rw [h]; rfl)] at h2; cases h2
    · rcases h1 with ⟨_, h1⟩ | ⟨h1, _⟩
      · exact h1 r h
      · rw [hf.attached k (by rw [h]; rfl)] at h1; cases h1
  have key : (clarify from' old).is k = true ∨ (clarify from' old).spurious = true := by
    unfold Trait.is Trait.spurious
    rw [hd]
    have hout := outcome from'.dptr old.dptr
    revert hout
    generalize clarifyDescriptor from'.dptr old.dptr = o
    intro hout
    cases hout with
    | kept =>
      rcases h2 with ⟨h, _⟩ | ⟨_, h⟩
      · exact Or.inl h
      · exact Or.inr h
    | shared a b =>
      right
      refine (spurious_iff _).2 (Or.inr ?_)
      right; right; right; left
      simp only [setDep, a, Bool.true_and]
      decide
    | dropped a b c _ =>
      right
      refine (spurious_iff _).2 (Or.inr ?_)
      unfold Privatizable
      simp only [unsetDep]
      rcases c with c | c | c <;> simp [c]
    | replaced _ =>
      by_cases hs : from'.spurious = true
      · right
        have : (keepOld from'.dptr old.dptr).dep = from'.dptr.dep := by
          funext a
          by_cases ha : IsDepKind a
          · have hz := compat_spurious hf hs
            rcases ha with rfl | rfl | rfl
            · rw [show from'.dptr.dep .flow = false from hz .flow]
              have := keepOld_kind from'.dptr old.dptr .flow
              rw [hz .flow] at this; exact this
            · rw [show from'.dptr.dep .anti = false from hz .anti]
              have := keepOld_kind from'.dptr old.dptr .anti
              rw [hz .anti] at this; exact this
            · rw [show from'.dptr.dep .output = false from hz .output]
              have := keepOld_kind from'.dptr old.dptr .output
              rw [hz .output] at this; exact this
          · exact keepOld_other _ _ _ ha
        rw [spurious_dep this]
        exact hs
      · have hfk : from'.is k = true := by
          rcases h1 with ⟨h, _⟩ | ⟨_, h⟩
          · exact h
          · exact absurd h hs
        rcases h2 with ⟨h, _⟩ | ⟨_, h⟩
        · left
          rw [keepOld_kind]
          unfold Trait.is at hfk h
          rw [hfk, h]; rfl
        · right
          refine (spurious_iff _).2 (Or.inl ⟨?_, ?_⟩)
          · unfold Dptr.hasNoDep
            rw [keepOld_other _ _ _ (by simp [IsDepKind]), keepOld_other _ _ _ (by simp [IsDepKind]),
              keepOld_other _ _ _ (by simp [IsDepKind]),
              compat_other hf hfk (by simp [IsDepKind]), compat_other hf hfk (by simp [IsDepKind]),
              compat_other hf hfk (by simp [IsDepKind])]
            rfl
          · have hz := compat_spurious ho h
            rintro a (rfl | rfl | rfl)
            · have := keepOld_kind from'.dptr old.dptr .flow
              rw [hz .flow, Bool.and_false] at this; exact this
            · have := keepOld_kind from'.dptr old.dptr .anti
              rw [hz .anti, Bool.and_false] at this; exact this
            · have := keepOld_kind from'.dptr old.dptr .output
              rw [hz .output, Bool.and_false] at this; exact this
  cases hk : (clarify from' old).is k with
  | true => exact Or.inl ⟨hk, hw⟩
  | false =>
    refine Or.inr ⟨hk, ?_⟩
    rcases key with h | h
    · rw [hk] at h; cases h
    · exact h

/-! ## C81 -/

/-- C81. If an existing description of a location and a new one are both true then the clarified description is true.
What is missing: the existing description says that the location is first private and the new one claims neither absence of
dependencies nor possibility of privatization, see `clarify_firstPrivate_fails`. -/
theorem clarify_sound_partial {from' old : Trait} (hf : from'.Ok) (ho : old.Ok) (b : Facts)
    (h1 : from'.Sound b) (h2 : old.Sound b)
    (h : old.dptr.dep .firstPrivate = true → from'.dptr.hasNoDep = true ∨ Privatizable from'.dptr) :
    (clarify from' old).Sound b := by
  have hc : ∀ k d, b.carried k d → (clarify from' old).Allows k d :=
    fun k d hb => clarify_allows hf ho k d (h1.carried k d hb) (h2.carried k d hb)
  have hd := clarify_dptr from' old
  have hout := outcome from'.dptr old.dptr
  revert hd hout
  generalize clarifyDescriptor from'.dptr old.dptr = o
  intro hd hout
  cases hout with
  | kept =>
    dsimp only at hd
    refine ⟨?_, ?_, ?_, hc, ?_, ?_, ?_, ?_, ?_, ?_, ?_⟩ <;> rw [hd]
    exacts [h2.noAccess, h2.readonly, h2.shared, h2.init, h2.noOut, h2.lastOut, h2.secondOut, h2.dynamicOut,
      h2.reduction, h2.induction]
  | shared s1 s2 =>
    dsimp only at hd
    have hl : ∀ a, a ≠ .shared → (setDep old.dptr.dep .shared) a = true → old.dptr.dep a = true := by
      intro a ha hx
      simp only [setDep, decide_eq_false ha, Bool.false_or, Bool.and_eq_true] at hx
      exact hx.1
    have hpriv : Privatizable old.dptr := Or.inr (Or.inr (Or.inr (Or.inl s1)))
    have hfp : (setDep old.dptr.dep .shared) .firstPrivate = old.dptr.dep .firstPrivate := by
      simp [setDep, DepTrait.compatible, DepTrait.unions]
    have hsp : (setDep old.dptr.dep .shared) .secondToLastPrivate = true := by
      simp [setDep, DepTrait.compatible, DepTrait.unions, s1]
    refine ⟨?_, ?_, ?_, hc, ?_, ?_, ?_, ?_, ?_, ?_, ?_⟩ <;> rw [hd]
    · exact fun hx => h2.noAccess (hl _ (by decide) hx)
    · exact fun hx => h2.readonly (hl _ (by decide) hx)
    · exact fun _ => h1.shared s2
    · intro _ hx
      exact h2.init hpriv (hfp ▸ hx)
    · intro _ _ hx _
      dsimp only at hx
      rw [hsp] at hx; cases hx
    · exact fun hx => h2.lastOut (hl _ (by decide) hx)
    · exact fun hx => h2.secondOut (hl _ (by decide) hx)
    · exact fun hx => h2.dynamicOut (hl _ (by decide) hx)
    · exact fun hx => h2.reduction (hl _ (by decide) hx)
    · exact fun hx => h2.induction (hl _ (by decide) hx)
  | dropped s1 s2 s3 s4 =>
    dsimp only at hd
    have hl : ∀ a, (unsetDep old.dptr.dep .firstPrivate) a = true → old.dptr.dep a = true := by
      intro a hx
      simp only [unsetDep, Bool.and_eq_true] at hx
      exact hx.1
    have he : ∀ a, a ≠ .firstPrivate → (unsetDep old.dptr.dep .firstPrivate) a = old.dptr.dep a := by
      intro a ha
      simp [unsetDep, ha]
    have hpf : Privatizable from'.dptr := by
      rcases h s2 with h | h
      · rw [s4] at h; cases h
      · exact h
    refine ⟨?_, ?_, ?_, hc, ?_, ?_, ?_, ?_, ?_, ?_, ?_⟩ <;> rw [hd]
    · exact fun hx => h2.noAccess (hl _ hx)
    · exact fun hx => h2.readonly (hl _ hx)
    · exact fun hx => h2.shared (hl _ hx)
    · exact fun _ _ => h1.init hpf s1
    · intro _ a1 a2 a3
      dsimp only at a1 a2 a3
      rw [he _ (by decide)] at a1 a2 a3
      rw [a1, a2, a3] at s3
      rcases s3 with s3 | s3 | s3 <;> cases s3
    · exact fun hx => h2.lastOut (hl _ hx)
    · exact fun hx => h2.secondOut (hl _ hx)
    · exact fun hx => h2.dynamicOut (hl _ hx)
    · exact fun hx => h2.reduction (hl _ hx)
    · exact fun hx => h2.induction (hl _ hx)
  | replaced _ =>
    dsimp only at hd
    have e : ∀ a, ¬ IsDepKind a → (keepOld from'.dptr old.dptr).dep a = from'.dptr.dep a := keepOld_other _ _
    have hp : Privatizable (keepOld from'.dptr old.dptr) ↔ Privatizable from'.dptr := by
      unfold Privatizable
      rw [e _ (by simp [IsDepKind]), e _ (by simp [IsDepKind]), e _ (by simp [IsDepKind]), e _ (by simp [IsDepKind]),
        e _ (by simp [IsDepKind])]
    refine ⟨?_, ?_, ?_, hc, ?_, ?_, ?_, ?_, ?_, ?_, ?_⟩ <;> rw [hd]
    · rw [e _ (by simp [IsDepKind])]; exact h1.noAccess
    · rw [e _ (by simp [IsDepKind])]; exact h1.readonly
    · rw [e _ (by simp [IsDepKind])]; exact h1.shared
    · rw [hp, e _ (by simp [IsDepKind])]; exact h1.init
    · rw [hp, e _ (by simp [IsDepKind]), e _ (by simp [IsDepKind]), e _ (by simp [IsDepKind])]; exact h1.noOut
    · rw [e _ (by simp [IsDepKind])]; exact h1.lastOut
    · rw [e _ (by simp [IsDepKind])]; exact h1.secondOut
    · rw [e _ (by simp [IsDepKind])]; exact h1.dynamicOut
    · rw [e _ (by simp [IsDepKind])]; exact h1.reduction
    · rw [e _ (by simp [IsDepKind])]; exact h1.induction

/-- C81. Clarification keeps alternatives compatible. -/
theorem clarify_ok {from' old : Trait} (hf : from'.Ok) (ho : old.Ok) : (clarify from' old).Ok := by
  refine ⟨?_, fun k hk => ?_⟩
  · rw [clarify_dptr]
    have hout := outcome from'.dptr old.dptr
    revert hout
    generalize clarifyDescriptor from'.dptr old.dptr = o
    intro hout
    cases hout with
    | kept => exact ho.compat
    | shared s1 s2 =>
      refine ⟨[.secondToLastPrivate, .firstPrivate, .shared], by decide, fun a ha => ?_⟩
      obtain ⟨u, hu, hs⟩ := ho.compat
      have hm := hs _ s1
      have hu' : u = [.secondToLastPrivate, .firstPrivate, .shared] := by
        revert u; simp [DepTrait.unions]
      subst hu'
      by_cases hsh : a = .shared
      · rw [hsh]; decide
      · simp only [setDep, decide_eq_false hsh, Bool.false_or, Bool.and_eq_true] at ha
        exact hs a ha.1
    | dropped s1 s2 s3 s4 =>
      obtain ⟨u, hu, hs⟩ := ho.compat
      exact ⟨u, hu, fun a ha => hs a (by simp only [unsetDep, Bool.and_eq_true] at ha; exact ha.1)⟩
    | replaced _ =>
      obtain ⟨u, hu, hs⟩ := hf.compat
      refine ⟨u, hu, fun a ha => hs a ?_⟩
      cases a <;> simp only [keepOld, Bool.and_eq_true] at ha <;> first | exact ha | exact ha.1
  · unfold clarify at hk ⊢
    simp only at hk ⊢
    split at hk
    · rename_i hb
      simp only [hb, ↓reduceIte]
      by_contra hn
      rw [Bool.not_eq_true] at hn
      have hn' : (old.update (clarifyDescriptor from'.dptr old.dptr).2).is k = false := hn
      have hn2 : (clarifyDescriptor from'.dptr old.dptr).2.dep k.dep = false := hn
      simp only at hk
      rw [hn'] at hk
      simp [moveIf, Trait.update, hn2] at hk
    · rename_i hb
      simp only [hb]
      simp only [Trait.update] at hk
      split at hk
      · rename_i h; exact h
      · cases hk

/-- C81. The description remains true whatever number of times it is clarified (for example, after each
transformation of a program). -/
theorem clarify_history_partial (b : Facts) : ∀ (fs : List Trait) (old : Trait), old.Ok → old.Sound b →
    (∀ f ∈ fs, f.Ok ∧ f.Sound b ∧ (f.dptr.hasNoDep = true ∨ Privatizable f.dptr)) →
    (fs.foldl (fun t f => clarify f t) old).Ok ∧ (fs.foldl (fun t f => clarify f t) old).Sound b
  | [], _, h1, h2, _ => ⟨h1, h2⟩
  | f :: fs, old, h1, h2, h => by
    obtain ⟨a1, a2, a3⟩ := h f (by simp)
    exact clarify_history_partial b fs (clarify f old) (clarify_ok a1 h1)
      (clarify_sound_partial a1 h1 b a2 h2 fun _ => a3) fun x hx => h x (by simp [hx])

/-- C81. Histories of locations which have never been first private. -/
theorem clarify_history_dependence (b : Facts) : ∀ (fs : List Trait) (old : Trait), old.Ok → old.Sound b →
    old.dptr.dep .firstPrivate = false →
    (∀ f ∈ fs, f.Ok ∧ f.Sound b ∧ f.dptr.dep .firstPrivate = false) →
    (fs.foldl (fun t f => clarify f t) old).Ok ∧ (fs.foldl (fun t f => clarify f t) old).Sound b
  | [], _, h1, h2, _, _ => ⟨h1, h2⟩
  | f :: fs, old, h1, h2, h0, h => by
    obtain ⟨a1, a2, a3⟩ := h f (by simp)
    refine clarify_history_dependence b fs (clarify f old) (clarify_ok a1 h1)
      (clarify_sound_partial a1 h1 b a2 h2 fun hx => (by rw [h0] at hx; cases hx)) ?_ fun x hx => h x (by simp [hx])
    rw [clarify_dptr]
    have hout := outcome f.dptr old.dptr
    revert hout
    generalize clarifyDescriptor f.dptr old.dptr = o
    intro hout
    cases hout with
    | kept => exact h0
    | shared _ _ => simp [setDep, h0]
    | dropped _ s2 _ _ => rw [h0] at s2; cases s2
    | replaced _ => exact a3

/-- C81. Properties of memory accesses which have been established earlier are kept. -/
theorem clarify_unit (from' old : Trait) (u : UnitTrait) (h : old.dptr.unit u = true)
    (hu : u = .noPromotedScalar ∨ u = .addressAccess ∨ u = .useAfterLoop ∨ u = .directAccess ∨ u = .indirectAccess ∨
      u = .explicitAccess) : (clarify from' old).dptr.unit u = true := by
  rw [clarify_dptr]
  have hout := outcome from'.dptr old.dptr
  revert hout
  generalize clarifyDescriptor from'.dptr old.dptr = o
  intro hout
  cases hout with
  | kept => exact h
  | shared _ _ => exact h
  | dropped _ _ _ _ => exact h
  | replaced _ => rcases hu with rfl | rfl | rfl | rfl | rfl | rfl <;> simp [keepOld, h]

/-- C81. Accesses in a header of a loop do not appear later. -/
theorem clarify_header (from' old : Trait) (h : (clarify from' old).dptr.unit .headerAccess = true) :
    old.dptr.unit .headerAccess = true := by
  rw [clarify_dptr] at h
  have hout := outcome from'.dptr old.dptr
  revert h hout
  generalize clarifyDescriptor from'.dptr old.dptr = o
  intro h hout
  cases hout with
  | kept => exact h
  | shared _ _ => exact h
  | dropped _ _ _ _ => exact h
  | replaced _ => simp only [keepOld, Bool.and_eq_true] at h; exact h.2

/-- C81. A known distance is never replaced while the dependence exists. -/
theorem clarify_known (from' old : Trait) (k : Tag) (r : Rep) (hr : old.rep k = some r) (hk : r.known = true)
    (hs : (clarify from' old).is k = true) : (clarify from' old).rep k = some r := by
  unfold clarify at hs ⊢
  simp only at hs ⊢
  split at hs
  · rename_i hb
    simp only [hb, ↓reduceIte]
    simp only [Trait.is, Trait.update] at hs
    simp only [moveIf, Trait.is, Trait.update, hs, Bool.not_true, Bool.false_eq_true, ↓reduceIte, hr, hk]
    split <;> rfl
  · rename_i hb
    simp only [hb]
    simp only [Trait.is, Trait.update] at hs
    simp [Trait.update, hs, hr]

/-- C81. A location which is not accessed (or which is read only) remains so. -/
theorem clarify_noAccess (from' old : Trait) (h : old.Ok)
    (ha : old.dptr.dep .noAccess = true ∨ old.dptr.dep .readonly = true) : clarify from' old = old := by
  have hd : clarifyDescriptor from'.dptr old.dptr = (false, old.dptr) := by
    unfold clarifyDescriptor
    simp only
    rw [if_pos]
    unfold any
    rcases ha with ha | ha <;> simp [ha]
  unfold clarify
  rw [hd]
  simp only [Trait.update]
  cases old with
  | mk d rep =>
    simp only [Bool.false_eq_true, ↓reduceIte, Trait.mk.injEq, true_and]
    funext k
    split
    · rfl
    · rename_i hn
      cases hk : rep k with
      | none => rfl
      | some r => exact absurd (h.attached k (by simp [hk])) hn

/-- C81. A locked trait is not updated. -/
theorem addOrUpdate_locked (t : Trait) (d : Dptr) : (addOrUpdate (some t) d true).1 = t := rfl

/-- C81. A trait is locked if it has the corresponding mark or if it may alias with a location from the list. -/
theorem isLocked_iff {N : Type} (reach : N → N → Bool) (locked : List N) (lock : Bool) (n : N) :
    isLocked reach locked lock n = true ↔ lock = true ∨ ∃ m ∈ locked, reach n m = true := by
  unfold isLocked
  cases lock <;> simp

/-- C81 (documentation of `addOrUpdateInPool`) fails: if an existing trait must not be updated the second returned value
should be `false`, but it is `true`; it is `false` exactly if the trait has been updated. -/
theorem addOrUpdate_result_fails : ¬ ∀ (t : Trait) (d : Dptr), (addOrUpdate (some t) d true).2 = false := by
  intro h
  exact absurd (h exFlow (dptrOf [] [.shared])) (by decide)

/-! ## Failures -/

/-- A first and last private location. -/
def exFirstLast : Trait := mk [] [.firstPrivate, .lastPrivate] none none none

/-- A location with unknown dependencies. -/
def exDep : Trait := mk [] [.flow, .anti, .output] none none none

/-- A location which is used before it is written. -/
def exFacts : Facts :=
  { accessed := True, written := True, carried := fun _ _ => True, init := True, noOut := False, lastOut := True,
    secondOut := False, dynamicOut := True, reduction := False, induction := False }

theorem exFirstLast_wf : exFirstLast.WF :=
  ⟨dptrOf_legal _ _ (by decide) ⟨[.lastPrivate, .firstPrivate, .shared], by decide, by decide⟩, fun k h => by cases k <;> cases h⟩

theorem exDep_wf : exDep.WF :=
  ⟨dptrOf_legal _ _ (by decide) ⟨[.flow, .anti, .output], by decide, by decide⟩, fun k h => by cases k <;> cases h⟩

theorem exFirstLast_sound : exFirstLast.Sound exFacts := by
  refine ⟨?_, ?_, ?_, ?_, ?_, ?_, ?_, ?_, ?_, ?_, ?_⟩
  · intro h; exact absurd h (by decide)
  · intro h; exact absurd h (by decide)
  · intro h; exact absurd h (by decide)
  · intro k d _; exact Or.inr ⟨by cases k <;> decide, by decide⟩
  · intro _ h; exact absurd h (by decide)
  · intro _ h; exact absurd h (by decide)
  · intro _; trivial
  · intro h; exact absurd h (by decide)
  · intro h; exact absurd h (by decide)
  · intro h; exact absurd h (by decide)
  · intro h; exact absurd h (by decide)

theorem exDep_sound (b : Facts) : exDep.Sound b := by
  have hp : ¬ Privatizable exDep.dptr := by unfold Privatizable; decide
  refine ⟨?_, ?_, ?_, ?_, ?_, ?_, ?_, ?_, ?_, ?_, ?_⟩
  · intro h; exact absurd h (by decide)
  · intro h; exact absurd h (by decide)
  · intro h; exact absurd h (by decide)
  · intro k d _; exact Or.inl ⟨by cases k <;> decide, fun r hr => by cases k <;> cases hr⟩
  · intro h; exact absurd h hp
  · intro h; exact absurd h hp
  · intro h; exact absurd h (by decide)
  · intro h; exact absurd h (by decide)
  · intro h; exact absurd h (by decide)
  · intro h; exact absurd h (by decide)
  · intro h; exact absurd h (by decide)

/-- C81 fails: a location is known to be first and last private (the value which precedes the loop is used), and the next
analysis is not able to prove anything about this location. The requirement to initialize a private copy is lost, although
none of descriptions justifies this. -/
theorem clarify_firstPrivate_fails : ¬ ∀ (from' old : Trait) (b : Facts), from'.WF → old.WF → from'.Sound b → old.Sound b →
    (clarify from' old).Sound b := by
  intro h
  have := (h exDep exFirstLast exFacts exDep_wf exFirstLast_wf (exDep_sound _) exFirstLast_sound).init
    (by unfold Privatizable; decide) (by decide)
  exact this trivial

example : (clarify exDep exFirstLast).view = ([.lastPrivate], none, none, none) := by decide

/-- Hypotheses of `clarify_sound_partial` are met: dependencies become a first and last private location. -/
example : (clarify exFirstLast exDep).view = ([.lastPrivate, .firstPrivate], none, none, none) ∧
    (clarify exFirstLast exDep).Sound exFacts :=
  ⟨by decide, clarify_sound_partial exFirstLast_wf.ok exDep_wf.ok exFacts exFirstLast_sound (exDep_sound _)
    (fun h => absurd h (by decide))⟩

/-- A flow dependence only and an anti dependence only. -/
def exF : Trait := mk [] [.flow] none none none
def exA : Trait := mk [] [.anti] none none none

/-- C81 fails (accuracy): if a new description and an existing one do not have common kinds of dependencies, the location
has no dependencies, but the result does not contain any alternative and it does not exclude even dependencies which are excluded
by both descriptions. -/
theorem clarify_accuracy_fails : ¬ ∀ (from' old : Trait) (k : Tag) (d : Nat → Int), from'.WF → old.WF →
    (clarify from' old).Allows k d → from'.Allows k d ∨ old.Allows k d := by
  intro h
  have hF : exF.WF :=
    ⟨dptrOf_legal _ _ (by decide) ⟨[.flow, .anti, .output], by decide, by decide⟩, fun k h => by cases k <;> cases h⟩
  have hA : exA.WF :=
    ⟨dptrOf_legal _ _ (by decide) ⟨[.flow, .anti, .output], by decide, by decide⟩, fun k h => by cases k <;> cases h⟩
  rcases h exF exA .output (fun _ => 1) hF hA (Or.inr ⟨by decide, by decide⟩) with (⟨h, _⟩ | ⟨_, h⟩) | (⟨h, _⟩ | ⟨_, h⟩) <;>
    exact absurd h (by decide)

/-- C81 fails: the result of clarification does not always contain an alternative. -/
theorem clarify_legal_fails : ¬ ∀ from' old : Trait, from'.WF → old.WF → (clarify from' old).WF := by
  intro h
  have hF : exF.WF :=
    ⟨dptrOf_legal _ _ (by decide) ⟨[.flow, .anti, .output], by decide, by decide⟩, fun k h => by cases k <;> cases h⟩
  have hA : exA.WF :=
    ⟨dptrOf_legal _ _ (by decide) ⟨[.flow, .anti, .output], by decide, by decide⟩, fun k h => by cases k <;> cases h⟩
  obtain ⟨a, ha⟩ := (h exF exA hF hA).legal.1
  revert ha
  cases a <;> decide

/-- Partially known distances are lost: this is why only `clarify_known` is proved. -/
theorem clarify_partlyKnown_fails : ¬ ∀ (from' old : Trait) (k : Tag) (d : Nat → Int), from'.WF → old.WF →
    (clarify from' old).Allows k d → old.Allows k d ∨ ¬ from'.Allows k d := by
  intro h
  have hF : (mk [] [.flow] (some ⟨ls, [(some 2, none)]⟩) none none).WF :=
    ⟨dptrOf_legal _ _ (by decide) ⟨[.flow, .anti, .output], by decide, by decide⟩, fun k => by cases k <;> decide⟩
  have hA : (mk [] [.flow] (some ⟨ls, []⟩) none none).WF :=
    ⟨dptrOf_legal _ _ (by decide) ⟨[.flow, .anti, .output], by decide, by decide⟩, fun k => by cases k <;> decide⟩
  have ha : (mk [] [.flow] (some ⟨ls, []⟩) none none).Allows .flow (fun _ => 1) :=
    Or.inl ⟨by decide, fun r hr => by cases hr; exact within_nil _⟩
  have hv : (clarify (mk [] [.flow] (some ⟨ls, []⟩) none none) (mk [] [.flow] (some ⟨ls, [(some 2, none)]⟩) none none)).rep .flow =
    some ⟨ls, []⟩ := by decide
  rcases h (mk [] [.flow] (some ⟨ls, []⟩) none none) (mk [] [.flow] (some ⟨ls, [(some 2, none)]⟩) none none) .flow
    (fun _ => 1) hA hF (Or.inl ⟨by decide, fun r hr => by rw [hv] at hr; cases hr; exact within_nil _⟩) with h | h
  · rcases h with ⟨_, h⟩ | ⟨h, _⟩
    · exact absurd ((h _ rfl 0 _ rfl).1 2 rfl) (by decide)
    · exact absurd h (by decide)
  · exact h ha

end DIDep
end Tsar
