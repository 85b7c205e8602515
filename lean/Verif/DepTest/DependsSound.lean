import Verif.DepTest.Partition
/-!
# Soundness of the dependence test of two accesses
-/

namespace Tsar.DepTest

set_option linter.unusedSectionVars false

variable {S L Env : Type}

/-- A part of the test ends normally with a result `Q` whenever all its calls of tests satisfy
`P`. -/
def Run.Spec {α : Type} (P : Call S L → Prop) (x : Run S L α) (Q : α → Prop) : Prop :=
  (∀ c ∈ x.calls, P c) → ∃ a, x.res = .ok a ∧ Q a

theorem Run.spec_pure {α : Type} {P : Call S L → Prop} {a : α} {Q : α → Prop} (h : Q a) :
    (Run.pure a : Run S L α).Spec P Q := fun _ => ⟨a, rfl, h⟩

theorem Run.spec_bind {α β : Type} {P : Call S L → Prop} {x : Run S L α} {f : α → Run S L β}
    {Q : α → Prop} {R : β → Prop} (hx : x.Spec P Q) (hf : ∀ a, Q a → (f a).Spec P R) :
    (x.bind f).Spec P R := by
  intro hc
  cases hr : x.res with
  | ub =>
    obtain ⟨a, h1, -⟩ := hx (by simpa [Run.bind, hr] using hc)
    rw [hr] at h1; cases h1
  | indep =>
    obtain ⟨a, h1, -⟩ := hx (by simpa [Run.bind, hr] using hc)
    rw [hr] at h1; cases h1
  | ok a =>
    simp only [Run.bind, hr, List.mem_append] at hc ⊢
    obtain ⟨a', h1, h2⟩ := hx fun c h => hc c (.inl h)
    rw [hr] at h1
    cases h1
    exact hf a h2 fun c h => hc c (.inr h)

theorem Run.spec_call {P : Call S L → Prop} (c : Call S L) :
    (Run.call c).Spec P fun _ => P c := fun h => ⟨(), rfl, h c (by simp [Run.call])⟩

theorem Run.spec_ofOption {α : Type} {P : Call S L → Prop} {a : α} {o : Option α} {Q : α → Prop}
    (ho : o = some a) (h : Q a) : (Run.ofOption o : Run S L α).Spec P Q := by
  subst ho; exact Run.spec_pure h

/-- A line is not degenerate. -/
def Con.NonDeg (se : SE S L Env) (e : Env) : Con S → Prop
  | .line a b _ => se.val a e ≠ 0 ∨ se.val b e ≠ 0
  | _ => True

variable [DecidableEq L]

/-- A call of a test has suitable arguments. -/
def CallOk (c : Ctx S L Env) (e : Env) (I J : L → Int) (x : Call S L) : Prop :=
  match x.cls with
  | .ZIV => True
  | .SIV => c.se.SivOk c.w e I x.src x.dst ∧
      (∀ l ∈ x.src.loops, l ∈ x.dst.loops → l ∈ c.common) ∧
      (x.coupled = true → c.inNest x.src x.dst = true ∧ c.se.nest x.src.const x.dst.const = true)
  | .RDIV => c.se.RdivOk c.w e I J x.src x.dst
  | .MIV => c.se.Varies x.src x.dst


/-- The tests assign a constraint if they do not return early. -/
theorem strongSIV_con (se : SE S L Env) {a c1 c2 : S} {l : L} {dv : Dv S} {cons : Bool}
    {e : Env} (hn : se.nest c1 c2 = true) (h0 : se.val a e ≠ 0) :
    (strongSIV se a c1 c2 l dv cons).indep = false →
    ∃ c, (strongSIV se a c1 c2 l dv cons).con = some c ∧ c.FromTest ∧ c.NonDeg se e := by
  unfold strongSIV
  rw [if_neg (by simp [hn])]
  simp only
  split
  · intro h; cases h
  split
  · split
    · intro h; cases h
    · intro _; exact ⟨_, rfl, trivial, trivial⟩
  · split
    · intro _; exact ⟨_, rfl, trivial, trivial⟩
    split
    · intro _; exact ⟨_, rfl, trivial, trivial⟩
    · intro _; exact ⟨_, rfl, trivial, .inl h0⟩

theorem weakCrossingRest_con (se : SE S L Env) (pcoeff delta : S) (c d : Int) (l : L) (dv : Dv S)
    (con : Con S) (sp : S) : (weakCrossingRest se pcoeff delta c d l dv con sp).con = some con := by
  unfold weakCrossingRest
  simp only
  split
  · rfl
  split
  · split <;> rfl
  split
  · rfl
  split <;> rfl

theorem weakCrossing_con (se : SE S L Env) {a c1 c2 : S} {l : L} {dv : Dv S}
    {e : Env} (hn : se.nest c1 c2 = true) (h0 : se.val a e ≠ 0) :
    ∃ c, (weakCrossing se a c1 c2 l dv).con = some c ∧ c.FromTest ∧ c.NonDeg se e := by
  refine ⟨.line a a (se.minus c2 c1), ?_, trivial, .inl h0⟩
  unfold weakCrossing
  rw [if_neg (by simp [hn])]
  simp only
  split
  · split <;> rfl
  split
  · rfl
  generalize (if se.knownNeg a = true then se.neg (se.minus c2 c1) else se.minus c2 c1) = pd
  split
  · rfl
  split
  · rfl
  · exact weakCrossingRest_con ..

theorem exactSIV_con (se : SE S L Env) {w : Nat} {a1 a2 c1 c2 : S} {l : L} {dv : Dv S}
    {e : Env} (hn : se.nest c1 c2 = true) (h0 : se.val a1 e ≠ 0) {o : Out S}
    (ho : exactSIV se w a1 a2 c1 c2 l dv = some o) :
    ∃ c, o.con = some c ∧ c.FromTest ∧ c.NonDeg se e := by
  refine ⟨.line a1 (se.neg a2) (se.minus c2 c1), ?_, trivial, .inl h0⟩
  unfold exactSIV at ho
  rw [if_neg (by simp [hn])] at ho
  simp only at ho
  split at ho
  · split at ho
    · cases ho
    · cases ho; rfl
    · split at ho
      · cases ho
      split at ho <;> (cases ho; rfl)
  · cases ho; rfl

theorem weakZeroRest_con (se : SE S L Env) (coeff delta : S) (l : L) (common : Bool) (dv : Dv S)
    (con : Con S) (d : Dirs) : (weakZeroRest se coeff delta l common dv con d).con = some con := by
  unfold weakZeroRest
  split
  · rfl
  simp only
  generalize (if se.knownNeg coeff = true then se.neg coeff else coeff) = ac
  generalize (if se.knownNeg coeff = true then se.neg delta else delta) = nd
  split
  · rfl
  split
  · rfl
  split
  · rfl
  split <;> rfl

theorem weakZeroSrc_con (se : SE S L Env) {a c1 c2 : S} {l : L} {common : Bool} {dv : Dv S}
    {e : Env} (hn : se.nest c1 c2 = true) (h0 : se.val a e ≠ 0) :
    ∃ c, (weakZeroSrc se a c1 c2 l common dv).con = some c ∧ c.FromTest ∧ c.NonDeg se e := by
  refine ⟨.line (se.ofInt 0) a (se.minus c1 c2), ?_, trivial, .inr h0⟩
  unfold weakZeroSrc
  rw [if_neg (by simp [hn])]
  simp only
  split
  · rfl
  · exact weakZeroRest_con ..

theorem weakZeroDst_con (se : SE S L Env) {a c1 c2 : S} {l : L} {common : Bool} {dv : Dv S}
    {e : Env} (hn : se.nest c1 c2 = true) (h0 : se.val a e ≠ 0) :
    ∃ c, (weakZeroDst se a c1 c2 l common dv).con = some c ∧ c.FromTest ∧ c.NonDeg se e := by
  refine ⟨.line a (se.ofInt 0) (se.minus c2 c1), ?_, trivial, .inl h0⟩
  unfold weakZeroDst
  rw [if_neg (by simp [hn])]
  simp only
  split
  · rfl
  · exact weakZeroRest_con ..

theorem Res.gcd_con {se : SE S L Env} {src dst : Sub S L} {common : L → Bool} {r r' : Res S L}
    (h : Res.gcd se src dst common r = some r') (hi : r'.indep = false) :
    r.indep = false ∧ r'.con = r.con ∧ r'.level = r.level := by
  unfold Res.gcd at h
  split at h
  · cases h; exact ⟨hi, rfl, rfl⟩
  · rename_i hb
    obtain ⟨g, -, rfl⟩ := Option.map_eq_some_iff.1 h
    exact ⟨by simpa using hb, rfl, rfl⟩

/-- `testSIV` assigns the constraint and the level unless it returns early. -/
theorem testSIV_con {se : SE S L Env} {w : Nat} {common : L → Bool} {src dst : Sub S L}
    {dv : L → Dv S} {cons : Bool} {e : Env} {I : L → Int} (hok : se.SivOk w e I src dst)
    (hn : se.nest src.const dst.const = true) {r : Res S L}
    (hr : testSIV se w true common src dst dv cons = some r) (hi : r.indep = false) :
    ∃ c l, r.con = some c ∧ r.level = some l ∧ c.FromTest ∧ c.NonDeg se e := by
  unfold testSIV at hr
  rw [if_neg (by simp)] at hr
  unfold SE.SivOk at hok
  split at hok
  · rename_i c1 a1 l c2 a2 l'
    obtain ⟨rfl, h1, h2, -⟩ := hok
    have hn : se.nest c1 c2 = true := hn
    simp only at hr
    obtain ⟨r1, hr1, rfl⟩ := Option.map_eq_some_iff.1 hr
    obtain ⟨r2, hr2, hr1⟩ := Option.bind_eq_some_iff.1 hr1
    have hi' : r1.indep = false := by
      simp only [Bool.or_eq_false_iff] at hi; exact hi.1
    obtain ⟨g1, g2, g3⟩ := Res.gcd_con hr1 hi'
    simp only
    rw [g2, g3]
    split at hr2
    · cases hr2
      obtain ⟨c, e1, e2⟩ := strongSIV_con se hn h1 g1
      exact ⟨c, l, e1, rfl, e2⟩
    split at hr2
    · cases hr2
      obtain ⟨c, e1, e2⟩ := weakCrossing_con (l := l) (dv := dv l) se hn h1
      exact ⟨c, l, e1, rfl, e2⟩
    · obtain ⟨o, ho, rfl⟩ := Option.map_eq_some_iff.1 hr2
      obtain ⟨c, e1, e2⟩ := exactSIV_con se hn h1 ho
      exact ⟨c, l, e1, rfl, e2⟩
  · rename_i c1 a1 l c2
    have hn : se.nest c1 c2 = true := hn
    obtain ⟨g1, g2, g3⟩ := Res.gcd_con hr hi
    rw [g2, g3]
    obtain ⟨c, e1, e2⟩ := weakZeroDst_con (l := l) (common := common l) (dv := dv l) se hn hok
    exact ⟨c, l, e1, rfl, e2⟩
  · rename_i c1 c2 a2 l
    have hn : se.nest c1 c2 = true := hn
    obtain ⟨g1, g2, g3⟩ := Res.gcd_con hr hi
    rw [g2, g3]
    obtain ⟨c, e1, e2⟩ := weakZeroSrc_con (l := l) (common := common l) (dv := dv l) se hn hok
    exact ⟨c, l, e1, rfl, e2⟩
  · exact hok.elim

theorem intersect_nonDeg {se : SE S L Env} {ub : Option Int} {x y z : Con S} {ch : Bool} {e : Env}
    (hx : x.NonDeg se e) (hy : y.NonDeg se e) (hr : intersect se ub x y = some (z, ch)) :
    z.NonDeg se e := by
  have lines : ∀ {a1 b1 c1 a2 b2 c2 : S}, intersectLines se ub x a1 b1 c1 a2 b2 c2 = some (z, ch) →
      z.NonDeg se e := by
    intro a1 b1 c1 a2 b2 c2 h
    unfold intersectLines at h
    simp only at h
    split at h
    · split at h
      · cases h; exact hx
      split at h
      · cases h; trivial
      · cases h; exact hx
    split at h
    · split at h
      · rename_i xtop ytop xbot ybot _ _ _ _
        split at h
        · cases h
        split at h
        · cases h; trivial
        split at h
        · cases h; trivial
        cases ub
        · simp only [Bool.false_eq_true, if_false] at h
          cases h; trivial
        · simp only [decide_eq_true_eq] at h
          split at h <;> (cases h; trivial)
      · cases h; exact hx
    · cases h; exact hx
  unfold intersect at hr
  split at hr
  · cases hr
  · cases hr; trivial
  · cases hr; exact hy
  · cases hr; trivial
  · cases hr; trivial
  · simp only at hr
    split at hr
    · cases hr; trivial
    split at hr
    · cases hr; trivial
    split at hr <;> (cases hr; trivial)
  · split at hr
    · simp only at hr
      split at hr
      · cases hr; trivial
      split at hr <;> (cases hr; trivial)
    · cases hr
  · split at hr
    · exact lines hr
    · cases hr

/-- Substitution of constraints does not divide by zero. -/
theorem propagateOne_defined {se : SE S L Env} (h : se.Laws) (inv : Sub S L → L → Bool) (l : L)
    {con : Con S} (src dst : Sub S L) (cons : Bool) {e : Env} (hc : con.NonDeg se e) :
    ∃ r, propagateOne se inv l con src dst cons = some r := by
  cases con with
  | line a b c =>
    simp only [propagateOne]
    unfold propagateLine
    split
    · rename_i hz
      have ha := isZero_val h e hz
      split
      · rename_i beta charlie hb hch
        have hb := h.const _ _ e hb
        rw [if_neg (by rintro rfl; rcases hc with hc | hc; exacts [hc ha, hc hb])]
        exact ⟨_, rfl⟩
      · exact ⟨_, rfl⟩
    split
    · split <;> exact ⟨_, rfl⟩
    split
    · split <;> exact ⟨_, rfl⟩
    · exact ⟨_, rfl⟩
  | _ => exact ⟨_, rfl⟩

theorem propagate_defined {se : SE S L Env} (h : se.Laws) (inv : Sub S L → L → Bool)
    {con : L → Con S} {e : Env} (hc : ∀ l, (con l).NonDeg se e) (ls : List L) :
    ∀ (src dst : Sub S L) (cons : Bool), ∃ r, propagate se inv con ls src dst cons = some r := by
  induction ls with
  | nil => intro src dst cons; exact ⟨_, rfl⟩
  | cons l ls ih =>
    intro src dst cons
    obtain ⟨r, hr⟩ := propagateOne_defined h inv l src dst cons (hc l)
    obtain ⟨r', hr'⟩ := ih r.1 r.2.1 r.2.2.1
    exact ⟨_, by simp only [propagate, hr, Option.bind_some, hr', Option.map_some]; rfl⟩

/-- Subscripts are left as they were if `propagate` returns `false`. -/
theorem propagateOne_same {se : SE S L Env} {inv : Sub S L → L → Bool} {l : L} {con : Con S}
    {src dst : Sub S L} {cons : Bool} {r : Sub S L × Sub S L × Bool × Bool}
    (hr : propagateOne se inv l con src dst cons = some r) (hf : r.2.2.2 = false) :
    r.1 = src ∧ r.2.1 = dst := by
  unfold propagateOne at hr
  split at hr
  · cases hr
    unfold propagateDistance at hf ⊢
    simp only at hf ⊢
    split at hf
    · rename_i hz; rw [if_pos hz]; exact ⟨rfl, rfl⟩
    · cases hf
  · unfold propagateLine at hr
    split at hr
    · split at hr
      · split at hr
        · cases hr
        · cases hr; cases hf
      · cases hr; exact ⟨rfl, rfl⟩
    split at hr
    · split at hr
      · cases hr; cases hf
      · cases hr; exact ⟨rfl, rfl⟩
    split at hr
    · split at hr
      · cases hr; cases hf
      · cases hr; exact ⟨rfl, rfl⟩
    · cases hr; cases hf
  · cases hr; cases hf
  · cases hr; exact ⟨rfl, rfl⟩

theorem propagate_same {se : SE S L Env} {inv : Sub S L → L → Bool} {con : L → Con S} (ls : List L) :
    ∀ {src dst : Sub S L} {cons : Bool} {r : Sub S L × Sub S L × Bool × Bool},
    propagate se inv con ls src dst cons = some r → r.2.2.2 = false → r.1 = src ∧ r.2.1 = dst := by
  induction ls with
  | nil => intro src dst cons r hr _; cases hr; exact ⟨rfl, rfl⟩
  | cons l ls ih =>
    intro src dst cons r hr hf
    simp only [propagate] at hr
    obtain ⟨r1, h1, hr⟩ := Option.bind_eq_some_iff.1 hr
    obtain ⟨r2, h2, rfl⟩ := Option.map_eq_some_iff.1 hr
    simp only [Bool.or_eq_false_iff] at hf
    obtain ⟨e1, e2⟩ := propagateOne_same h1 hf.1
    obtain ⟨e3, e4⟩ := ih h2 hf.2
    exact ⟨e3.trans e1, e4.trans e2⟩

/-- What is assumed about two accesses in a state `e` of the program and iteration vectors `I` and
`J`. -/
structure Ctx.Ok (c : Ctx S L Env) (e : Env) (I J : L → Int) : Prop where
  laws : c.se.Laws
  sums : c.se.SumLaws
  nodup : c.all.Nodup
  inv : ∀ x t, c.inv x t = true → t ∉ x.loops
  iterI : ∀ l, c.se.Iter e l (I l)
  iterJ : ∀ l, c.se.Iter e l (J l)

variable {c : Ctx S L Env} {e : Env} {I J : L → Int}

theorem Ctx.isCommon_iff {l : L} : c.isCommon l = true ↔ l ∈ c.common := by
  simp [Ctx.isCommon]

theorem spec_apply {P : Call S L → Prop} {st : St S L} {x : Call S L} {ro : Option (Res S L)}
    {Q : St S L × Option L → Prop}
    (h : P x → ∃ r, ro = some r ∧ r.indep = false ∧
      Q (⟨r.dv, r.consistent, r.con.getD st.newCon⟩, r.level)) :
    (Ctx.apply st x ro).Spec P Q := by
  refine Run.spec_bind (Run.spec_call x) fun _ hp => ?_
  obtain ⟨r, rfl, h2, h3⟩ := h hp
  simp only [h2, Bool.false_eq_true, if_false]
  exact Run.spec_pure h3

theorem ziv_spec (h : c.Ok e I J) {src dst : Sub S L} {b : Bool} {st : St S L}
    (hcl : classify src dst = .ZIV) (hp : PairOk c.se e I J c.all src dst)
    (hst : c.se.CoversAll e c.isCommon st.dv I J) :
    (c.ziv src dst b st).Spec (CallOk c e I J)
      fun r => c.se.CoversAll e c.isCommon r.1.dv I J := by
  refine spec_apply fun _ => ⟨_, rfl, ?_, hst⟩
  rw [classify_ziv] at hcl
  cases src with
  | addRec => simp [Sub.loops] at hcl
  | base x =>
    cases dst with
    | addRec => simp [Sub.loops] at hcl
    | base y =>
      have heq := hp.eq
      simp only [Sub.val] at heq
      by_contra hb
      exact (testZIV_sound h.laws x y st.consistent).1 (by simpa [Sub.const] using hb) e heq

theorem siv_spec (h : c.Ok e I J) {src dst : Sub S L} {b : Bool} {st : St S L}
    (hp : PairOk c.se e I J c.all src dst)
    (hst : c.se.CoversAll e c.isCommon st.dv I J) :
    (c.siv src dst b st).Spec (CallOk c e I J)
      fun r => c.se.CoversAll e c.isCommon r.1.dv I J ∧ (b = true → ∃ l, r.2 = some l ∧
        c.se.Sat e r.1.newCon (I l) (J l) ∧ r.1.newCon.FromTest ∧ r.1.newCon.NonDeg c.se e) := by
  refine spec_apply fun hcall => ?_
  obtain ⟨h1, h2, h3⟩ := hcall
  obtain ⟨r, hr, hs⟩ := testSIV_sound (inNest := c.inNest src dst) (cons := st.consistent) h.laws h.sums
    h.iterI h.iterJ (fun l hl hl' => Ctx.isCommon_iff.2 (h2 l hl hl')) h1 hp.eq hst
  refine ⟨r, hr, hs.indep, hs.dv, fun hb => ?_⟩
  obtain ⟨g1, g2⟩ := h3 hb
  rw [g1] at hr
  obtain ⟨x, l, e1, e2, e3, e4⟩ := testSIV_con h1 g2 hr hs.indep
  refine ⟨l, e2, ?_⟩
  simp only [e1, Option.getD_some]
  exact ⟨hs.con x l e1 e2, e3, e4⟩

theorem rdiv_spec (h : c.Ok e I J) {src dst : Sub S L} {b : Bool} {st : St S L}
    (hp : PairOk c.se e I J c.all src dst)
    (hst : c.se.CoversAll e c.isCommon st.dv I J) :
    (c.rdiv src dst b st).Spec (CallOk c e I J)
      fun r => c.se.CoversAll e c.isCommon r.1.dv I J := by
  refine spec_apply fun hcall => ?_
  obtain ⟨r, hr, hs⟩ := testRDIV_sound (cons := st.consistent) h.laws h.sums h.iterI h.iterJ hp.srcN
    hp.dstN hcall hp.eq hst
  exact ⟨r, hr, hs.indep, hs.dv⟩

theorem miv_spec (h : c.Ok e I J) {src dst : Sub S L} {b : Bool} {st : St S L}
    (hp : PairOk c.se e I J c.all src dst)
    (hst : c.se.CoversAll e c.isCommon st.dv I J) :
    (c.miv src dst b st).Spec (CallOk c e I J)
      fun r => c.se.CoversAll e c.isCommon r.1.dv I J := by
  refine spec_apply fun hcall => ?_
  obtain ⟨r, hr, hs⟩ := testMIV_sound (commonList := c.common)
    (loops := fun l => decide (l ∈ c.loops src dst)) h.laws h.sums h.nodup hp.srcN
    hp.dstN hp.srcMem hp.dstMem (fun k hk => Ctx.isCommon_iff.2 hk) h.iterI h.iterJ hcall hp.eq hst
  exact ⟨r, hr, hs.indep, hs.dv⟩

theorem test_spec (h : c.Ok e I J) {src dst : Sub S L} {st : St S L}
    (hp : PairOk c.se e I J c.all src dst)
    (hst : c.se.CoversAll e c.isCommon st.dv I J) :
    (c.test src dst st).Spec (CallOk c e I J)
      fun r => c.se.CoversAll e c.isCommon r.1.dv I J := by
  unfold Ctx.test
  split
  · exact ziv_spec h (by assumption) hp hst
  · intro hc
    obtain ⟨a, h1, h2⟩ := siv_spec h hp hst (b := false) hc
    exact ⟨a, h1, h2.1⟩
  · exact rdiv_spec h hp hst
  · exact miv_spec h hp hst

/-- Linear pairs of subscripts are equal for the considered iterations. -/
def PairsOk (c : Ctx S L Env) (e : Env) (I J : L → Int) (pairs : Nat → Pair S L) : Prop :=
  ∀ k src dst, pairs k = .linear src dst → PairOk c.se e I J c.all src dst

theorem separable_spec (h : c.Ok e I J) {pairs : Nat → Pair S L} (hp : PairsOk c e I J pairs)
    (is : List Nat) : ∀ (st : St S L), (∀ i ∈ is, (pairs i).Linear) →
      c.se.CoversAll e c.isCommon st.dv I J →
      (c.separable pairs is st).Spec (CallOk c e I J)
        fun r => c.se.CoversAll e c.isCommon r.dv I J := by
  induction is with
  | nil => intro st _ hst; exact Run.spec_pure hst
  | cons i is ih =>
    intro st hl hst
    have hli := hl i (by simp)
    unfold Ctx.separable
    cases hpi : pairs i with
    | nonLinear => rw [hpi] at hli; exact hli.elim
    | linear src dst =>
      exact Run.spec_bind (test_spec h (hp i src dst hpi) hst)
        fun r hr => ih r.1 (fun k hk => hl k (by simp [hk])) hr

/-- The state of the Delta test agrees with the considered iterations. -/
structure GOk (c : Ctx S L Env) (e : Env) (I J : L → Int) (g : GSt S L) : Prop where
  pairs : PairsOk c e I J g.pairs
  dv : c.se.CoversAll e c.isCommon g.st.dv I J
  sat : ∀ l, c.se.Sat e (g.con l) (I l) (J l)
  nonDeg : ∀ l, (g.con l).NonDeg c.se e

theorem sivs_spec (h : c.Ok e I J) (js : List Nat) : ∀ (g : GSt S L) (ch : Bool),
    (∀ j ∈ js, (g.pairs j).Linear) → GOk c e I J g →
    (c.sivs js g ch).Spec (CallOk c e I J) fun r => GOk c e I J r.1 ∧ r.1.pairs = g.pairs := by
  induction js with
  | nil => intro g ch _ hg; exact Run.spec_pure ⟨hg, rfl⟩
  | cons j js ih =>
    intro g ch hl hg
    have hli := hl j (by simp)
    unfold Ctx.sivs
    cases hpj : g.pairs j with
    | nonLinear => rw [hpj] at hli; exact hli.elim
    | linear src dst =>
      refine Run.spec_bind (siv_spec h (hg.pairs j src dst hpj) hg.dv (b := true)) fun r hr => ?_
      obtain ⟨hr1, hr2⟩ := hr
      obtain ⟨l, e1, e2, e3, e4⟩ := hr2 rfl
      simp only [e1]
      obtain ⟨z, b, hz, hsz⟩ := intersect_sound h.laws (h.iterI l) (h.iterJ l) e3 (hg.sat l) e2
      have hnz := intersect_nonDeg (hg.nonDeg l) e4 hz
      rw [hz]
      have key : (c.sivs js ⟨g.pairs, r.1, fun k => if k = l then z else g.con k, l :: g.levels⟩
          (ch || b)).Spec (CallOk c e I J) fun r => GOk c e I J r.1 ∧ r.1.pairs = g.pairs := by
        refine ih _ _ (fun k hk => hl k (by simp [hk])) ⟨hg.pairs, hr1, fun k => ?_, fun k => ?_⟩
        · simp only
          split
          · rename_i hk; subst hk; exact hsz
          · exact hg.sat k
        · simp only
          split
          · exact hnz
          · exact hg.nonDeg k
      cases z with
      | empty => exact hsz.elim
      | _ => exact key

/-- The subscript is not simple. -/
def Pair.Deep (x : Pair S L) : Prop :=
  ∃ src dst, x = .linear src dst ∧ (classify src dst = .RDIV ∨ classify src dst = .MIV)

theorem Pair.Deep.linear {x : Pair S L} (h : x.Deep) : x.Linear := by
  obtain ⟨s, d, rfl, -⟩ := h; trivial

theorem mivs_spec (h : c.Ok e I J) (js : List Nat) : ∀ (g : GSt S L), js.Nodup →
    (∀ j ∈ js, (g.pairs j).Deep) → GOk c e I J g →
    (c.mivs js g).Spec (CallOk c e I J) fun r => GOk c e I J r.1 ∧
      (∀ k, k ∉ js → r.1.pairs k = g.pairs k) ∧
      (∀ k ∈ r.2.1, k ∈ js ∧ (r.1.pairs k).Linear) ∧ r.2.2.Sublist js ∧
      (∀ k ∈ r.2.2, (r.1.pairs k).Deep) ∧ r.2.1.length + r.2.2.length ≤ js.length := by
  induction js with
  | nil =>
    intro g _ _ hg
    exact Run.spec_pure ⟨hg, fun _ _ => rfl, by simp, List.Sublist.refl _, by simp, by simp⟩
  | cons j js ih =>
    intro g hn hl hg
    rw [List.nodup_cons] at hn
    obtain ⟨src, dst, hpj, hcl⟩ := hl j (by simp)
    unfold Ctx.mivs
    rw [hpj]
    simp only
    obtain ⟨r, hr⟩ := propagate_defined h.laws c.inv hg.nonDeg (c.loops src dst) src dst g.st.consistent
    rw [hr]
    refine Run.spec_bind (Run.spec_ofOption (Q := fun a => a = r) rfl rfl) fun a ha => ?_
    subst ha
    have hpr : PairOk c.se e I J c.all a.1 a.2.1 :=
      propagate_sound h.laws h.inv hg.sat _ src dst _
        (fun l hl => (List.mem_filter.1 hl).1) (hg.pairs j src dst hpj) a hr
    have hg' : ∀ st : St S L, c.se.CoversAll e c.isCommon st.dv I J →
        GOk c e I J { g with
          pairs := fun k => if k = j then .linear a.1 a.2.1 else g.pairs k, st := st } := by
      intro st hst
      refine ⟨fun k s d hk => ?_, hst, hg.sat, hg.nonDeg⟩
      simp only at hk
      split at hk
      · cases hk; exact hpr
      · exact hg.pairs k s d hk
    have hdeep : ∀ k ∈ js, ((fun k => if k = j then Pair.linear a.1 a.2.1 else g.pairs k) k).Deep := by
      intro k hk
      have : k ≠ j := fun he => hn.1 (he ▸ hk)
      simp only [this, if_false]
      exact hl k (by simp [hk])
    have keep : (classify a.1 a.2.1 = .RDIV ∨ classify a.1 a.2.1 = .MIV) →
        ((c.mivs js { g with
          pairs := fun k => if k = j then .linear a.1 a.2.1 else g.pairs k
          st := { g.st with consistent := a.2.2.1 } }).bind fun r =>
            .pure (r.1, r.2.1, j :: r.2.2)).Spec (CallOk c e I J) fun r => GOk c e I J r.1 ∧
          (∀ k, k ∉ j :: js → r.1.pairs k = g.pairs k) ∧
          (∀ k ∈ r.2.1, k ∈ j :: js ∧ (r.1.pairs k).Linear) ∧ r.2.2.Sublist (j :: js) ∧
          (∀ k ∈ r.2.2, (r.1.pairs k).Deep) ∧ r.2.1.length + r.2.2.length ≤ (j :: js).length := by
      intro hcl'
      refine Run.spec_bind (ih _ hn.2 hdeep (hg' _ hg.dv)) fun r hr => ?_
      obtain ⟨h1, h2, h3, h4, h5, h6⟩ := hr
      have hj := h2 j hn.1
      simp only [if_true] at hj
      refine Run.spec_pure ⟨h1, fun k hk => ?_, fun k hk => ⟨List.mem_cons_of_mem _ (h3 k hk).1, (h3 k hk).2⟩,
        h4.cons_cons j, fun k hk => ?_, by simp only [List.length_cons]; omega⟩
      · simp only [List.mem_cons, not_or] at hk
        rw [h2 k hk.2]
        simp [hk.1]
      · rcases List.mem_cons.1 hk with rfl | hk
        · exact ⟨_, _, hj, hcl'⟩
        · exact h5 k hk
    split
    · split
      · rename_i hz
        refine Run.spec_bind (ziv_spec h hz hpr hg.dv) fun s hs => ?_
        intro hcalls
        obtain ⟨r, hr, h1, h2, h3, h4, h5, h6⟩ := ih _ hn.2 hdeep (hg' s.1 hs) hcalls
        refine ⟨r, hr, h1, fun k hk => ?_,
          fun k hk => ⟨List.mem_cons_of_mem _ (h3 k hk).1, (h3 k hk).2⟩, h4.cons _, h5,
          by simp only [List.length_cons]; omega⟩
        simp only [List.mem_cons, not_or] at hk
        rw [h2 k hk.2]
        simp [hk.1]
      · refine Run.spec_bind (ih _ hn.2 hdeep (hg' _ hg.dv)) fun r hr => ?_
        obtain ⟨h1, h2, h3, h4, h5, h6⟩ := hr
        have hj := h2 j hn.1
        simp only [if_true] at hj
        refine Run.spec_pure ⟨h1, fun k hk => ?_, fun k hk => ?_, h4.cons _, h5,
          by simp only [List.length_cons]; omega⟩
        · simp only [List.mem_cons, not_or] at hk
          rw [h2 k hk.2]
          simp [hk.1]
        · rcases List.mem_cons.1 hk with rfl | hk
          · exact ⟨by simp, by rw [hj]; trivial⟩
          · exact ⟨List.mem_cons_of_mem _ (h3 k hk).1, (h3 k hk).2⟩
      · rename_i h1 h2
        refine keep ?_
        cases hcc : classify a.1 a.2.1 with
        | ZIV => exact absurd hcc h1
        | SIV => exact absurd hcc h2
        | RDIV => exact .inl rfl
        | MIV => exact .inr rfl
    · rename_i hf
      obtain ⟨e1, e2⟩ := propagate_same _ hr (by simpa using hf)
      refine keep ?_
      rw [e1, e2]
      exact hcl

theorem delta_spec (h : c.Ok e I J) (fuel : Nat) : ∀ (ss ms : List Nat) (g : GSt S L),
    (ss = [] ∨ ms.length + 1 ≤ fuel) → (∀ j ∈ ss, (g.pairs j).Linear) → ms.Nodup →
    (∀ j ∈ ms, (g.pairs j).Deep) → GOk c e I J g →
    (c.delta fuel ss ms g).Spec (CallOk c e I J) fun r => GOk c e I J r.1 ∧
      (∀ k, k ∉ ms → r.1.pairs k = g.pairs k) ∧ (∀ k ∈ r.2, (r.1.pairs k).Deep) := by
  induction fuel with
  | zero =>
    intro ss ms g hf hss hn hms hg
    rcases hf with rfl | hf
    · unfold Ctx.delta; exact Run.spec_pure ⟨hg, fun _ _ => rfl, hms⟩
    · omega
  | succ fuel ih =>
    intro ss ms g hf hss hn hms hg
    cases ss with
    | nil => unfold Ctx.delta; exact Run.spec_pure ⟨hg, fun _ _ => rfl, hms⟩
    | cons s ss =>
      have hf : ms.length + 1 ≤ fuel + 1 := by simpa using hf
      unfold Ctx.delta
      refine Run.spec_bind (sivs_spec h (s :: ss) g false hss hg) fun r hr => ?_
      obtain ⟨hr1, hr2⟩ := hr
      split
      · refine Run.spec_bind (mivs_spec h ms r.1 hn (by rw [hr2]; exact hms) hr1) fun q hq => ?_
        obtain ⟨h1, h2, h3, h4, h5, h6⟩ := hq
        intro hcalls
        obtain ⟨a, ha, g1, g2, g3⟩ := ih q.2.1 q.2.2 q.1 (by
          cases hq : q.2.1 with
          | nil => exact .inl rfl
          | cons x xs =>
            rw [hq] at h6
            simp only [List.length_cons] at h6
            exact .inr (by omega)) (fun j hj => (h3 j hj).2) (h4.nodup hn) h5 h1 hcalls
        refine ⟨a, ha, g1, fun k hk => ?_, g3⟩
        rw [g2 k fun hk' => hk (h4.subset hk'), h2 k hk, hr2]
      · intro hcalls
        obtain ⟨a, ha, g1, g2, g3⟩ := ih [] ms r.1 (.inl rfl) (by simp) hn (by rw [hr2]; exact hms)
          hr1 hcalls
        exact ⟨a, ha, g1, fun k hk => by rw [g2 k hk, hr2], g3⟩

theorem rdivs_spec (h : c.Ok e I J) {pairs : Nat → Pair S L} (hp : PairsOk c e I J pairs)
    (js : List Nat) : ∀ (st : St S L), (∀ j ∈ js, (pairs j).Deep) →
    c.se.CoversAll e c.isCommon st.dv I J →
    (c.rdivs pairs js st).Spec (CallOk c e I J) fun r => c.se.CoversAll e c.isCommon r.1.dv I J ∧
      ∀ k ∈ r.2, ∃ src dst, pairs k = .linear src dst ∧ classify src dst = .MIV := by
  induction js with
  | nil => intro st _ hst; exact Run.spec_pure ⟨hst, by simp⟩
  | cons j js ih =>
    intro st hl hst
    obtain ⟨src, dst, hpj, hcl⟩ := hl j (by simp)
    have hl' : ∀ k ∈ js, (pairs k).Deep := fun k hk => hl k (by simp [hk])
    unfold Ctx.rdivs
    rw [hpj]
    simp only
    split
    · exact Run.spec_bind (rdiv_spec h (hp j src dst hpj) hst) fun r hr => ih r.1 hl' hr
    · rename_i hnr
      refine Run.spec_bind (ih st hl' hst) fun r hr => Run.spec_pure ⟨hr.1, fun k hk => ?_⟩
      rcases List.mem_cons.1 hk with rfl | hk
      · exact ⟨src, dst, hpj, hcl.resolve_left hnr⟩
      · exact hr.2 k hk

theorem rest_spec (h : c.Ok e I J) {pairs : Nat → Pair S L} (hp : PairsOk c e I J pairs)
    (js : List Nat) : ∀ (st : St S L),
    (∀ k ∈ js, ∃ src dst, pairs k = .linear src dst ∧ classify src dst = .MIV) →
    c.se.CoversAll e c.isCommon st.dv I J →
    (c.rest pairs js st).Spec (CallOk c e I J) fun r => c.se.CoversAll e c.isCommon r.dv I J := by
  induction js with
  | nil => intro st _ hst; exact Run.spec_pure hst
  | cons j js ih =>
    intro st hl hst
    obtain ⟨src, dst, hpj, hcl⟩ := hl j (by simp)
    unfold Ctx.rest
    rw [hpj]
    simp only [hcl, if_true]
    exact Run.spec_bind (miv_spec h (hp j src dst hpj) hst)
      fun r hr => ih r.1 (fun k hk => hl k (by simp [hk])) hr

theorem covers_dir {se : SE S L Env} {e : Env} {l : L} {d : Dv S} {i j : Int}
    (h : se.Covers e l d i j) : d.dir ≠ .none := by
  intro he
  have hd := h.dir
  rw [he] at hd
  rcases lt_trichotomy i j with h' | h' | h'
  · exact absurd (hd.1 h') (by simp [Dirs.none])
  · exact absurd (hd.2.1 h') (by simp [Dirs.none])
  · exact absurd (hd.2.2 h') (by simp [Dirs.none])

theorem update_spec (h : c.Ok e I J) {con : L → Con S} (hs : ∀ l, c.se.Sat e (con l) (I l) (J l))
    (ls : List L) : ∀ (st : St S L), c.se.CoversAll e c.isCommon st.dv I J →
    (c.update con ls st).Spec (CallOk c e I J) fun r => c.se.CoversAll e c.isCommon r.dv I J := by
  induction ls with
  | nil => intro st hst; exact Run.spec_pure hst
  | cons l ls ih =>
    intro st hst
    unfold Ctx.update
    split
    · rename_i hc
      obtain ⟨d, hd, hcov⟩ := updateDirection_sound h.laws (hs l) (hst l hc)
      rw [hd]
      refine Run.spec_bind (Run.spec_ofOption (Q := fun a => a = d) rfl rfl) fun a ha => ?_
      subst ha
      rw [if_neg (covers_dir hcov)]
      exact ih _ (covers_set hst fun _ => hcov)
    · exact Run.spec_pure hst

theorem group_spec (h : c.Ok e I J) {idx : List Nat} {pairs : Nat → Pair S L} {con : L → Con S}
    {st : St S L} (hn : idx.Nodup)
    (hl : ∀ k ∈ idx, ∃ src dst, pairs k = .linear src dst ∧ classify src dst ≠ .ZIV)
    (hg : GOk c e I J ⟨pairs, st, con, []⟩) :
    (c.group idx pairs con st).Spec (CallOk c e I J) fun r => GOk c e I J r ∧
      ∀ k, k ∉ idx → r.pairs k = pairs k := by
  unfold Ctx.group
  simp only
  refine Run.spec_bind (delta_spec h _ _ _ _ (.inr (le_refl _)) (fun j hj => ?_) (hn.filter _)
    (fun j hj => ?_) hg) fun r hr => ?_
  · obtain ⟨s, d, hp, -⟩ := hl j (List.mem_filter.1 hj).1
    simp only [hp, Pair.Linear]
  · obtain ⟨hj1, hj2⟩ := List.mem_filter.1 hj
    obtain ⟨s, d, hp, hz⟩ := hl j hj1
    refine ⟨s, d, hp, ?_⟩
    simp only [hp, Bool.not_eq_true', decide_eq_false_iff_not] at hj2
    cases hcc : classify s d with
    | ZIV => exact absurd hcc hz
    | SIV => exact absurd hcc hj2
    | RDIV => exact .inl rfl
    | MIV => exact .inr rfl
  · obtain ⟨h1, h2, h3⟩ := hr
    refine Run.spec_bind (rdivs_spec h h1.pairs _ _ h3 h1.dv) fun s hs => ?_
    refine Run.spec_bind (rest_spec h h1.pairs _ _ hs.2 hs.1) fun s hs => ?_
    refine Run.spec_bind (update_spec h h1.sat _ _ hs) fun s hs => ?_
    refine Run.spec_pure ⟨⟨h1.pairs, hs, h1.sat, h1.nonDeg⟩, fun k hk => h2 k fun hk' => ?_⟩
    exact hk (List.mem_filter.1 hk').1

theorem groups_spec (h : c.Ok e I J) (gs : List (List Nat)) :
    ∀ (pairs : Nat → Pair S L) (con : L → Con S) (st : St S L), (∀ g ∈ gs, g.Nodup) →
    gs.Pairwise (fun a b => ∀ k ∈ a, k ∉ b) →
    (∀ g ∈ gs, ∀ k ∈ g, ∃ src dst, pairs k = .linear src dst ∧ classify src dst ≠ .ZIV) →
    PairsOk c e I J pairs → c.se.CoversAll e c.isCommon st.dv I J →
    (∀ l, c.se.Sat e (con l) (I l) (J l) ∧ (con l).NonDeg c.se e) →
    (c.groups gs pairs con st).Spec (CallOk c e I J)
      fun r => c.se.CoversAll e c.isCommon r.dv I J := by
  induction gs with
  | nil => intro pairs con st _ _ _ _ hst _; exact Run.spec_pure hst
  | cons g gs ih =>
    intro pairs con st hn hd hl hp hst hc
    rw [List.pairwise_cons] at hd
    unfold Ctx.groups
    refine Run.spec_bind (group_spec h (hn g (by simp)) (hl g (by simp))
      ⟨hp, hst, fun l => (hc l).1, fun l => (hc l).2⟩) fun r hr => ?_
    obtain ⟨h1, h2⟩ := hr
    refine ih _ _ _ (fun a ha => hn a (by simp [ha])) hd.2 (fun a ha k hk => ?_) h1.pairs h1.dv
      fun l => ⟨h1.sat l, h1.nonDeg l⟩
    rw [h2 k fun hk' => hd.1 a ha k hk' hk]
    exact hl a (by simp [ha]) k hk

/-- The dependence test of two accesses: if subscripts are equal for a pair of iterations then
a dependence is reported and it covers the iterations. -/
theorem depends_sound_partial (h : c.Ok e I J) {n : Nat} {pairs : Nat → Pair S L} {pli : Bool}
    (hp : PairsOk c e I J pairs) (hord : pli = true ∨ ∃ k ∈ c.common, I k ≠ J k)
    (hcalls : ∀ x ∈ (c.depends n pairs pli).calls, CallOk c e I J x) :
    ∃ d, (c.depends n pairs pli).res = .ok d ∧
      (∀ k ∈ c.common, c.se.Covers e k (d.dv k) (I k) (J k)) ∧
      (pli = true → (∀ k ∈ c.common, I k = J k) → d.loopIndep = true) := by
  refine (?_ : (c.depends n pairs pli).Spec (CallOk c e I J) _) hcalls
  unfold Ctx.depends
  simp only
  have hpart := parts_inv c n pairs
  refine Run.spec_bind (separable_spec h hp _ _ (fun i hi => ((parts_group c n pairs i).1 hi).2.1)
    fun k _ => covers_top ..) fun st hst => ?_
  refine Run.spec_bind (groups_spec h _ _ _ _ ?_ ?_ ?_ hp hst fun l => ⟨trivial, trivial⟩)
    fun st hst => ?_
  · intro g hg
    obtain ⟨i, -, rfl⟩ := List.mem_map.1 hg
    exact List.nodup_range.filter _
  · rw [List.pairwise_map]
    have hnd : (c.parts n pairs).coupled.Nodup := (List.nodup_append.1 hpart.nodup).2.1
    refine hnd.imp_of_mem fun {a b} ha hb hne k hk hk' => ?_
    simp only [List.mem_filter, List.mem_range, decide_eq_true_eq] at hk hk'
    have hlk : (pairs k).Linear := by
      have := (((parts_group c n pairs a).2 ha).2.2 k hk.2).2
      cases hpk : pairs k with
      | linear => trivial
      | nonLinear => rw [hpk] at this; exact this rfl
    obtain ⟨d, -, hu⟩ := parts_unique c n pairs k hk.1 hlk
    have h1 := hu a (by simp [ha]) hk.2
    have h2 := hu b (by simp [hb]) hk'.2
    exact hne (h1.trans h2.symm)
  · intro g hg k hk
    obtain ⟨i, hi, rfl⟩ := List.mem_map.1 hg
    simp only [List.mem_filter, List.mem_range, decide_eq_true_eq] at hk
    have hne := (((parts_group c n pairs i).2 hi).2.2 k hk.2).2
    cases hpk : pairs k with
    | nonLinear => rw [hpk] at hne; exact absurd rfl hne
    | linear src dst =>
      refine ⟨src, dst, rfl, fun hz => hne ?_⟩
      rw [classify_ziv] at hz
      simp [hpk, Ctx.pairLoops, Ctx.loops, hz]
  · unfold Ctx.finish
    have hcov : ∀ k ∈ c.common, c.se.Covers e k (st.dv k) (I k) (J k) :=
      fun k hk => hst k (Ctx.isCommon_iff.2 hk)
    split
    · refine Run.spec_pure ⟨hcov, fun _ heq => ?_⟩
      rw [List.all_eq_true]
      exact fun k hk => (hcov k hk).dir.2.1 (heq k hk)
    · rename_i hpli
      rw [if_neg]
      · exact Run.spec_pure ⟨hcov, fun hp => absurd hp hpli⟩
      · intro hall
        obtain ⟨k, hk, hne⟩ := hord.resolve_left hpli
        have := List.all_eq_true.1 hall k hk
        simp only [decide_eq_true_eq] at this
        have hd := (hcov k hk).dir
        rw [this] at hd
        rcases lt_trichotomy (I k) (J k) with h' | h' | h'
        · exact absurd (hd.1 h') (by simp [Dirs.EQ])
        · exact hne h'
        · exact absurd (hd.2.2 h') (by simp [Dirs.EQ])

end Tsar.DepTest
