import Verif.DepTest.SE
import Verif.DepTest.Quot
/-!
# Dependence tests for a pair of subscripts with at most one induction variable

`lib/Analysis/Memory/DependenceAnalysis.cpp`: `testZIV`, `strongSIVtest`, `weakCrossingSIVtest`,
`weakZeroSrcSIVtest`, `weakZeroDstSIVtest`.  Statistic counters and debug output are not modelled.
-/

namespace Tsar.DepTest

variable {S L Env : Type}

/-- Effects of a test: the returned value ("dependence disproved"), the entry of the direction
vector for the level of the loop, the flag `Consistent`, the constraint assigned to `NewConstraint`
(`none` if it is left as it was) and the value assigned to `SplitIter`. -/
structure Out (S : Type) where
  indep : Bool
  dv : Dv S
  consistent : Bool
  con : Option (Con S)
  split : Option S

/-- The effects of a test agree with a pair of iterations which access the same element: the
dependence is not disproved, the entry of the direction vector and the constraint hold. -/
structure SE.Sound (se : SE S L Env) (e : Env) (l : L) (o : Out S) (i j : Int) : Prop where
  indep : o.indep = false
  dv : se.Covers e l o.dv i j
  con : ∀ c, o.con = some c → se.Sat e c i j

/-- `testZIV`, DependenceAnalysis.cpp:1207-1226.  The result is the returned value and the new value
of `Consistent`. -/
def testZIV (se : SE S L Env) (src dst : S) (consistent : Bool) : Bool × Bool :=
  if se.isKnown .eq src dst then (false, consistent)
  else if se.isKnown .ne src dst then (true, consistent)
  else (false, false)

/-- Is the expression the constant zero, `SCEV::isZero`. -/
def SE.isZero (se : SE S L Env) (x : S) : Bool := se.const x == some 0

/-- Is the expression the constant one, `SCEV::isOne`. -/
def SE.isOne (se : SE S L Env) (x : S) : Bool := se.const x == some 1

/-- Pattern `if (UB = collectUpperBound(…)) if (isKnownPredicate(P, X, …UB…))` of the tests. -/
def SE.boundKnown (se : SE S L Env) (l : L) (p : Pred) (x : S) (f : S → S) : Bool :=
  match se.bound l with
  | none => false
  | some ub => se.isKnown p x (f ub)

theorem SE.Laws.boundKnown {se : SE S L Env} (h : se.Laws) {l : L} {p : Pred} {x : S} {f : S → S}
    (e : Env) (hk : se.boundKnown l p x f = true) :
    ∃ ub, se.bound l = some ub ∧ p.Holds (se.val x e) (se.val (f ub) e) := by
  unfold SE.boundKnown at hk
  split at hk
  · cases hk
  · exact ⟨_, by assumption, h.isKnown e hk⟩

/-- The check "|Delta| > UB * |Coeff|" of `strongSIVtest`, DependenceAnalysis.cpp:1276-1291. -/
def strongFar (se : SE S L Env) (coeff delta : S) (l : L) : Bool :=
  let absDelta := if se.knownNonNeg delta then delta else se.neg delta
  let absCoeff := if se.knownNonNeg coeff then coeff else se.neg coeff
  se.boundKnown l .sgt absDelta (fun ub => se.mul ub absCoeff)

/-- Possible directions from the signs, DependenceAnalysis.cpp:1334-1354. -/
def strongDirs (se : SE S L Env) (coeff delta : S) : Dirs :=
  let deltaMaybeZero := !se.knownNonZero delta
  let deltaMaybePositive := !se.knownNonPos delta
  let deltaMaybeNegative := !se.knownNonNeg delta
  let coeffMaybePositive := !se.knownNonPos coeff
  let coeffMaybeNegative := !se.knownNonNeg coeff
  { lt := (deltaMaybePositive && coeffMaybePositive) || (deltaMaybeNegative && coeffMaybeNegative)
    eq := deltaMaybeZero
    gt := (deltaMaybeNegative && coeffMaybePositive) || (deltaMaybePositive && coeffMaybeNegative) }

/-- `strongSIVtest`, DependenceAnalysis.cpp:1254-1361. -/
def strongSIV (se : SE S L Env) (coeff c1 c2 : S) (l : L) (dv : Dv S) (consistent : Bool) : Out S :=
  if !se.nest c1 c2 then ⟨false, dv, consistent, none, none⟩
  else
    let delta := se.minus c1 c2
    if strongFar se coeff delta l then ⟨true, dv, consistent, none, none⟩
    else match se.const delta, se.const coeff with
    | some d, some c =>
      if d.tmod c ≠ 0 then ⟨true, dv, consistent, none, none⟩
      else
        let q := d.tdiv c
        let dirs := if q > 0 then Dirs.LT else if q < 0 then Dirs.GT else Dirs.EQ
        ⟨false, { dv with distance := some (se.ofInt q), dir := dv.dir.inter dirs }, consistent,
          some (.distance (se.ofInt q)), none⟩
    | _, _ =>
      if se.isZero delta then
        ⟨false, { dv with distance := some delta, dir := dv.dir.inter .EQ }, consistent,
          some (.distance delta), none⟩
      else if se.isOne coeff then
        ⟨false, { dv with distance := some delta, dir := dv.dir.inter (strongDirs se coeff delta) },
          consistent, some (.distance delta), none⟩
      else
        ⟨false, { dv with dir := dv.dir.inter (strongDirs se coeff delta) }, false,
          some (.line coeff (se.neg coeff) (se.neg delta)), none⟩

/-- The part of `weakZeroSrcSIVtest` and of `weakZeroDstSIVtest` which follows the comparison of
constants, DependenceAnalysis.cpp:1848-1899 and 1957-2002 (two functions contain the same text up to
the directions, which are the last argument). -/
def weakZeroRest (se : SE S L Env) (coeff delta : S) (l : L) (common : Bool) (dv : Dv S)
    (con : Con S) (lastDirs : Dirs) : Out S :=
  match se.const coeff with
  | none => ⟨false, dv, false, some con, none⟩
  | some c =>
    let absCoeff := if se.knownNeg coeff then se.neg coeff else coeff
    let newDelta := if se.knownNeg coeff then se.neg delta else delta
    let far := se.boundKnown l .sgt newDelta (fun ub => se.mul absCoeff ub)
    let last := se.boundKnown l .eq newDelta (fun ub => se.mul absCoeff ub)
    if far then ⟨true, dv, false, some con, none⟩
    else if last then
      ⟨false, if common then { dv with dir := dv.dir.inter lastDirs, peelLast := true } else dv,
        false, some con, none⟩
    else if se.knownNeg newDelta then ⟨true, dv, false, some con, none⟩
    else match se.const delta with
    | some d => ⟨decide (d.tmod c ≠ 0), dv, false, some con, none⟩
    | none => ⟨false, dv, false, some con, none⟩

/-- `weakZeroSrcSIVtest`, DependenceAnalysis.cpp:1815-1900; `common` tells whether the loop contains
both accesses (`Level < CommonLevels`). -/
def weakZeroSrc (se : SE S L Env) (coeff c1 c2 : S) (l : L) (common : Bool) (dv : Dv S) : Out S :=
  if !se.nest c1 c2 then ⟨false, dv, false, none, none⟩
  else
    let delta := se.minus c1 c2
    let con := Con.line (se.ofInt 0) coeff delta
    if se.isKnown .eq c1 c2 then
      ⟨false, if common then { dv with dir := dv.dir.inter .GE, peelFirst := true } else dv,
        false, some con, none⟩
    else weakZeroRest se coeff delta l common dv con .LE

/-- `weakZeroDstSIVtest`, DependenceAnalysis.cpp:1927-2003. -/
def weakZeroDst (se : SE S L Env) (coeff c1 c2 : S) (l : L) (common : Bool) (dv : Dv S) : Out S :=
  if !se.nest c1 c2 then ⟨false, dv, false, none, none⟩
  else
    let delta := se.minus c2 c1
    let con := Con.line coeff (se.ofInt 0) delta
    if se.isKnown .eq c2 c1 then
      ⟨false, if common then { dv with dir := dv.dir.inter .LE, peelFirst := true } else dv,
        false, some con, none⟩
    else weakZeroRest se coeff delta l common dv con .GE

/-- The end of `weakCrossingSIVtest` (DependenceAnalysis.cpp:1441-1508): the coefficient is positive,
`c` and `d` are the constant coefficient and the constant difference. -/
def weakCrossingRest (se : SE S L Env) (pcoeff delta : S) (c d : Int) (l : L) (dv : Dv S)
    (con : Con S) (split : S) : Out S :=
  let far := se.boundKnown l .sgt delta (fun ub => se.mul (se.mul pcoeff ub) (se.ofInt 2))
  let last := se.boundKnown l .eq delta (fun ub => se.mul (se.mul pcoeff ub) (se.ofInt 2))
  if far then ⟨true, dv, false, some con, some split⟩
  else if last then
    let dv' := { dv with dir := dv.dir.inter .EQ }
    if dv'.dir = .none then ⟨true, dv', false, some con, some split⟩
    else ⟨false, { dv' with splitable := false, distance := some (se.ofInt 0) }, false, some con,
      some split⟩
  else if d.tmod c ≠ 0 then ⟨true, dv, false, some con, some split⟩
  else if (d.tdiv c).tmod 2 ≠ 0 then
    ⟨false, { dv with dir := dv.dir.inter .NE }, false, some con, some split⟩
  else ⟨false, dv, false, some con, some split⟩

/-- `weakCrossingSIVtest`, DependenceAnalysis.cpp:1391-1509. -/
def weakCrossing (se : SE S L Env) (coeff c1 c2 : S) (l : L) (dv : Dv S) : Out S :=
  if !se.nest c1 c2 then ⟨false, dv, false, none, none⟩
  else
    let delta := se.minus c2 c1
    let con := Con.line coeff coeff delta
    if se.isZero delta then
      let dv' := { dv with dir := dv.dir.inter .EQ }
      if dv'.dir = .none then ⟨true, dv', false, some con, none⟩
      else ⟨false, { dv' with distance := some delta }, false, some con, none⟩
    else match se.const coeff with
    | none => ⟨false, dv, false, some con, none⟩
    | some c =>
      let dv := { dv with splitable := true }
      let isNeg := se.knownNeg coeff
      let pcoeff := if isNeg then se.neg coeff else coeff
      let pc := if isNeg then -c else c
      let pdelta := if isNeg then se.neg delta else delta
      let split := se.udiv (se.smax (se.ofInt 0) pdelta) (se.mul (se.ofInt 2) pcoeff)
      match se.const pdelta with
      | none => ⟨false, dv, false, some con, some split⟩
      | some d =>
        if se.knownNeg pdelta then ⟨true, dv, false, some con, some split⟩
        else weakCrossingRest se pcoeff pdelta pc d l dv con split

/-! ## Soundness -/

/-- ZIV: the dependence is disproved only if two subscripts differ in every state; if the dependence
is still called consistent, then the subscripts are equal in every state. -/
theorem testZIV_sound {se : SE S L Env} (h : se.Laws) (src dst : S) (cons : Bool) :
    ((testZIV se src dst cons).1 = true → ∀ e, se.val src e ≠ se.val dst e) ∧
    ((testZIV se src dst cons) = (false, true) → ∀ e, se.val src e = se.val dst e) := by
  unfold testZIV
  split
  · exact ⟨fun hc => by simp at hc, fun _ e => h.isKnown (p := .eq) e (by assumption)⟩
  · split
    · exact ⟨fun _ e => h.isKnown (p := .ne) e (by assumption), fun hc => by simp at hc⟩
    · exact ⟨fun hc => by simp at hc, fun hc => by simp at hc⟩

theorem strongFar_sound {se : SE S L Env} (h : se.Laws) {coeff delta : S} {l : L} {e : Env}
    {i j : Int} (hi : se.Iter e l i) (hj : se.Iter e l j)
    (hsign : se.knownNonNeg coeff = true ∨ se.val coeff e ≤ 0)
    (heq : se.val delta e = se.val coeff e * (j - i)) : strongFar se coeff delta l = false := by
  unfold strongFar
  simp only
  by_contra hk
  obtain ⟨ub, hb, hk⟩ := h.boundKnown e (by simpa using hk)
  simp only [Pred.Holds, h.mul] at hk
  have hi0 := hi.1; have hi1 := hi.2 _ hb; have hj0 := hj.1; have hj1 := hj.2 _ hb
  have hd1 : -(se.val ub e) ≤ j - i := by omega
  have hd2 : j - i ≤ se.val ub e := by omega
  have hu : 0 ≤ se.val ub e := by omega
  have hc : 0 ≤ se.val (if se.knownNonNeg coeff = true then coeff else se.neg coeff) e ∧
      (se.val (if se.knownNonNeg coeff = true then coeff else se.neg coeff) e = se.val coeff e ∨
       se.val (if se.knownNonNeg coeff = true then coeff else se.neg coeff) e = - se.val coeff e)
      := by
    split
    · exact ⟨h.knownNonNeg _ e (by assumption), .inl rfl⟩
    · rw [h.neg]
      refine ⟨?_, .inr rfl⟩
      rcases hsign with hs | hs
      · contradiction
      · omega
  have hdd : se.val (if se.knownNonNeg delta = true then delta else se.neg delta) e =
      se.val delta e ∨ se.val (if se.knownNonNeg delta = true then delta else se.neg delta) e =
      - se.val delta e := by
    split
    · exact .inl rfl
    · exact .inr (h.neg _ _)
  generalize se.val (if se.knownNonNeg coeff = true then coeff else se.neg coeff) e = ac at *
  generalize se.val (if se.knownNonNeg delta = true then delta else se.neg delta) e = ad at *
  obtain ⟨hc0, hc1⟩ := hc
  generalize se.val coeff e = c at *
  generalize se.val delta e = d at *
  generalize se.val ub e = u at *
  generalize j - i = k at *
  subst heq
  have h1 : c * k ≤ u * ac ∧ -(c * k) ≤ u * ac := by
    rcases hc1 with rfl | rfl
    · constructor <;> nlinarith
    · constructor <;> nlinarith
  rcases hdd with rfl | rfl <;> omega

/-- The sign of the distance and the sign of the difference. -/
theorem strongDirs_sound {se : SE S L Env} (h : se.Laws) {coeff delta : S} {e : Env} {i j : Int}
    (h0 : se.val coeff e ≠ 0) (heq : se.val delta e = se.val coeff e * (j - i)) :
    (strongDirs se coeff delta).Has i j := by
  have hz := h.knownNonZero delta e
  have hdp := h.knownNonPos delta e
  have hdn := h.knownNonNeg delta e
  have hcp := h.knownNonPos coeff e
  have hcn := h.knownNonNeg coeff e
  generalize se.val coeff e = c at *
  generalize se.val delta e = d at *
  unfold strongDirs Dirs.Has
  simp only [Bool.or_eq_true, Bool.and_eq_true, Bool.not_eq_true']
  refine ⟨fun hlt => ?_, fun hlt => ?_, fun hlt => ?_⟩
  · rcases lt_or_gt_of_ne h0 with hc | hc
    · right
      have hd : d < 0 := by rw [heq]; exact Int.mul_neg_of_neg_of_pos hc (by omega)
      constructor
      · by_contra hk; have := hdn (by simpa using hk); omega
      · by_contra hk; have := hcn (by simpa using hk); omega
    · left
      have hd : 0 < d := by rw [heq]; exact Int.mul_pos hc (by omega)
      constructor
      · by_contra hk; have := hdp (by simpa using hk); omega
      · by_contra hk; have := hcp (by simpa using hk); omega
  · by_contra hk
    have := hz (by simpa using hk)
    rw [heq, hlt] at this
    simp at this
  · rcases lt_or_gt_of_ne h0 with hc | hc
    · right
      have hd : 0 < d := by rw [heq]; exact Int.mul_pos_of_neg_of_neg hc (by omega)
      constructor
      · by_contra hk; have := hdp (by simpa using hk); omega
      · by_contra hk; have := hcn (by simpa using hk); omega
    · left
      have hd : d < 0 := by rw [heq]; exact Int.mul_neg_of_pos_of_neg hc (by omega)
      constructor
      · by_contra hk; have := hdn (by simpa using hk); omega
      · by_contra hk; have := hcp (by simpa using hk); omega

/-- Strong SIV: for every pair of iterations which access the same element, the dependence is not
disproved, its direction is kept and the reported distance is right, provided that the coefficient is
not zero in the state, and its sign is the one assumed by the test. -/
theorem strongSIV_sound {se : SE S L Env} (h : se.Laws) {coeff c1 c2 : S} {l : L} {dv : Dv S}
    {cons : Bool} {e : Env} {i j : Int} (hi : se.Iter e l i) (hj : se.Iter e l j)
    (h0 : se.val coeff e ≠ 0) (hsign : se.knownNonNeg coeff = true ∨ se.val coeff e ≤ 0)
    (heq : se.val c1 e + se.val coeff e * i = se.val c2 e + se.val coeff e * j)
    (hdv : se.Covers e l dv i j) : se.Sound e l (strongSIV se coeff c1 c2 l dv cons) i j := by
  have hd : se.val (se.minus c1 c2) e = se.val coeff e * (j - i) := by
    rw [h.minus]; linear_combination heq
  unfold strongSIV
  split
  · exact ⟨rfl, hdv, fun c hc => by cases hc⟩
  simp only
  rw [strongFar_sound h hi hj hsign hd]
  simp only [Bool.false_eq_true, ↓reduceIte]
  have hdir : ∀ ds : Dirs, ds.Has i j → (dv.dir.inter ds).Has i j := fun ds hs =>
    Dirs.has_inter.2 ⟨hdv.dir, hs⟩
  have hrest : se.Sound e l
      (if se.isZero (se.minus c1 c2) then
        ⟨false, { dv with distance := some (se.minus c1 c2), dir := dv.dir.inter .EQ }, cons,
          some (.distance (se.minus c1 c2)), none⟩
      else if se.isOne coeff then
        ⟨false, { dv with distance := some (se.minus c1 c2),
                          dir := dv.dir.inter (strongDirs se coeff (se.minus c1 c2)) },
          cons, some (.distance (se.minus c1 c2)), none⟩
      else
        ⟨false, { dv with dir := dv.dir.inter (strongDirs se coeff (se.minus c1 c2)) }, false,
          some (.line coeff (se.neg coeff) (se.neg (se.minus c1 c2))), none⟩) i j := by
    split
    · rename_i hz
      have hz : se.val (se.minus c1 c2) e = 0 := h.const _ _ e (by simpa [SE.isZero] using hz)
      have hij : j - i = 0 := by
        rw [hd] at hz; exact (Int.mul_eq_zero.1 hz).resolve_left h0
      refine ⟨rfl, ⟨hdir _ ⟨?_, ?_, ?_⟩, ?_, hdv.first, hdv.last⟩, ?_⟩
      · intro; omega
      · intro; rfl
      · intro; omega
      · intro d hd'; cases hd'; rw [hz, hij]
      · intro c hc; cases hc; simp only [SE.Sat]; rw [hz, hij]
    · split
      · rename_i hz
        have hz : se.val coeff e = 1 := h.const _ _ e (by simpa [SE.isOne] using hz)
        refine ⟨rfl, ⟨hdir _ (strongDirs_sound h h0 hd), ?_, hdv.first, hdv.last⟩, ?_⟩
        · intro d hd'; cases hd'; rw [hd, hz]; ring
        · intro c hc; cases hc; simp only [SE.Sat]; rw [hd, hz]; ring
      · refine ⟨rfl, ⟨hdir _ (strongDirs_sound h h0 hd), hdv.distance, hdv.first, hdv.last⟩, ?_⟩
        intro c hc; cases hc; simp only [SE.Sat]; rw [h.neg, h.neg, hd]; ring
  cases hcd : se.const (se.minus c1 c2) with
  | none => simpa only [hcd] using hrest
  | some d =>
    cases hcc : se.const coeff with
    | none => simpa only [hcd, hcc] using hrest
    | some c =>
      simp only
      have ec := h.const _ _ e hcc
      have ed := h.const _ _ e hcd
      rw [ec] at hd h0
      rw [ed] at hd
      have hm : d.tmod c = 0 := Int.tmod_eq_zero_of_dvd ⟨_, hd⟩
      have hq : d.tdiv c = j - i := by rw [hd, Int.mul_tdiv_cancel_left _ h0]
      rw [hm, hq]
      simp only [ne_eq, not_true_eq_false, ↓reduceIte]
      refine ⟨rfl, ⟨hdir _ ?_, ?_, hdv.first, hdv.last⟩, ?_⟩
      · split
        · exact ⟨fun _ => rfl, fun _ => by omega, fun _ => by omega⟩
        · split
          · exact ⟨fun _ => by omega, fun _ => by omega, fun _ => rfl⟩
          · exact ⟨fun _ => by omega, fun _ => rfl, fun _ => by omega⟩
      · intro d hd'; cases hd'; rw [h.ofInt]
      · intro c hc; cases hc; simp only [SE.Sat, h.ofInt]

/-- Strong SIV: if the dependence is still called consistent, then the reported distance is reached
from each iteration: iterations `i` and `i + distance` access the same element. -/
theorem strongSIV_consistent {se : SE S L Env} (h : se.Laws) {coeff c1 c2 : S} {l : L} {dv : Dv S}
    (hn : se.nest c1 c2 = true)
    (hr : (strongSIV se coeff c1 c2 l dv true).indep = false)
    (hc : (strongSIV se coeff c1 c2 l dv true).consistent = true) :
    ∃ d, (strongSIV se coeff c1 c2 l dv true).dv.distance = some d ∧
      (strongSIV se coeff c1 c2 l dv true).con = some (.distance d) ∧
      ∀ e i, se.val c1 e + se.val coeff e * i = se.val c2 e + se.val coeff e * (i + se.val d e) := by
  unfold strongSIV at hr hc ⊢
  simp only [hn, Bool.not_true, Bool.false_eq_true, ↓reduceIte] at hr hc ⊢
  split at hr
  · cases hr
  rename_i hfar
  rw [if_neg hfar] at hc ⊢
  have hrest : ∀ o : Out S, o =
      (if se.isZero (se.minus c1 c2) then
        ⟨false, { dv with distance := some (se.minus c1 c2), dir := dv.dir.inter .EQ }, true,
          some (.distance (se.minus c1 c2)), none⟩
      else if se.isOne coeff then
        ⟨false, { dv with distance := some (se.minus c1 c2),
                          dir := dv.dir.inter (strongDirs se coeff (se.minus c1 c2)) },
          true, some (.distance (se.minus c1 c2)), none⟩
      else
        ⟨false, { dv with dir := dv.dir.inter (strongDirs se coeff (se.minus c1 c2)) }, false,
          some (.line coeff (se.neg coeff) (se.neg (se.minus c1 c2))), none⟩) →
      o.consistent = true → ∃ d, o.dv.distance = some d ∧ o.con = some (.distance d) ∧
      ∀ e i, se.val c1 e + se.val coeff e * i =
        se.val c2 e + se.val coeff e * (i + se.val d e) := by
    intro o ho hc
    split at ho
    · subst ho
      rename_i hz
      refine ⟨_, rfl, rfl, fun e i => ?_⟩
      have hz : se.val (se.minus c1 c2) e = 0 := h.const _ _ e (by simpa [SE.isZero] using hz)
      rw [hz]; rw [h.minus] at hz; have : se.val c1 e = se.val c2 e := by omega
      rw [this, Int.add_zero]
    · split at ho
      · subst ho
        rename_i hz
        refine ⟨_, rfl, rfl, fun e i => ?_⟩
        have hz : se.val coeff e = 1 := h.const _ _ e (by simpa [SE.isOne] using hz)
        rw [hz, h.minus]; ring
      · subst ho; cases hc
  cases hcd : se.const (se.minus c1 c2) with
  | none =>
    simp only [hcd] at hc ⊢
    exact hrest _ rfl hc
  | some d =>
    cases hcc : se.const coeff with
    | none =>
      simp only [hcd, hcc] at hc ⊢
      exact hrest _ rfl hc
    | some c =>
      simp only [hcd, hcc] at hc hr ⊢
      split at hr
      · cases hr
      · rename_i hm
        rw [if_neg hm] at hc ⊢
        refine ⟨_, rfl, rfl, fun e i => ?_⟩
        have ed := h.const _ _ e hcd
        have ec := h.const _ _ e hcc
        rw [h.ofInt, ec]
        rw [h.minus] at ed
        have := Int.mul_tdiv_add_tmod d c
        have hm : d.tmod c = 0 := by simpa using hm
        rw [hm] at this
        linear_combination ed - this

theorem weakZeroRest_sound {se : SE S L Env} (h : se.Laws) {coeff delta : S} {l : L} {common : Bool}
    {dv : Dv S} {con : Con S} {dirs : Dirs} {e : Env} {i j k : Int} (hk : se.Iter e l k)
    (h0 : se.val coeff e ≠ 0) (heq : se.val delta e = se.val coeff e * k)
    (hdv : se.Covers e l dv i j) (hcon : se.Sat e con i j) (hij : k = i ∨ k = j)
    (hdirs : ∀ u, se.bound l = some u → k = se.val u e → dirs.Has i j) :
    se.Sound e l (weakZeroRest se coeff delta l common dv con dirs) i j := by
  unfold weakZeroRest
  cases hc : se.const coeff with
  | none => exact ⟨rfl, hdv, fun c hc => by cases hc; exact hcon⟩
  | some c =>
    simp only
    have ec := h.const _ _ e hc
    have hsg := h.constSign _ _ hc
    rw [ec] at h0 heq
    have hac : 0 < se.val (if se.knownNeg coeff = true then se.neg coeff else coeff) e := by
      split
      · rw [h.neg, ec]; have := hsg.1 (by assumption); omega
      · rw [ec]; have : ¬ c < 0 := fun hn => absurd (hsg.2 hn) (by assumption); omega
    have hnd : se.val (if se.knownNeg coeff = true then se.neg delta else delta) e =
        se.val (if se.knownNeg coeff = true then se.neg coeff else coeff) e * k := by
      split
      · rw [h.neg, h.neg, ec, heq]; ring
      · rw [ec, heq]
    generalize (if se.knownNeg coeff = true then se.neg coeff else coeff) = ac at *
    generalize (if se.knownNeg coeff = true then se.neg delta else delta) = nd at *
    have hfar : se.boundKnown l .sgt nd (fun ub => se.mul ac ub) = false := by
      by_contra hkn
      obtain ⟨ub, hb, hkn⟩ := h.boundKnown e (by simpa using hkn)
      simp only [Pred.Holds, h.mul, hnd] at hkn
      have := hk.2 _ hb
      nlinarith
    rw [hfar]
    simp only [Bool.false_eq_true, ↓reduceIte]
    split
    · rename_i hlast
      refine ⟨rfl, ?_, fun c hc => by cases hc; exact hcon⟩
      show se.Covers e l (if common = true then _ else _) i j
      split
      · obtain ⟨ub, hb, hkn⟩ := h.boundKnown e hlast
        simp only [Pred.Holds, h.mul, hnd] at hkn
        have hku : k = se.val ub e := mul_left_cancel₀ (by omega) hkn
        refine ⟨Dirs.has_inter.2 ⟨hdv.dir, hdirs _ hb hku⟩, hdv.distance, hdv.first, ?_⟩
        intro _
        refine ⟨ub, hb, ?_⟩
        rcases hij with rfl | rfl
        · exact .inl hku
        · exact .inr hku
      · exact hdv
    · have hneg : se.knownNeg nd = false := by
        by_contra hkn
        have := h.knownNeg _ e (by simpa using hkn)
        rw [hnd] at this
        have := hk.1
        nlinarith
      rw [hneg]
      simp only [Bool.false_eq_true, ↓reduceIte]
      cases hcd : se.const delta with
      | none => exact ⟨rfl, hdv, fun c hc => by cases hc; exact hcon⟩
      | some d =>
        simp only
        have ed := h.const _ _ e hcd
        rw [ed] at heq
        have hm : d.tmod c = 0 := Int.tmod_eq_zero_of_dvd ⟨_, heq⟩
        refine ⟨by simp [hm], hdv, fun c hc => by cases hc; exact hcon⟩

/-- Weak-zero SIV, the subscript of the source does not depend on the loop. -/
theorem weakZeroSrc_sound {se : SE S L Env} (h : se.Laws) {coeff c1 c2 : S} {l : L} {common : Bool}
    {dv : Dv S} {e : Env} {i j : Int} (hi : se.Iter e l i) (hj : se.Iter e l j)
    (h0 : se.val coeff e ≠ 0)
    (heq : se.val c1 e = se.val c2 e + se.val coeff e * j)
    (hdv : se.Covers e l dv i j) : se.Sound e l (weakZeroSrc se coeff c1 c2 l common dv) i j := by
  have hd : se.val (se.minus c1 c2) e = se.val coeff e * j := by
    rw [h.minus]; linear_combination heq
  have hcon : se.Sat e (.line (se.ofInt 0) coeff (se.minus c1 c2)) i j := by
    simp only [SE.Sat, h.ofInt, hd]; ring
  unfold weakZeroSrc
  split
  · exact ⟨rfl, hdv, fun c hc => by cases hc⟩
  simp only
  split
  · rename_i hk
    have hk := h.isKnown e hk
    simp only [Pred.Holds] at hk
    have hj0 : j = 0 := by
      rw [h.minus, hk, Int.sub_self] at hd
      exact (Int.mul_eq_zero.1 hd.symm).resolve_left h0
    refine ⟨rfl, ?_, fun c hc => by cases hc; exact hcon⟩
    show se.Covers e l (if common = true then _ else _) i j
    split
    · refine ⟨Dirs.has_inter.2 ⟨hdv.dir, ?_⟩, hdv.distance, fun _ => .inr hj0, hdv.last⟩
      have := hi.1
      exact ⟨fun _ => by omega, fun _ => rfl, fun _ => rfl⟩
    · exact hdv
  · refine weakZeroRest_sound h hj h0 hd hdv hcon (.inr rfl) fun u hu hju => ?_
    have := hi.2 _ hu
    exact ⟨fun _ => rfl, fun _ => rfl, fun _ => by omega⟩

/-- Weak-zero SIV, the subscript of the destination does not depend on the loop. -/
theorem weakZeroDst_sound {se : SE S L Env} (h : se.Laws) {coeff c1 c2 : S} {l : L} {common : Bool}
    {dv : Dv S} {e : Env} {i j : Int} (hi : se.Iter e l i) (hj : se.Iter e l j)
    (h0 : se.val coeff e ≠ 0)
    (heq : se.val c1 e + se.val coeff e * i = se.val c2 e)
    (hdv : se.Covers e l dv i j) : se.Sound e l (weakZeroDst se coeff c1 c2 l common dv) i j := by
  have hd : se.val (se.minus c2 c1) e = se.val coeff e * i := by
    rw [h.minus]; linear_combination -heq
  have hcon : se.Sat e (.line coeff (se.ofInt 0) (se.minus c2 c1)) i j := by
    simp only [SE.Sat, h.ofInt, hd]; ring
  unfold weakZeroDst
  split
  · exact ⟨rfl, hdv, fun c hc => by cases hc⟩
  simp only
  split
  · rename_i hk
    have hk := h.isKnown e hk
    simp only [Pred.Holds] at hk
    have hi0 : i = 0 := by
      rw [h.minus, hk, Int.sub_self] at hd
      exact (Int.mul_eq_zero.1 hd.symm).resolve_left h0
    refine ⟨rfl, ?_, fun c hc => by cases hc; exact hcon⟩
    show se.Covers e l (if common = true then _ else _) i j
    split
    · refine ⟨Dirs.has_inter.2 ⟨hdv.dir, ?_⟩, hdv.distance, fun _ => .inl hi0, hdv.last⟩
      have := hj.1
      exact ⟨fun _ => rfl, fun _ => rfl, fun _ => by omega⟩
    · exact hdv
  · refine weakZeroRest_sound h hi h0 hd hdv hcon (.inl rfl) fun u hu hju => ?_
    have := hj.2 _ hu
    exact ⟨fun _ => by omega, fun _ => rfl, fun _ => rfl⟩

/-- A dependence between different iterations crosses the reported split point: one iteration is
executed before it, the other one after it. -/
def SE.Crosses (se : SE S L Env) (e : Env) (split : S) (i j : Int) : Prop :=
  (i < j → i ≤ se.val split e ∧ se.val split e < j) ∧
  (j < i → j ≤ se.val split e ∧ se.val split e < i)

theorem weakCrossingRest_sound {se : SE S L Env} (h : se.Laws) {pcoeff delta : S} {c d : Int} {l : L}
    {dv : Dv S} {con : Con S} {split : S} {e : Env} {i j : Int}
    (hi : se.Iter e l i) (hj : se.Iter e l j)
    (hpc : se.val pcoeff e = c) (hd : se.val delta e = d) (hc : 0 < c)
    (heq : d = c * (i + j)) (hdv : se.Covers e l dv i j) (hcon : se.Sat e con i j) :
    se.Sound e l (weakCrossingRest se pcoeff delta c d l dv con split) i j := by
  have hcon' : ∀ c', some con = some c' → se.Sat e c' i j := fun _ hc => by cases hc; exact hcon
  unfold weakCrossingRest
  have hfar : se.boundKnown l .sgt delta
      (fun ub => se.mul (se.mul pcoeff ub) (se.ofInt 2)) = false := by
    by_contra hkn
    obtain ⟨ub, hb, hkn⟩ := h.boundKnown e (by simpa using hkn)
    simp only [Pred.Holds, h.mul, h.ofInt, hpc, hd, heq] at hkn
    have := hi.2 _ hb
    have := hj.2 _ hb
    nlinarith
  simp only [hfar, Bool.false_eq_true, ↓reduceIte]
  split
  · rename_i hlast
    obtain ⟨ub, hb, hkn⟩ := h.boundKnown e hlast
    simp only [Pred.Holds, h.mul, h.ofInt, hpc, hd, heq] at hkn
    have h2 : i + j = se.val ub e * 2 := by
      have : c * (i + j) = c * (se.val ub e * 2) := by linear_combination hkn
      exact mul_left_cancel₀ (by omega) this
    have := hi.2 _ hb
    have := hj.2 _ hb
    have hij : i = j := by omega
    have hdir : (dv.dir.inter .EQ).Has i j :=
      Dirs.has_inter.2 ⟨hdv.dir, fun _ => by omega, fun _ => rfl, fun _ => by omega⟩
    rw [if_neg (Dirs.ne_none hdir)]
    refine ⟨rfl, ⟨hdir, ?_, hdv.first, hdv.last⟩, hcon'⟩
    intro d' hd'; cases hd'; rw [h.ofInt]; omega
  · have hm : d.tmod c = 0 := Int.tmod_eq_zero_of_dvd ⟨_, heq⟩
    have hq : d.tdiv c = i + j := by rw [heq, Int.mul_tdiv_cancel_left _ (by omega)]
    rw [hm, hq]
    simp only [ne_eq, not_true_eq_false, ↓reduceIte]
    split
    · rename_i hodd
      refine ⟨rfl, ⟨Dirs.has_inter.2 ⟨hdv.dir, fun _ => rfl, fun hij => ?_, fun _ => rfl⟩,
        hdv.distance, hdv.first, hdv.last⟩, hcon'⟩
      exfalso; apply hodd
      exact Int.tmod_eq_zero_of_dvd ⟨j, by omega⟩
    · exact ⟨rfl, hdv, hcon'⟩

theorem covers_splitable {se : SE S L Env} {e : Env} {l : L} {dv : Dv S} {i j : Int} {b : Bool}
    (h : se.Covers e l dv i j) : se.Covers e l { dv with splitable := b } i j :=
  ⟨h.dir, h.distance, h.first, h.last⟩

/-- Weak-crossing SIV: subscripts are `c1 + a * i` and `c2 - a * j`. -/
theorem weakCrossing_sound {se : SE S L Env} (h : se.Laws) {coeff c1 c2 : S} {l : L} {dv : Dv S}
    {e : Env} {i j : Int} (hi : se.Iter e l i) (hj : se.Iter e l j) (h0 : se.val coeff e ≠ 0)
    (heq : se.val c1 e + se.val coeff e * i = se.val c2 e - se.val coeff e * j)
    (hdv : se.Covers e l dv i j) : se.Sound e l (weakCrossing se coeff c1 c2 l dv) i j := by
  have hd : se.val (se.minus c2 c1) e = se.val coeff e * (i + j) := by
    rw [h.minus]; linear_combination -heq
  have hcon : se.Sat e (.line coeff coeff (se.minus c2 c1)) i j := by
    simp only [SE.Sat, hd]; ring
  have hcon' : ∀ c', some (Con.line coeff coeff (se.minus c2 c1)) = some c' → se.Sat e c' i j :=
    fun _ hc => by cases hc; exact hcon
  unfold weakCrossing
  split
  · exact ⟨rfl, hdv, fun c hc => by cases hc⟩
  simp only
  split
  · rename_i hz
    have hz : se.val (se.minus c2 c1) e = 0 := h.const _ _ e (by simpa [SE.isZero] using hz)
    have hij : i + j = 0 := by
      rw [hd] at hz; exact (Int.mul_eq_zero.1 hz).resolve_left h0
    have := hi.1
    have := hj.1
    have hdir : (dv.dir.inter .EQ).Has i j :=
      Dirs.has_inter.2 ⟨hdv.dir, fun _ => by omega, fun _ => rfl, fun _ => by omega⟩
    rw [if_neg (Dirs.ne_none hdir)]
    refine ⟨rfl, ⟨hdir, ?_, hdv.first, hdv.last⟩, hcon'⟩
    intro d' hd'; cases hd'; rw [hz]; omega
  · cases hc : se.const coeff with
    | none => exact ⟨rfl, hdv, hcon'⟩
    | some c =>
      simp only
      have ec := h.const _ _ e hc
      have hsg := h.constSign _ _ hc
      rw [ec] at h0 hd
      have hpos : 0 < (if se.knownNeg coeff = true then -c else c) := by
        split
        · have := hsg.1 (by assumption); omega
        · have : ¬ c < 0 := fun hn => absurd (hsg.2 hn) (by assumption)
          omega
      have hpc : se.val (if se.knownNeg coeff = true then se.neg coeff else coeff) e =
          (if se.knownNeg coeff = true then -c else c) := by
        split
        · rw [h.neg, ec]
        · exact ec
      have hpd : se.val (if se.knownNeg coeff = true then se.neg (se.minus c2 c1)
          else se.minus c2 c1) e = (if se.knownNeg coeff = true then -c else c) * (i + j) := by
        split
        · rw [h.neg, hd]; ring
        · exact hd
      generalize (if se.knownNeg coeff = true then -c else c) = pc at *
      generalize (if se.knownNeg coeff = true then se.neg coeff else coeff) = pcoeff at *
      generalize (if se.knownNeg coeff = true then se.neg (se.minus c2 c1)
          else se.minus c2 c1) = pd at *
      cases hcd : se.const pd with
      | none => exact ⟨rfl, covers_splitable hdv, hcon'⟩
      | some d =>
        simp only
        have ed := h.const _ _ e hcd
        have hneg : se.knownNeg pd = false := by
          by_contra hk
          have := h.knownNeg _ e (by simpa using hk)
          rw [hpd] at this
          have := hi.1; have := hj.1
          nlinarith
        rw [hneg]
        simp only [Bool.false_eq_true, ↓reduceIte]
        exact weakCrossingRest_sound h hi hj hpc ed hpos (by rw [← ed, hpd]) (covers_splitable hdv)
          hcon

theorem weakCrossingRest_split (se : SE S L Env) (pcoeff delta : S) (c d : Int) (l : L) (dv : Dv S)
    (con : Con S) (split : S) :
    (weakCrossingRest se pcoeff delta c d l dv con split).split = some split := by
  unfold weakCrossingRest
  simp only
  split
  · rfl
  · split
    · split <;> rfl
    · split
      · rfl
      · split <;> rfl

/-- Weak-crossing SIV: all dependences between different iterations cross the reported split
point. -/
theorem weakCrossing_split {se : SE S L Env} (h : se.Laws) {coeff c1 c2 : S} {l : L} {dv : Dv S}
    {e : Env} {i j : Int} (hi : se.Iter e l i) (hj : se.Iter e l j) (h0 : se.val coeff e ≠ 0)
    (heq : se.val c1 e + se.val coeff e * i = se.val c2 e - se.val coeff e * j)
    {s : S} (hs : (weakCrossing se coeff c1 c2 l dv).split = some s) : se.Crosses e s i j := by
  have hd : se.val (se.minus c2 c1) e = se.val coeff e * (i + j) := by
    rw [h.minus]; linear_combination -heq
  have key : ∃ c, se.const coeff = some c ∧
      s = se.udiv (se.smax (se.ofInt 0)
            (if se.knownNeg coeff then se.neg (se.minus c2 c1) else se.minus c2 c1))
          (se.mul (se.ofInt 2) (if se.knownNeg coeff then se.neg coeff else coeff)) := by
    unfold weakCrossing at hs
    split at hs
    · cases hs
    simp only at hs
    split at hs
    · split at hs <;> cases hs
    · cases hc : se.const coeff with
      | none => rw [hc] at hs; cases hs
      | some c =>
        refine ⟨c, rfl, ?_⟩
        rw [hc] at hs
        cases hneg : se.knownNeg coeff <;> rw [hneg] at hs <;>
          simp only [Bool.false_eq_true, ↓reduceIte] at hs ⊢
        all_goals
          split at hs
          · cases hs; rfl
          · split at hs
            · cases hs; rfl
            · rw [weakCrossingRest_split] at hs
              cases hs; rfl
  obtain ⟨c, hc, rfl⟩ := key
  have ec := h.const _ _ e hc
  have hsg := h.constSign _ _ hc
  rw [ec] at h0 hd
  have hpos : 0 < se.val (if se.knownNeg coeff = true then se.neg coeff else coeff) e := by
    split
    · rw [h.neg, ec]; have := hsg.1 (by assumption); omega
    · rw [ec]; have : ¬ c < 0 := fun hn => absurd (hsg.2 hn) (by assumption)
      omega
  have hpd : se.val (if se.knownNeg coeff = true then se.neg (se.minus c2 c1)
      else se.minus c2 c1) e =
      se.val (if se.knownNeg coeff = true then se.neg coeff else coeff) e * (i + j) := by
    split
    · rw [h.neg, h.neg, hd, ec]; ring
    · rw [hd, ec]
  generalize (if se.knownNeg coeff = true then se.neg coeff else coeff) = pcoeff at *
  generalize (if se.knownNeg coeff = true then se.neg (se.minus c2 c1) else se.minus c2 c1) = pd
    at *
  have hi0 := hi.1
  have hj0 := hj.1
  have hnn : 0 ≤ se.val pcoeff e * (i + j) := Int.mul_nonneg (by omega) (by omega)
  have hx : se.val (se.smax (se.ofInt 0) pd) e = se.val pcoeff e * (i + j) := by
    rw [h.smax, h.ofInt, hpd]; omega
  have hy : se.val (se.mul (se.ofInt 2) pcoeff) e = se.val pcoeff e * 2 := by
    rw [h.mul, h.ofInt]; ring
  have hv := h.udiv (se.smax (se.ofInt 0) pd) (se.mul (se.ofInt 2) pcoeff) e
    (by rw [hx]; exact hnn) (by rw [hy]; omega)
  rw [hx, hy, Int.mul_ediv_mul_of_pos _ _ hpos] at hv
  unfold SE.Crosses
  rw [hv]
  constructor <;> intro <;> omega

end Tsar.DepTest
