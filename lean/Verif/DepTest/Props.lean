import Verif.DepTest.Fails
import Verif.DepTest.Levels
import Verif.DepTest.Classify
/-!
# Properties of dependence tests

Subscripts are `c1 + a * i` in the source and `c2 + b * j` in the destination, where `i` and `j` are
numbers of iterations.  A test which reports independence must be right for all iterations within
the bounds of the loop and in every state of the program.
-/

namespace Tsar.DepTest

variable {S L Env : Type}

/-! ## Independence reported by single tests (C51) -/

/-- ZIV: independence is reported only if subscripts differ in every state. -/
theorem ziv_independent {se : SE S L Env} (h : se.Laws) {c1 c2 : S} {cons : Bool}
    (hr : (testZIV se c1 c2 cons).1 = true) (e : Env) : se.val c1 e ≠ se.val c2 e :=
  (testZIV_sound h c1 c2 cons).1 hr e

/-- Strong SIV: independence is reported only if no two iterations access the same element, provided
that a coefficient which is not known to be non-negative is not positive.  Without the last condition
the property does not hold, see `strongSIV_sign_fails`. -/
theorem strongSIV_independent_partial {se : SE S L Env} (h : se.Laws) {a c1 c2 : S} {l : L} {dv : Dv S}
    {cons : Bool} (hr : (strongSIV se a c1 c2 l dv cons).indep = true) (e : Env) (i j : Int)
    (hi : se.Iter e l i) (hj : se.Iter e l j) (hsign : se.knownNonNeg a = true ∨ se.val a e ≤ 0) :
    se.val c1 e + se.val a e * i ≠ se.val c2 e + se.val a e * j := by
  intro heq
  have hd : se.val (se.minus c1 c2) e = se.val a e * (j - i) := by
    rw [h.minus]; linear_combination heq
  unfold strongSIV at hr
  split at hr
  · cases hr
  simp only at hr
  rw [strongFar_sound h hi hj hsign hd] at hr
  simp only [Bool.false_eq_true, ↓reduceIte] at hr
  split at hr
  · rename_i d c hdc hac
    split at hr
    · rename_i hm
      apply hm
      have h1 := h.const _ _ e hdc
      have h2 := h.const _ _ e hac
      rw [← h1, hd, h2]
      exact Int.mul_tmod_right ..
    · cases hr
  · split at hr
    · cases hr
    split at hr <;> cases hr

theorem weakZeroRest_zero {se : SE S L Env} (h : se.Laws) {coeff delta : S} {l : L} {common : Bool}
    {dv : Dv S} {con : Con S} {dirs : Dirs} {e : Env} (h0 : se.val coeff e = 0)
    (hd : se.val delta e = 0) : (weakZeroRest se coeff delta l common dv con dirs).indep = false := by
  have hn1 : se.val (if se.knownNeg coeff = true then se.neg coeff else coeff) e = 0 := by
    split
    · rw [h.neg, h0]; rfl
    · exact h0
  have hn2 : se.val (if se.knownNeg coeff = true then se.neg delta else delta) e = 0 := by
    split
    · rw [h.neg, hd]; rfl
    · exact hd
  unfold weakZeroRest
  split
  · rfl
  rename_i c hc
  simp only
  generalize (if se.knownNeg coeff = true then se.neg coeff else coeff) = ac at *
  generalize (if se.knownNeg coeff = true then se.neg delta else delta) = nd at *
  split
  · rename_i hb
    obtain ⟨ub, -, hb⟩ := h.boundKnown e hb
    simp only [Pred.Holds, h.mul, hn1, hn2] at hb
    omega
  split
  · rfl
  split
  · rename_i hk
    have := h.knownNeg _ e hk
    omega
  split
  · rename_i d hdc
    have := h.const _ _ e hdc
    have hd0 : d = 0 := by omega
    simp [hd0]
  · rfl

/-- Weak-zero SIV: the subscript of the source does not vary. -/
theorem weakZeroSrc_independent {se : SE S L Env} (h : se.Laws) {a c1 c2 : S} {l : L} {common : Bool}
    {dv : Dv S} (hr : (weakZeroSrc se a c1 c2 l common dv).indep = true) (e : Env) (j : Int)
    (hj : se.Iter e l j) : se.val c1 e ≠ se.val c2 e + se.val a e * j := by
  intro heq
  by_cases h0 : se.val a e = 0
  · unfold weakZeroSrc at hr
    split at hr
    · cases hr
    simp only at hr
    split at hr
    · cases hr
    · rw [weakZeroRest_zero h h0 (by rw [h.minus, heq, h0]; ring)] at hr
      cases hr
  · have key := weakZeroSrc_sound (common := false) (dv := Dv.top S) (i := j) h hj hj h0 heq
      (covers_top ..)
    unfold weakZeroSrc at hr key
    split at hr
    · cases hr
    · rename_i hn
      rw [if_neg hn] at key
      simp only at hr key
      split at hr
      · cases hr
      · rename_i hk
        rw [if_neg hk] at key
        have hind := key.indep
        have same : ∀ cm dv', (weakZeroRest se a (se.minus c1 c2) l cm dv'
            (Con.line (se.ofInt 0) a (se.minus c1 c2)) .LE).indep =
            (weakZeroRest se a (se.minus c1 c2) l false (Dv.top S)
              (Con.line (se.ofInt 0) a (se.minus c1 c2)) .LE).indep := by
          intro cm dv'
          unfold weakZeroRest
          cases se.const a with
          | none => rfl
          | some c =>
            simp only
            generalize (if se.knownNeg a = true then se.neg a else a) = ac
            generalize (if se.knownNeg a = true then se.neg (se.minus c1 c2) else se.minus c1 c2) = nd
            split
            · rfl
            split
            · rfl
            split
            · rfl
            split <;> rfl
        rw [same, hind] at hr
        cases hr

/-- Weak-zero SIV: the subscript of the destination does not vary. -/
theorem weakZeroDst_independent {se : SE S L Env} (h : se.Laws) {a c1 c2 : S} {l : L} {common : Bool}
    {dv : Dv S} (hr : (weakZeroDst se a c1 c2 l common dv).indep = true) (e : Env) (i : Int)
    (hi : se.Iter e l i) : se.val c1 e + se.val a e * i ≠ se.val c2 e := by
  intro heq
  by_cases h0 : se.val a e = 0
  · unfold weakZeroDst at hr
    split at hr
    · cases hr
    simp only at hr
    split at hr
    · cases hr
    · rw [weakZeroRest_zero h h0 (by rw [h.minus, ← heq, h0]; ring)] at hr
      cases hr
  · have key := weakZeroDst_sound (common := false) (dv := Dv.top S) (j := i) h hi hi h0 heq
      (covers_top ..)
    unfold weakZeroDst at hr key
    split at hr
    · cases hr
    · rename_i hn
      rw [if_neg hn] at key
      simp only at hr key
      split at hr
      · cases hr
      · rename_i hk
        rw [if_neg hk] at key
        have hind := key.indep
        have same : ∀ cm dv', (weakZeroRest se a (se.minus c2 c1) l cm dv'
            (Con.line a (se.ofInt 0) (se.minus c2 c1)) .GE).indep =
            (weakZeroRest se a (se.minus c2 c1) l false (Dv.top S)
              (Con.line a (se.ofInt 0) (se.minus c2 c1)) .GE).indep := by
          intro cm dv'
          unfold weakZeroRest
          cases se.const a with
          | none => rfl
          | some c =>
            simp only
            generalize (if se.knownNeg a = true then se.neg a else a) = ac
            generalize (if se.knownNeg a = true then se.neg (se.minus c2 c1) else se.minus c2 c1) = nd
            split
            · rfl
            split
            · rfl
            split
            · rfl
            split <;> rfl
        rw [same, hind] at hr
        cases hr

/-- Weak-crossing SIV, if nothing is known about the direction before the test. -/
theorem weakCrossing_independent {se : SE S L Env} (h : se.Laws) {a c1 c2 : S} {l : L}
    (hr : (weakCrossing se a c1 c2 l (Dv.top S)).indep = true) (e : Env) (i j : Int)
    (hi : se.Iter e l i) (hj : se.Iter e l j) :
    se.val c1 e + se.val a e * i ≠ se.val c2 e - se.val a e * j := by
  intro heq
  by_cases h0 : se.val a e = 0
  · have hd : se.val (se.minus c2 c1) e = 0 := by
      rw [h.minus]
      rw [h0] at heq
      linear_combination -heq
    have hnd : se.val (if se.knownNeg a = true then se.neg (se.minus c2 c1) else se.minus c2 c1) e = 0 := by
      split
      · rw [h.neg, hd]; rfl
      · exact hd
    have hnc : se.val (if se.knownNeg a = true then se.neg a else a) e = 0 := by
      split
      · rw [h.neg, h0]; rfl
      · exact h0
    unfold weakCrossing at hr
    split at hr
    · cases hr
    simp only at hr
    split at hr
    · rw [if_neg (by simp [Dv.top, Dirs.all, Dirs.inter, Dirs.EQ, Dirs.none])] at hr
      cases hr
    split at hr
    · cases hr
    rename_i c hc
    generalize (if se.knownNeg a = true then se.neg (se.minus c2 c1) else se.minus c2 c1) = nd at *
    generalize (if se.knownNeg a = true then se.neg a else a) = ac at *
    split at hr
    · cases hr
    rename_i d hdc
    have hd0 : d = 0 := by rw [← h.const _ _ e hdc]; exact hnd
    split at hr
    · rename_i hk
      have := h.knownNeg _ e hk
      omega
    · subst hd0
      unfold weakCrossingRest at hr
      simp only at hr
      split at hr
      · rename_i hb
        obtain ⟨ub, -, hb⟩ := h.boundKnown e hb
        simp only [Pred.Holds, h.mul, h.ofInt, hnd, hnc] at hb
        omega
      split at hr
      · rw [if_neg (by simp [Dv.top, Dirs.all, Dirs.inter, Dirs.EQ, Dirs.none])] at hr
        cases hr
      · rw [if_neg (by simp)] at hr
        rw [if_neg (by simp)] at hr
        cases hr
  · have := (weakCrossing_sound h hi hj h0 heq (covers_top ..)).indep
    rw [this] at hr
    cases hr

/-- GCD test: subscripts are sums of products in which no loop is mentioned twice. -/
theorem gcdMIV_independent [DecidableEq L] {se : SE S L Env} (h : se.Laws) (hs : se.SumLaws)
    {src dst : Sub S L} {common : L → Bool} (hns : src.loops.Nodup) (hnd : dst.loops.Nodup)
    {dv : L → Dv S} (hr : gcdMIV se src dst common (fun _ => Dv.top S) = some (true, dv)) (e : Env)
    (I J : L → Int) : src.val se e I ≠ dst.val se e J := by
  intro heq
  have := (gcdMIV_sound h hs hns hnd heq (fun k _ => covers_top ..) _ hr).1
  cases this

/-! ### Non-vacuity -/

/-- `A[2*i + 1]` and `A[2*j]`. -/
example : (strongSIV (constSE (L := Unit) (fun _ => some 9) fun _ _ => true) 2 1 0 () (Dv.top _) true).indep
    = true := by decide +kernel

/-- `A[n]` and `A[n + j]` for `1 <= j` would need a bound; `A[20]` and `A[2*j]` for `j <= 9`. -/
example : (weakZeroSrc (constSE (L := Unit) (fun _ => some 9) fun _ _ => true) 2 20 0 () true
    (Dv.top _)).indep = true := by decide +kernel

example : (weakZeroDst (constSE (L := Unit) (fun _ => some 9) fun _ _ => true) 2 0 7 () true
    (Dv.top _)).indep = true := by decide +kernel

/-- `A[2*i]` and `A[7 - 2*j]`. -/
example : (weakCrossing (constSE (L := Unit) (fun _ => some 9) fun _ _ => true) 2 0 7 ()
    (Dv.top _)).indep = true := by decide +kernel

example : (testZIV (constSE (L := Unit) (fun _ => none) fun _ _ => true) 3 4 true).1 = true := by
  decide +kernel

/-- `A[4*i + 6*j]` and `A[2*i + 4*j + 1]`. -/
example : (gcdMIV (constSE (L := Fin 2) (fun _ => some 9) fun _ _ => true) (sub2 4 6 0) (sub2 2 4 1)
    (fun _ => true) (fun _ => Dv.top _)).map (·.1) = some true := by decide +kernel

/-! ## The whole test (C78) -/

/-- Subscripts of `A[i + 1][2*i + j]` and `A[i][2*i + j]`. -/
def pairsE : Nat → Pair Int (Fin 2)
  | 0 => .linear (.addRec (.base 1) 1 0) (.addRec (.base 0) 1 0)
  | 1 => .linear (sub2 2 1 0) (sub2 2 1 0)
  | _ => .nonLinear

/-- Calls of tests: the strong SIV test of the first subscript gives the distance which turns the
second subscript into a SIV one. -/
theorem pairsE_calls : ((ctx2 (fun _ _ => true) true).depends 2 pairsE true).calls =
    [⟨.SIV, .addRec (.base 1) 1 0, .addRec (.base 0) 1 0, true⟩,
      ⟨.SIV, .addRec (.base (-2)) 1 1, .addRec (.base 0) 1 1, true⟩] := by
  rfl

/-- All assumptions of `depends_sound_partial` hold for iterations (0, 2) and (1, 0). -/
example : (ctx2 (fun _ _ => true) true).Ok () (fun l => if l = 0 then 0 else 2)
      (fun l => if l = 0 then 1 else 0) ∧
    PairsOk (ctx2 (fun _ _ => true) true) () (fun l => if l = 0 then 0 else 2)
      (fun l => if l = 0 then 1 else 0) pairsE ∧
    ∀ x ∈ ((ctx2 (fun _ _ => true) true).depends 2 pairsE true).calls,
      CallOk (ctx2 (fun _ _ => true) true) () (fun l => if l = 0 then 0 else 2)
        (fun l => if l = 0 then 1 else 0) x := by
  refine ⟨⟨constSE_laws .., constSE_sumLaws .., by decide, by simp [ctx2], ?_, ?_⟩, ?_, ?_⟩
  · intro l
    refine ⟨?_, fun u hu => ?_⟩
    · revert l; decide
    · cases hu; revert l; decide
  · intro l
    refine ⟨?_, fun u hu => ?_⟩
    · revert l; decide
    · cases hu; revert l; decide
  · intro k src dst hk
    rcases k with _ | _ | k
    · cases hk; constructor <;> decide
    · cases hk; constructor <;> decide
    · cases hk
  · rw [pairsE_calls]
    intro x hx
    simp only [List.mem_cons, List.not_mem_nil, or_false] at hx
    rcases hx with rfl | rfl
    · refine ⟨⟨rfl, by decide, by decide, fun _ => .inl rfl, fun h => by cases h⟩, by decide,
        fun _ => ⟨rfl, rfl⟩⟩
    · refine ⟨⟨rfl, by decide, by decide, fun _ => .inl rfl, fun h => by cases h⟩, by decide,
        fun _ => ⟨rfl, rfl⟩⟩

/-! ## Independence reported by tests of several loops (C74) -/

/-- Symbolic RDIV: iterations of two different loops never access the same element. -/
theorem symbolicRDIV_independent {se : SE S L Env} (h : se.Laws) {a1 a2 c1 c2 : S} {l1 l2 : L}
    (hr : symbolicRDIV se a1 a2 c1 c2 l1 l2 = true) (e : Env) (i j : Int) (hi : se.Iter e l1 i)
    (hj : se.Iter e l2 j) : se.val c1 e + se.val a1 e * i ≠ se.val c2 e + se.val a2 e * j := by
  intro heq
  rw [symbolicRDIV_sound h hi hj heq] at hr
  cases hr

/-- Exact RDIV: the same for constant coefficients, which are not zero, if iterations are not too far
from the solution found by the extended algorithm of Euclid. -/
theorem exactRDIV_independent_partial {se : SE S L Env} (h : se.Laws) {w : Nat} {a1 a2 c1 c2 : S}
    {l1 l2 : L} (hr : exactRDIV se w a1 a2 c1 c2 l1 l2 = some true) (e : Env) (i j : Int)
    (hi : se.Iter e l1 i) (hj : se.Iter e l2 j) (ha1 : se.val a1 e ≠ 0) (ha2 : se.val a2 e ≠ 0)
    (hf : Fits w (se.val a1 e) (se.val a2 e) (se.val c2 e - se.val c1 e) i) :
    se.val c1 e + se.val a1 e * i ≠ se.val c2 e + se.val a2 e * j := by
  intro heq
  rw [exactRDIV_sound h hi hj ha1 ha2 hf heq] at hr
  cases hr

/-- Exact SIV: coefficients have no common divisor.  Without this condition the property does not
hold, see `exactSIV_gcd_fails` and `depends_gcd_fails`. -/
theorem exactSIV_independent_partial {se : SE S L Env} (h : se.Laws) {w : Nat} {a1 a2 c1 c2 : S}
    {l : L} {o : Out S} (hr : exactSIV se w a1 a2 c1 c2 l (Dv.top S) = some o) (ho : o.indep = true)
    (e : Env) (i j : Int) (hi : se.Iter e l i) (hj : se.Iter e l j) (ha1 : se.val a1 e ≠ 0)
    (ha2 : se.val a2 e ≠ 0) (hne : se.val a1 e ≠ se.val a2 e)
    (hg : Int.gcd (se.val a1 e) (se.val a2 e) = 1)
    (hf : Fits w (se.val a1 e) (se.val a2 e) (se.val c2 e - se.val c1 e) i) :
    se.val c1 e + se.val a1 e * i ≠ se.val c2 e + se.val a2 e * j := by
  intro heq
  obtain ⟨o', h1, h2⟩ := exactSIV_sound h hi hj ha1 ha2 hne hg hf heq (covers_top ..)
  rw [h1] at hr
  cases hr
  rw [h2.indep] at ho
  cases ho

/-- Banerjee test: coefficients and bounds are arbitrary expressions, `all` is the list of loops which
surround at least one of accesses. -/
theorem banerjee_independent [DecidableEq L] {se : SE S L Env} (h : se.Laws) {src dst : Sub S L}
    {all common : List L} {loops : L → Bool} (hall : all.Nodup) (hns : src.loops.Nodup)
    (hnd : dst.loops.Nodup) (hms : ∀ l ∈ src.loops, l ∈ all) (hmd : ∀ l ∈ dst.loops, l ∈ all)
    (hr : (banerjee se src dst all common loops (fun _ => Dv.top S)).1 = true) (e : Env)
    (I J : L → Int) (hI : ∀ l, se.Iter e l (I l)) (hJ : ∀ l, se.Iter e l (J l)) :
    src.val se e I ≠ dst.val se e J := by
  intro heq
  rw [(banerjee_sound (com := fun _ => true) h hall hns hnd hms hmd (fun _ _ => rfl) hI hJ heq
    (fun k _ => covers_top ..)).1] at hr
  cases hr

/-- A direction which is removed by Banerjee test never occurs. -/
theorem banerjee_direction [DecidableEq L] {se : SE S L Env} (h : se.Laws) {src dst : Sub S L}
    {all common : List L} {loops : L → Bool} (hall : all.Nodup) (hns : src.loops.Nodup)
    (hnd : dst.loops.Nodup) (hms : ∀ l ∈ src.loops, l ∈ all) (hmd : ∀ l ∈ dst.loops, l ∈ all)
    (e : Env) (I J : L → Int) (hI : ∀ l, se.Iter e l (I l)) (hJ : ∀ l, se.Iter e l (J l))
    (heq : src.val se e I = dst.val se e J) (k : L) :
    let d := ((banerjee se src dst all common loops (fun _ => Dv.top S)).2 k).dir
    (I k < J k → d.lt = true) ∧ (I k = J k → d.eq = true) ∧ (J k < I k → d.gt = true) :=
  ((banerjee_sound (com := fun _ => true) h hall hns hnd hms hmd (fun _ _ => rfl) hI hJ heq
    (fun k _ => covers_top ..)).2 k rfl).dir

/-- `A[2*i + 20]` and `A[3*j]`, `i, j <= 5`. -/
example : symbolicRDIV (constSE (L := Fin 2) (fun _ => some 5) fun _ _ => true) 2 3 20 0 0 1 = true := by
  decide +kernel

example : exactRDIV (constSE (L := Fin 2) (fun _ => some 5) fun _ _ => true) 63 2 3 20 0 0 1
    = some true := by decide +kernel

/-- `A[2*i + 9]` and `A[3*j]`, `i, j <= 2`: the particular solution is (-9, -3). -/
example : (exactSIV (constSE (L := Unit) (fun _ => some 2) fun _ _ => true) 63 2 3 9 0 () (Dv.top _)).map
    (·.indep) = some true ∧ Fits 63 2 3 (0 - 9) 1 := by
  refine ⟨by decide +kernel, ?_⟩
  intro g x y h
  have hh : findGCD 2 3 (0 - 9) = .solved 1 x y → |1 - x| < 2 ^ 63 := by
    intro h
    have : (match findGCD 2 3 (0 - 9) with | .solved _ x _ => x | _ => 0) = x := by rw [h]
    rw [← this]
    decide +kernel
  have hg : (match findGCD 2 3 (0 - 9) with | .solved g _ _ => g | _ => 0) = g := by rw [h]
  have : g = 1 := by rw [← hg]; decide +kernel
  subst this
  exact hh h

/-- `A[i + j]` and `A[i + j + 40]`, `i, j <= 9`. -/
example : (banerjee (constSE (L := Fin 2) (fun _ => some 9) fun _ _ => true) (sub2 1 1 0) (sub2 1 1 40)
    [0, 1] [0, 1] (fun _ => true) (fun _ => Dv.top _)).1 = true := by decide +kernel

/-- `A[10*i + j]` and `A[10*i + j + 10]`, `i, j <= 9`: the second iteration of the first loop is
smaller. -/
example : ((banerjee (constSE (L := Fin 2) (fun _ => some 9) fun _ _ => true) (sub2 10 1 0)
    (sub2 10 1 10) [0, 1] [0, 1] (fun _ => true) (fun _ => Dv.top _)).2 0).dir = Dirs.GT := by
  decide +kernel

/-! ## Constraints (C75): non-vacuity -/

/-- Intersection of the lines `i + j = 5` and `2*i + j = 7` is the point (2, 3). -/
example : intersect (constSE (L := Unit) (fun _ => some 9) fun _ _ => true) (some 9) (.line 1 1 5)
    (.line 2 1 7) = some (.point 2 3, true) := by rfl

example : intersect (constSE (L := Unit) (fun _ => some 9) fun _ _ => true) (some 9) (.distance 1)
    (.distance 2) = some (.empty, true) := by rfl

/-- The distance 1 of the outer loop turns `A[2*i + j]`, `A[2*i + j]` into a SIV pair. -/
example : propagate (constSE (L := Fin 2) (fun _ => some 9) fun _ _ => true)
    (fun x t => decide (t ∉ x.loops)) (fun l => if l = 0 then .distance 1 else .any) [0]
    (sub2 2 1 0) (sub2 2 1 0) true =
    some (.addRec (.base (-2)) 1 1, .addRec (.base 0) 1 1, true, true) := by rfl

/-! ## Groups of subscripts (C76): non-vacuity -/

/-- Two subscripts of `pairsE` share the outer loop, so they make up a single coupled group. -/
example : ((ctx2 (fun _ _ => true) true).parts 2 pairsE).coupled = [1] ∧
    ((ctx2 (fun _ _ => true) true).parts 2 pairsE).separable = [] ∧
    ∀ k < 2, (pairsE k).Linear ∧ k ∈ ((ctx2 (fun _ _ => true) true).parts 2 pairsE).group 1 := by
  refine ⟨by decide +kernel, by decide +kernel, ?_⟩
  intro k hk
  have : k = 0 ∨ k = 1 := by omega
  rcases this with rfl | rfl
  · exact ⟨by simp [Pair.Linear, pairsE], by decide +kernel⟩
  · exact ⟨by simp [Pair.Linear, pairsE], by decide +kernel⟩

/-! ## The split iteration (C79) -/

/-- A loop is split only for a constant coefficient. -/
theorem weakCrossing_split_const {se : SE S L Env} {a c1 c2 : S} {l : L} {dv : Dv S} {s : S}
    (hs : (weakCrossing se a c1 c2 l dv).split = some s) : se.const a ≠ none := by
  intro hc
  unfold weakCrossing at hs
  rw [hc] at hs
  split at hs
  · cases hs
  simp only at hs
  split at hs
  · split at hs <;> cases hs
  · cases hs

/-- Every dependence between different iterations of a splitable loop crosses the split iteration:
one of iterations is not greater than it, another one is greater.  `hfold`: a recurrence with the
constant step 0 does not exist. -/
theorem split_crosses {se : SE S L Env} (h : se.Laws) {a c1 c2 : S} {l : L} {dv : Dv S} {s : S}
    (hfold : se.const a ≠ some 0) (hs : (weakCrossing se a c1 c2 l dv).split = some s) (e : Env)
    (i j : Int) (hi : se.Iter e l i) (hj : se.Iter e l j)
    (heq : se.val c1 e + se.val a e * i = se.val c2 e - se.val a e * j) (hne : i ≠ j) :
    min i j ≤ se.val s e ∧ se.val s e < max i j := by
  have h0 : se.val a e ≠ 0 := by
    cases hc : se.const a with
    | none => exact absurd hc (weakCrossing_split_const hs)
    | some c =>
      rw [h.const _ _ e hc]
      rintro rfl
      exact hfold hc
  have hx := weakCrossing_split h hi hj h0 heq hs
  rcases Int.lt_or_gt_of_ne hne with hlt | hgt
  · have := hx.1 hlt
    omega
  · have := hx.2 hgt
    omega

/-- There are no dependencies between different iterations inside of a part of the loop. -/
theorem split_parts {se : SE S L Env} (h : se.Laws) {a c1 c2 : S} {l : L} {dv : Dv S} {s : S}
    (hfold : se.const a ≠ some 0) (hs : (weakCrossing se a c1 c2 l dv).split = some s) (e : Env)
    (i j : Int) (hi : se.Iter e l i) (hj : se.Iter e l j) (hne : i ≠ j)
    (hpart : (i ≤ se.val s e ∧ j ≤ se.val s e) ∨ (se.val s e < i ∧ se.val s e < j)) :
    se.val c1 e + se.val a e * i ≠ se.val c2 e - se.val a e * j := by
  intro heq
  have := split_crosses h hfold hs e i j hi hj heq hne
  omega


/-- `A[i]` and `A[6 - j]`: dependencies cross the iteration 3. -/
example : (weakCrossing (constSE (L := Unit) (fun _ => some 9) fun _ _ => true) 1 0 6 ()
    (Dv.top _)).split = some 3 := by decide +kernel

end Tsar.DepTest
