import Verif.DepTest.Tests
/-!
# Constraints of the Delta test

`lib/Analysis/Memory/DependenceAnalysis.cpp`: `intersectConstraints`, `propagate` with its helpers and
`updateDirection`.  A constraint is stored for a level, and its associated loop is the loop of that
level.
-/

namespace Tsar.DepTest

variable {S L Env : Type}

/-- `Constraint::getD`, DependenceAnalysis.cpp:372-375, for a constraint built by `setDistance(d)`. -/
def getD (se : SE S L Env) (d : S) : S := se.neg (se.neg d)

/-- `Constraint::getA`, `getB` and `getC`, DependenceAnalysis.cpp:346-367, if `isLine` is true
(DependenceAnalysis.h): a distance is also a line, see `setDistance`, DependenceAnalysis.cpp:401-408. -/
def Con.line? (se : SE S L Env) : Con S → Option (S × S × S)
  | .line a b c => some (a, b, c)
  | .distance d => some (se.ofInt 1, se.neg (se.ofInt 1), se.neg d)
  | _ => none

/-- Intersection of two lines, DependenceAnalysis.cpp:501-576; `none` is a division by zero. -/
def intersectLines (se : SE S L Env) (ub : Option Int) (x : Con S) (a1 b1 c1 a2 b2 c2 : S) :
    Option (Con S × Bool) :=
  let prod1 := se.mul a1 b2
  let prod2 := se.mul b1 a2
  if se.isKnown .eq prod1 prod2 then
    let prod1 := se.mul c1 b2
    let prod2 := se.mul b1 c2
    if se.isKnown .eq prod1 prod2 then some (x, false)
    else if se.isKnown .ne prod1 prod2 then some (.empty, true)
    else some (x, false)
  else if se.isKnown .ne prod1 prod2 then
    match se.const (se.minus (se.mul c1 b2) (se.mul c2 b1)),
      se.const (se.minus (se.mul c1 a2) (se.mul c2 a1)),
      se.const (se.minus (se.mul a1 b2) (se.mul a2 b1)),
      se.const (se.minus (se.mul a2 b1) (se.mul a1 b2)) with
    | some xtop, some ytop, some xbot, some ybot =>
      if xbot = 0 ∨ ybot = 0 then none
      else
        let xq := xtop.tdiv xbot
        let yq := ytop.tdiv ybot
        if xtop.tmod xbot ≠ 0 ∨ ytop.tmod ybot ≠ 0 then some (.empty, true)
        else if xq < 0 ∨ yq < 0 then some (.empty, true)
        else if (match ub with
          | some u => decide (xq > u ∨ yq > u)
          | none => false) then some (.empty, true)
        else some (.point (se.ofInt xq) (se.ofInt yq), true)
    | _, _, _, _ => some (x, false)
  else some (x, false)

/-- `intersectConstraints`, DependenceAnalysis.cpp:448-595: the new value of the first constraint and
the returned value; `none` is a failed assertion, `llvm_unreachable` or a division by zero.  `ub` is
`collectConstantUpperBound` of the associated loop. -/
def intersect (se : SE S L Env) (ub : Option Int) (x y : Con S) : Option (Con S × Bool) :=
  match x, y with
  | _, .point _ _ => none
  | .any, .any => some (.any, false)
  | .any, y => some (y, true)
  | .empty, _ => some (.empty, false)
  | _, .empty => some (.empty, true)
  | .distance d1, .distance d2 =>
    let d1' := getD se d1
    let d2' := getD se d2
    if se.isKnown .eq d1' d2' then some (.distance d1, false)
    else if se.isKnown .ne d1' d2' then some (.empty, true)
    else if (se.const d2').isSome then some (.distance d2, true)
    else some (.distance d1, false)
  | .point px py, y =>
    match y.line? se with
    | some (a, b, c) =>
      let sum := se.add (se.mul a px) (se.mul b py)
      if se.isKnown .eq sum c then some (.point px py, false)
      else if se.isKnown .ne sum c then some (.empty, true)
      else some (.point px py, false)
    | none => none
  | x, y =>
    match x.line? se, y.line? se with
    | some (a1, b1, c1), some (a2, b2, c2) => intersectLines se ub x a1 b1 c1 a2 b2 c2
    | _, _ => none

/-- What is used about operations on recurrences: LLVM folds a recurrence with the zero step, adds an
invariant expression to the last start and multiplies all coefficients. -/
def mkRec (se : SE S L Env) (start : Sub S L) (step : S) (l : L) : Sub S L :=
  if se.isZero step then start else .addRec start step l

namespace Sub

/-- `getAddExpr(Src, X)` for an invariant expression. -/
def plus (se : SE S L Env) (x : S) : Sub S L → Sub S L
  | base c => base (se.add c x)
  | addRec s st l => addRec (s.plus se x) st l

/-- `getMinusSCEV(Src, X)` for an invariant expression. -/
def sub (se : SE S L Env) (x : S) : Sub S L → Sub S L
  | base c => base (se.minus c x)
  | addRec s st l => addRec (s.sub se x) st l

/-- `getMulExpr(Src, X)` for an invariant expression. -/
def times (se : SE S L Env) (x : S) : Sub S L → Sub S L
  | base c => base (se.mul c x)
  | addRec s st l => addRec (s.times se x) (se.mul st x) l

/-- `findCoefficient`, DependenceAnalysis.cpp:3144-3152. -/
def coef [DecidableEq L] (se : SE S L Env) (t : L) : Sub S L → S
  | base _ => se.ofInt 0
  | addRec s st l => if l = t then st else s.coef se t

/-- `zeroCoefficient`, DependenceAnalysis.cpp:3160-3171. -/
def zeroCoef [DecidableEq L] (se : SE S L Env) (t : L) : Sub S L → Sub S L
  | base c => base c
  | addRec s st l => if l = t then s else mkRec se (s.zeroCoef se t) st l

/-- `addToCoefficient`, DependenceAnalysis.cpp:3179-3203; `inv` is `isLoopInvariant`. -/
def addCoef [DecidableEq L] (se : SE S L Env) (inv : Sub S L → L → Bool) (t : L) (v : S) :
    Sub S L → Sub S L
  | base c => mkRec se (base c) v t
  | addRec s st l =>
    if l = t then
      let sum := se.add st v
      if se.isZero sum then s else mkRec se s sum l
    else if inv (addRec s st l) t then mkRec se (addRec s st l) v t
    else mkRec se (s.addCoef se inv t v) st l

end Sub

/-- `propagateDistance`, DependenceAnalysis.cpp:3240-3259: new subscripts and the new value of
`Consistent`; the last component is the returned value. -/
def propagateDistance [DecidableEq L] (se : SE S L Env) (inv : Sub S L → L → Bool) (l : L) (d : S)
    (src dst : Sub S L) (cons : Bool) : Sub S L × Sub S L × Bool × Bool :=
  let ak := src.coef se l
  if se.isZero ak then (src, dst, cons, false)
  else
    let src' := (src.sub se (se.mul ak (getD se d))).zeroCoef se l
    let dst' := dst.addCoef se inv l (se.neg ak)
    (src', dst', cons && se.isZero (dst'.coef se l), true)

/-- `propagateLine`, DependenceAnalysis.cpp:3266-3335; `none` is a division by zero. -/
def propagateLine [DecidableEq L] (se : SE S L Env) (inv : Sub S L → L → Bool) (l : L) (a b c : S)
    (src dst : Sub S L) (cons : Bool) : Option (Sub S L × Sub S L × Bool × Bool) :=
  if se.isZero a then
    match se.const b, se.const c with
    | some beta, some charlie =>
      if beta = 0 then none
      else
        let apk := dst.coef se l
        let src' := src.sub se (se.mul apk (se.ofInt (charlie.tdiv beta)))
        let dst' := dst.zeroCoef se l
        some (src', dst', cons && se.isZero (src'.coef se l), true)
    | _, _ => some (src, dst, cons, false)
  else if se.isZero b then
    match se.const a, se.const c with
    | some alpha, some charlie =>
      let ak := src.coef se l
      let src' := (src.plus se (se.mul ak (se.ofInt (charlie.tdiv alpha)))).zeroCoef se l
      some (src', dst, cons && se.isZero (dst.coef se l), true)
    | _, _ => some (src, dst, cons, false)
  else if se.isKnown .eq a b then
    match se.const a, se.const c with
    | some alpha, some charlie =>
      let ak := src.coef se l
      let src' := (src.plus se (se.mul ak (se.ofInt (charlie.tdiv alpha)))).zeroCoef se l
      let dst' := dst.addCoef se inv l ak
      some (src', dst', cons && se.isZero (dst'.coef se l), true)
    | _, _ => some (src, dst, cons, false)
  else
    let ak := src.coef se l
    let src' := ((src.times se a).plus se (se.mul ak c)).zeroCoef se l
    let dst' := (dst.times se a).addCoef se inv l (se.mul ak b)
    some (src', dst', cons && se.isZero (dst'.coef se l), true)

/-- `propagatePoint`, DependenceAnalysis.cpp:3341-3357. -/
def propagatePoint [DecidableEq L] (se : SE S L Env) (l : L) (x y : S) (src dst : Sub S L)
    (cons : Bool) : Sub S L × Sub S L × Bool × Bool :=
  let ak := src.coef se l
  let apk := dst.coef se l
  ((src.plus se (se.minus (se.mul ak x) (se.mul apk y))).zeroCoef se l, dst.zeroCoef se l, cons, true)

/-- One iteration of the loop of `propagate`, DependenceAnalysis.cpp:3222-3230. -/
def propagateOne [DecidableEq L] (se : SE S L Env) (inv : Sub S L → L → Bool) (l : L) (con : Con S)
    (src dst : Sub S L) (cons : Bool) : Option (Sub S L × Sub S L × Bool × Bool) :=
  match con with
  | .distance d => some (propagateDistance se inv l d src dst cons)
  | .line a b c => propagateLine se inv l a b c src dst cons
  | .point x y => some (propagatePoint se l x y src dst cons)
  | _ => some (src, dst, cons, false)

/-- `propagate`, DependenceAnalysis.cpp:3215-3232; `ls` are the levels of the pair of subscripts. -/
def propagate [DecidableEq L] (se : SE S L Env) (inv : Sub S L → L → Bool) (con : L → Con S) :
    List L → Sub S L → Sub S L → Bool → Option (Sub S L × Sub S L × Bool × Bool)
  | [], src, dst, cons => some (src, dst, cons, false)
  | l :: ls, src, dst, cons =>
    (propagateOne se inv l (con l) src dst cons).bind fun r =>
      (propagate se inv con ls r.1 r.2.1 r.2.2.1).map fun r' =>
        (r'.1, r'.2.1, r'.2.2.1, r.2.2.2 || r'.2.2.2)

/-- Possible directions from the sign of a distance, DependenceAnalysis.cpp:3371-3378. -/
def distanceDirs (se : SE S L Env) (d : S) : Dirs :=
  ⟨!se.knownNonPos d, !se.knownNonZero d, !se.knownNonNeg d⟩

/-- `updateDirection`, DependenceAnalysis.cpp:3360-3408; `none` is `llvm_unreachable`. -/
def updateDirection (se : SE S L Env) (dv : Dv S) : Con S → Option (Dv S)
  | .any => some dv
  | .empty => none
  | .distance d =>
    let d' := getD se d
    some { dv with distance := some d', dir := dv.dir.inter (distanceDirs se d') }
  | .line _ _ _ => some { dv with distance := none }
  | .point x y => some { dv with
      distance := none
      dir := dv.dir.inter ⟨!se.isKnown .sle y x, !se.isKnown .ne y x, !se.isKnown .sge y x⟩ }

/-! ## Soundness -/

theorem val_getD {se : SE S L Env} (h : se.Laws) (d : S) (e : Env) :
    se.val (getD se d) e = se.val d e := by
  rw [getD, h.neg, h.neg]; omega

theorem line?_sat {se : SE S L Env} (h : se.Laws) {x : Con S} {a b c : S} {e : Env} {i j : Int}
    (hl : x.line? se = some (a, b, c)) (hs : se.Sat e x i j) :
    se.val a e * i + se.val b e * j = se.val c e := by
  unfold Con.line? at hl
  split at hl
  · cases hl; exact hs
  · cases hl
    simp only [SE.Sat] at hs
    simp only [h.ofInt, h.neg]
    omega
  · cases hl

theorem intersectLines_sound {se : SE S L Env} (h : se.Laws) {ub : Option Int} {x : Con S}
    {a1 b1 c1 a2 b2 c2 : S} {e : Env} {i j : Int} (hi : 0 ≤ i) (hj : 0 ≤ j)
    (hui : ∀ u, ub = some u → i ≤ u) (huj : ∀ u, ub = some u → j ≤ u) (hx : se.Sat e x i j)
    (h1 : se.val a1 e * i + se.val b1 e * j = se.val c1 e)
    (h2 : se.val a2 e * i + se.val b2 e * j = se.val c2 e) :
    ∃ z ch, intersectLines se ub x a1 b1 c1 a2 b2 c2 = some (z, ch) ∧ se.Sat e z i j := by
  unfold intersectLines
  simp only
  split
  · rename_i hp
    have hp := h.isKnown e hp
    simp only [Pred.Holds, h.mul] at hp
    split
    · exact ⟨_, _, rfl, hx⟩
    split
    · rename_i hn
      have hn := h.isKnown e hn
      simp only [Pred.Holds, h.mul] at hn
      exfalso; apply hn
      rw [← h1, ← h2]
      linear_combination i * hp
    · exact ⟨_, _, rfl, hx⟩
  split
  · rename_i hp
    have hp := h.isKnown e hp
    simp only [Pred.Holds, h.mul] at hp
    split
    · rename_i xtop ytop xbot ybot hxt hyt hxb hyb
      have hxt := h.const _ _ e hxt
      have hyt := h.const _ _ e hyt
      have hxb := h.const _ _ e hxb
      have hyb := h.const _ _ e hyb
      simp only [h.minus, h.mul] at hxt hyt hxb hyb
      have hxb0 : xbot ≠ 0 := by
        rintro rfl; apply hp; linear_combination hxb
      have hyb0 : ybot ≠ 0 := by
        rintro rfl; apply hp; linear_combination -hyb
      have ex : xtop = xbot * i := by
        rw [← hxt, ← hxb, ← h1, ← h2]; ring
      have ey : ytop = ybot * j := by
        rw [← hyt, ← hyb, ← h1, ← h2]; ring
      rw [if_neg (by rintro (h | h); exacts [hxb0 h, hyb0 h])]
      have qx : xtop.tdiv xbot = i := by rw [ex, Int.mul_tdiv_cancel_left _ hxb0]
      have qy : ytop.tdiv ybot = j := by rw [ey, Int.mul_tdiv_cancel_left _ hyb0]
      rw [qx, qy]
      rw [if_neg (by rw [ex, ey]; simp), if_neg (by omega)]
      rw [if_neg (by
        split
        · rename_i u
          have := hui u rfl
          have := huj u rfl
          simp only [decide_eq_true_eq]; omega
        · simp)]
      exact ⟨_, _, rfl, by simp [SE.Sat, h.ofInt]⟩
    · exact ⟨_, _, rfl, hx⟩
  · exact ⟨_, _, rfl, hx⟩

/-- Kinds of constraints which the tests assign to `NewConstraint`. -/
def Con.FromTest : Con S → Prop
  | .distance _ => True
  | .line _ _ _ => True
  | _ => False

/-- Intersection of constraints keeps every pair of iterations which satisfies both of them. -/
theorem intersect_sound {se : SE S L Env} (h : se.Laws) {l : L} {x y : Con S} {e : Env} {i j : Int}
    (hi : se.Iter e l i) (hj : se.Iter e l j) (hy : y.FromTest) (hx : se.Sat e x i j)
    (hsy : se.Sat e y i j) :
    ∃ z ch, intersect se ((se.bound l).bind se.const) x y = some (z, ch) ∧ se.Sat e z i j := by
  have lines : ∀ {a1 b1 c1 a2 b2 c2 : S}, x.line? se = some (a1, b1, c1) →
      y.line? se = some (a2, b2, c2) →
      ∃ z ch, intersectLines se ((se.bound l).bind se.const) x a1 b1 c1 a2 b2 c2 = some (z, ch) ∧
        se.Sat e z i j := fun h1 h2 =>
    intersectLines_sound h hi.1 hj.1 (iter_const h hi) (iter_const h hj) hx (line?_sat h h1 hx)
      (line?_sat h h2 hsy)
  have point : ∀ {px py a b c : S}, x = .point px py → y.line? se = some (a, b, c) →
      ∃ z ch, (if se.isKnown .eq (se.add (se.mul a px) (se.mul b py)) c then
          some (Con.point px py, false)
        else if se.isKnown .ne (se.add (se.mul a px) (se.mul b py)) c then some (.empty, true)
        else some (.point px py, false)) = some (z, ch) ∧ se.Sat e z i j := by
    intro px py a b c hp hl
    have hl := line?_sat h hl hsy
    subst hp
    split
    · exact ⟨_, _, rfl, hx⟩
    split
    · rename_i hn
      have hn := h.isKnown e hn
      simp only [Pred.Holds, h.mul, h.add] at hn
      simp only [SE.Sat] at hx
      rw [← hx.1, ← hx.2] at hn
      exact absurd hl hn
    · exact ⟨_, _, rfl, hx⟩
  cases x with
  | any => cases y <;> first | exact hy.elim | exact ⟨_, _, rfl, hsy⟩
  | empty => exact hx.elim
  | distance d1 =>
    cases y with
    | distance d2 =>
      simp only [intersect]
      split
      · exact ⟨_, _, rfl, hx⟩
      split
      · rename_i hn
        have hn := h.isKnown e hn
        simp only [Pred.Holds, val_getD h] at hn
        simp only [SE.Sat] at hx hsy
        omega
      split
      · exact ⟨_, _, rfl, hsy⟩
      · exact ⟨_, _, rfl, hx⟩
    | line a b c => exact lines rfl rfl
    | _ => exact hy.elim
  | line a b c =>
    cases y with
    | distance d2 => exact lines rfl rfl
    | line a' b' c' => exact lines rfl rfl
    | _ => exact hy.elim
  | point px py =>
    cases y with
    | distance d2 => exact point rfl rfl
    | line a' b' c' => exact point rfl rfl
    | _ => exact hy.elim

/-- A new direction vector entry agrees with the constraint. -/
theorem updateDirection_sound {se : SE S L Env} (h : se.Laws) {dv : Dv S} {con : Con S} {e : Env}
    {l : L} {i j : Int} (hc : se.Sat e con i j) (hdv : se.Covers e l dv i j) :
    ∃ dv', updateDirection se dv con = some dv' ∧ se.Covers e l dv' i j := by
  cases con with
  | any => exact ⟨_, rfl, hdv⟩
  | empty => exact hc.elim
  | line a b c => exact ⟨_, rfl, hdv.dir, fun d hd => (by cases hd), hdv.first, hdv.last⟩
  | distance d =>
    simp only [SE.Sat] at hc
    have hd := val_getD h d e
    refine ⟨_, rfl, Dirs.has_inter.2 ⟨hdv.dir, ?_⟩, fun d hd' => ?_, hdv.first, hdv.last⟩
    · refine ⟨fun hlt => ?_, fun hlt => ?_, fun hlt => ?_⟩ <;>
        simp only [distanceDirs, Bool.not_eq_true'] <;> by_contra hk <;>
        rw [Bool.not_eq_false] at hk
      · have := h.knownNonPos _ e hk; omega
      · have := h.knownNonZero _ e hk; omega
      · have := h.knownNonNeg _ e hk; omega
    · cases hd'; omega
  | point x y =>
    simp only [SE.Sat] at hc
    refine ⟨_, rfl, Dirs.has_inter.2 ⟨hdv.dir, ?_⟩, fun d hd' => (by cases hd'), hdv.first, hdv.last⟩
    refine ⟨fun hlt => ?_, fun hlt => ?_, fun hlt => ?_⟩ <;>
      simp only [Bool.not_eq_true'] <;> by_contra hk <;>
      rw [Bool.not_eq_false] at hk <;> have := h.isKnown e hk <;>
      simp only [Pred.Holds] at this <;> omega

namespace Sub

theorem val_plus {se : SE S L Env} (h : se.Laws) (e : Env) (it : L → Int) (x : S) (c : Sub S L) :
    (c.plus se x).val se e it = c.val se e it + se.val x e := by
  induction c with
  | base c => simp [plus, val, h.add]
  | addRec s st l ih => simp only [plus, val, ih]; ring

theorem val_sub {se : SE S L Env} (h : se.Laws) (e : Env) (it : L → Int) (x : S) (c : Sub S L) :
    (c.sub se x).val se e it = c.val se e it - se.val x e := by
  induction c with
  | base c => simp [sub, val, h.minus]
  | addRec s st l ih => simp only [sub, val, ih]; ring

theorem val_times {se : SE S L Env} (h : se.Laws) (e : Env) (it : L → Int) (x : S) (c : Sub S L) :
    (c.times se x).val se e it = c.val se e it * se.val x e := by
  induction c with
  | base c => simp [times, val, h.mul]
  | addRec s st l ih => simp only [times, val, ih, h.mul]; ring

theorem loops_plus (se : SE S L Env) (x : S) (c : Sub S L) : (c.plus se x).loops = c.loops := by
  induction c with
  | base c => rfl
  | addRec s st l ih => simp only [plus, loops, ih]

theorem loops_sub (se : SE S L Env) (x : S) (c : Sub S L) : (c.sub se x).loops = c.loops := by
  induction c with
  | base c => rfl
  | addRec s st l ih => simp only [sub, loops, ih]

theorem loops_times (se : SE S L Env) (x : S) (c : Sub S L) : (c.times se x).loops = c.loops := by
  induction c with
  | base c => rfl
  | addRec s st l ih => simp only [times, loops, ih]

theorem coef_plus [DecidableEq L] (se : SE S L Env) (x : S) (t : L) (c : Sub S L) :
    (c.plus se x).coef se t = c.coef se t := by
  induction c with
  | base c => rfl
  | addRec s st l ih => simp only [plus, coef, ih]

theorem coef_sub [DecidableEq L] (se : SE S L Env) (x : S) (t : L) (c : Sub S L) :
    (c.sub se x).coef se t = c.coef se t := by
  induction c with
  | base c => rfl
  | addRec s st l ih => simp only [sub, coef, ih]

theorem val_coef_times [DecidableEq L] {se : SE S L Env} (h : se.Laws) (e : Env) (x : S) (t : L)
    (c : Sub S L) :
    se.val ((c.times se x).coef se t) e = se.val (c.coef se t) e * se.val x e := by
  induction c with
  | base c => simp [times, coef, h.ofInt]
  | addRec s st l ih =>
    simp only [times, coef]
    split
    · rw [h.mul]
    · exact ih

end Sub

theorem val_mkRec {se : SE S L Env} (h : se.Laws) (e : Env) (it : L → Int) (s : Sub S L) (st : S)
    (l : L) : (mkRec se s st l).val se e it = s.val se e it + se.val st e * it l := by
  unfold mkRec
  split
  · rename_i hz
    rw [isZero_val h e hz]; simp
  · rfl

theorem loops_mkRec (se : SE S L Env) (s : Sub S L) (st : S) (l : L) :
    (mkRec se s st l).loops = s.loops ∨ (mkRec se s st l).loops = l :: s.loops := by
  unfold mkRec
  split
  · exact .inl rfl
  · exact .inr rfl

namespace Sub

theorem val_zeroCoef [DecidableEq L] {se : SE S L Env} (h : se.Laws) (e : Env) (it : L → Int) (t : L)
    (c : Sub S L) :
    (c.zeroCoef se t).val se e it = c.val se e it - se.val (c.coef se t) e * it t := by
  induction c with
  | base c => simp [zeroCoef, val, coef, h.ofInt]
  | addRec s st l ih =>
    simp only [zeroCoef, coef, val]
    split
    · rename_i hl; subst hl; ring
    · rw [val_mkRec h, ih]; ring

theorem val_addCoef [DecidableEq L] {se : SE S L Env} (h : se.Laws) (inv : Sub S L → L → Bool)
    (e : Env) (it : L → Int) (t : L) (v : S) (c : Sub S L) :
    (c.addCoef se inv t v).val se e it = c.val se e it + se.val v e * it t := by
  induction c with
  | base c => simp only [addCoef, val_mkRec h]
  | addRec s st l ih =>
    simp only [addCoef]
    split
    · rename_i hl
      subst hl
      split
      · rename_i hz
        have := isZero_val h e hz
        rw [h.add] at this
        have : se.val v e = - se.val st e := by omega
        simp only [val, this]; ring
      · rw [val_mkRec h, h.add]; simp only [val]; ring
    · split
      · rw [val_mkRec h]
      · rw [val_mkRec h, ih]; simp only [val]; ring

theorem loops_zeroCoef [DecidableEq L] (se : SE S L Env) (t : L) (c : Sub S L) :
    (c.zeroCoef se t).loops.Sublist c.loops := by
  induction c with
  | base c => exact List.Sublist.refl _
  | addRec s st l ih =>
    simp only [zeroCoef]
    split
    · exact List.sublist_cons_self ..
    · rcases loops_mkRec se (s.zeroCoef se t) st l with h | h <;> rw [h]
      · exact ih.trans (List.sublist_cons_self ..)
      · exact ih.cons_cons l

/-- Loops after an addition to a coefficient. -/
theorem loops_addCoef [DecidableEq L] (se : SE S L Env) {inv : Sub S L → L → Bool}
    (hinv : ∀ c t, inv c t = true → t ∉ c.loops) (t : L) (v : S) (c : Sub S L) (hn : c.loops.Nodup) :
    (c.addCoef se inv t v).loops.Nodup ∧
      ∀ l ∈ (c.addCoef se inv t v).loops, l = t ∨ l ∈ c.loops := by
  induction c with
  | base c =>
    simp only [addCoef]
    rcases loops_mkRec se (base c) v t with h | h <;> rw [h] <;> simp [loops]
  | addRec s st l ih =>
    have hn' := hn
    simp only [loops, List.nodup_cons] at hn
    simp only [addCoef]
    split
    · rename_i hl
      subst hl
      have hs : s.loops.Nodup ∧ ∀ k ∈ s.loops, k = l ∨ k ∈ (addRec s st l).loops :=
        ⟨hn.2, fun k hk => .inr (by simp [loops, hk])⟩
      split
      · exact hs
      · rcases loops_mkRec se s (se.add st v) l with h | h <;> rw [h]
        · exact hs
        · exact ⟨List.nodup_cons.2 hn, fun k hk => .inr (by simpa [loops] using hk)⟩
    · rename_i hl
      split
      · rename_i hi
        have := hinv _ _ hi
        rcases loops_mkRec se (addRec s st l) v t with h | h <;> rw [h]
        · exact ⟨hn', fun k hk => .inr hk⟩
        · exact ⟨List.nodup_cons.2 ⟨this, hn'⟩, fun k hk => by simpa using hk⟩
      · obtain ⟨h1, h2⟩ := ih hn.2
        have h3 : ∀ k ∈ (s.addCoef se inv t v).loops, k = t ∨ k ∈ (addRec s st l).loops := by
          intro k hk
          rcases h2 k hk with h | h
          · exact .inl h
          · exact .inr (by simp [loops, h])
        rcases loops_mkRec se (s.addCoef se inv t v) st l with h | h <;> rw [h]
        · exact ⟨h1, h3⟩
        · refine ⟨List.nodup_cons.2 ⟨fun hm => ?_, h1⟩, fun k hk => ?_⟩
          · rcases h2 l hm with h | h
            · exact hl h
            · exact hn.1 h
          · rcases List.mem_cons.1 hk with rfl | hk
            · exact .inr (by simp [loops])
            · exact h3 k hk

end Sub

/-- What is kept by propagation: the subscripts are equal for the considered iterations, no loop is
mentioned twice, and loops belong to a given set. -/
structure PairOk (se : SE S L Env) (e : Env) (I J : L → Int) (all : List L) (src dst : Sub S L) :
    Prop where
  eq : src.val se e I = dst.val se e J
  srcN : src.loops.Nodup
  dstN : dst.loops.Nodup
  srcMem : ∀ l ∈ src.loops, l ∈ all
  dstMem : ∀ l ∈ dst.loops, l ∈ all

variable [DecidableEq L]

theorem PairOk.mk' {se : SE S L Env} {e : Env} {I J : L → Int} {all : List L} {src dst src0 dst0 : Sub S L}
    {l : L} (hl : l ∈ all) (h0 : PairOk se e I J all src0 dst0)
    (heq : src.val se e I = dst.val se e J)
    (hs : src.loops.Sublist src0.loops)
    (hd : dst.loops.Nodup ∧ ∀ k ∈ dst.loops, k = l ∨ k ∈ dst0.loops) : PairOk se e I J all src dst where
  eq := heq
  srcN := hs.nodup h0.srcN
  dstN := hd.1
  srcMem := fun k hk => h0.srcMem k (hs.subset hk)
  dstMem := fun k hk => by
    rcases hd.2 k hk with rfl | h
    · exact hl
    · exact h0.dstMem k h

/-- Substitution of a constraint into a pair of subscripts keeps equality of subscripts. -/
theorem propagateOne_sound {se : SE S L Env} (h : se.Laws) {inv : Sub S L → L → Bool}
    (hinv : ∀ c t, inv c t = true → t ∉ c.loops) {l : L} {con : Con S} {src dst : Sub S L}
    {cons : Bool} {e : Env} {I J : L → Int} {all : List L} (hl : l ∈ all)
    (hc : se.Sat e con (I l) (J l)) (hp : PairOk se e I J all src dst) :
    ∀ r, propagateOne se inv l con src dst cons = some r → PairOk se e I J all r.1 r.2.1 := by
  intro r hr
  have zsub : ∀ (x : Sub S L), x.loops = src.loops → (x.zeroCoef se l).loops.Sublist src.loops :=
    fun x hx => hx ▸ Sub.loops_zeroCoef se l x
  have dsame : ∀ (x : Sub S L), x.loops = dst.loops → x.loops.Nodup ∧ ∀ k ∈ x.loops, k = l ∨ k ∈ dst.loops :=
    fun x hx => ⟨hx ▸ hp.dstN, fun k hk => .inr (hx ▸ hk)⟩
  have dzero : (dst.zeroCoef se l).loops.Nodup ∧
      ∀ k ∈ (dst.zeroCoef se l).loops, k = l ∨ k ∈ dst.loops :=
    ⟨(Sub.loops_zeroCoef se l dst).nodup hp.dstN,
      fun k hk => .inr ((Sub.loops_zeroCoef se l dst).subset hk)⟩
  cases con with
  | any => cases hr; exact hp
  | empty => exact hc.elim
  | distance d =>
    simp only [SE.Sat] at hc
    simp only [propagateOne, Option.some.injEq] at hr
    subst hr
    unfold propagateDistance
    simp only
    split
    · exact hp
    · refine PairOk.mk' hl hp ?_ (zsub _ (Sub.loops_sub ..)) (Sub.loops_addCoef se hinv l _ dst hp.dstN)
      rw [Sub.val_zeroCoef h, Sub.val_sub h, Sub.coef_sub, Sub.val_addCoef h, h.mul, val_getD h, h.neg,
        hp.eq, ← hc]
      ring
  | point x y =>
    simp only [SE.Sat] at hc
    simp only [propagateOne, Option.some.injEq] at hr
    subst hr
    unfold propagatePoint
    refine PairOk.mk' hl hp ?_ (zsub _ (Sub.loops_plus ..)) dzero
    simp only [Sub.val_zeroCoef h, Sub.val_plus h, Sub.coef_plus, h.minus, h.mul, hp.eq, ← hc.1, ← hc.2]
    ring
  | line a b c =>
    simp only [SE.Sat] at hc
    simp only [propagateOne] at hr
    unfold propagateLine at hr
    split at hr
    · rename_i hz
      have ha := isZero_val h e hz
      split at hr
      · rename_i beta charlie hb hch
        have hb := h.const _ _ e hb
        have hch := h.const _ _ e hch
        split at hr
        · cases hr
        · rename_i hb0
          cases hr
          have hq : charlie.tdiv beta = J l := by
            have : charlie = beta * J l := by rw [← hch, ← hc, ha, hb]; ring
            rw [this, Int.mul_tdiv_cancel_left _ hb0]
          refine PairOk.mk' hl hp ?_ (by rw [Sub.loops_sub]) dzero
          simp only [Sub.val_zeroCoef h, Sub.val_sub h, h.mul, h.ofInt, hq, hp.eq]
      · cases hr; exact hp
    split at hr
    · rename_i hza hz
      have hb := isZero_val h e hz
      split at hr
      · rename_i alpha charlie ha' hch
        have ha := h.const _ _ e ha'
        have hch := h.const _ _ e hch
        cases hr
        have ha0 : alpha ≠ 0 := by
          rintro rfl; apply hza; simp [SE.isZero, ha']
        have hq : charlie.tdiv alpha = I l := by
          have : charlie = alpha * I l := by rw [← hch, ← hc, ha, hb]; ring
          rw [this, Int.mul_tdiv_cancel_left _ ha0]
        refine PairOk.mk' hl hp ?_ (zsub _ (Sub.loops_plus ..)) (dsame _ rfl)
        simp only [Sub.val_zeroCoef h, Sub.val_plus h, Sub.coef_plus, h.mul, h.ofInt, hq, hp.eq]
        ring
      · cases hr; exact hp
    split at hr
    · rename_i hza hzb hk
      have hk := h.isKnown e hk
      simp only [Pred.Holds] at hk
      split at hr
      · rename_i alpha charlie ha' hch
        have ha := h.const _ _ e ha'
        have hch := h.const _ _ e hch
        cases hr
        have ha0 : alpha ≠ 0 := by
          rintro rfl; apply hza; simp [SE.isZero, ha']
        have hq : charlie.tdiv alpha = I l + J l := by
          have : charlie = alpha * (I l + J l) := by rw [← hch, ← hc, ← hk, ha]; ring
          rw [this, Int.mul_tdiv_cancel_left _ ha0]
        refine PairOk.mk' hl hp ?_ (zsub _ (Sub.loops_plus ..))
          (Sub.loops_addCoef se hinv l _ dst hp.dstN)
        simp only [Sub.val_zeroCoef h, Sub.val_plus h, Sub.coef_plus, Sub.val_addCoef h, h.mul, h.ofInt,
          hq, hp.eq]
        ring
      · cases hr; exact hp
    · cases hr
      have hd := Sub.loops_addCoef se hinv l (se.mul (src.coef se l) b) (dst.times se a)
        (by rw [Sub.loops_times]; exact hp.dstN)
      rw [Sub.loops_times] at hd
      refine PairOk.mk' hl hp ?_ (zsub _ (by rw [Sub.loops_plus, Sub.loops_times])) hd
      simp only [Sub.val_zeroCoef h, Sub.val_plus h, Sub.coef_plus, Sub.val_coef_times h,
        Sub.val_addCoef h, Sub.val_times h, h.mul, hp.eq]
      rw [← hc]
      ring

theorem propagate_sound {se : SE S L Env} (h : se.Laws) {inv : Sub S L → L → Bool}
    (hinv : ∀ c t, inv c t = true → t ∉ c.loops) {con : L → Con S}
    {e : Env} {I J : L → Int} {all : List L} (hc : ∀ l, se.Sat e (con l) (I l) (J l)) (ls : List L) :
    ∀ (src dst : Sub S L) (cons : Bool), (∀ l ∈ ls, l ∈ all) → PairOk se e I J all src dst →
      ∀ r, propagate se inv con ls src dst cons = some r → PairOk se e I J all r.1 r.2.1 := by
  induction ls with
  | nil => intro src dst cons _ hp r hr; cases hr; exact hp
  | cons l ls ih =>
    intro src dst cons hm hp r hr
    simp only [propagate] at hr
    obtain ⟨r1, h1, hr⟩ := Option.bind_eq_some_iff.1 hr
    obtain ⟨r2, h2, hr⟩ := Option.map_eq_some_iff.1 hr
    subst hr
    exact ih _ _ _ (fun k hk => hm k (by simp [hk]))
      (propagateOne_sound h hinv (hm l (by simp)) (hc l) hp _ h1) r2 h2

end Tsar.DepTest
