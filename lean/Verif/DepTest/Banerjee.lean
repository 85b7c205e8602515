import Verif.DepTest.Sub
/-!
# The Banerjee test

`lib/Analysis/Memory/DependenceAnalysis.cpp`: `banerjeeMIVtest` with its helpers.
-/

namespace Tsar.DepTest

variable {S L Env : Type}

/-- `CoefficientInfo`, DependenceAnalysis.h:643-648. -/
structure Coef (S : Type) where
  coeff : S
  pos : S
  neg : S
  iters : Option S

/-- Indices of the arrays of bounds, DependenceAnalysis.h:650-656: the values `LT`, `EQ`, `GT` and
`ALL` of the field `Direction`. -/
inductive Kind
  | LT | EQ | GT | ALL
  deriving DecidableEq, Repr

/-- The set of directions denoted by a value of the field `Direction`. -/
def Kind.dirs : Kind → Dirs
  | .LT => .LT
  | .EQ => .EQ
  | .GT => .GT
  | .ALL => .all

/-- `DirSet |= Direction`. -/
def Dirs.union (a b : Dirs) : Dirs := ⟨a.lt || b.lt, a.eq || b.eq, a.gt || b.gt⟩

/-- `getPositivePart`, DependenceAnalysis.cpp:3046-3048. -/
def posPart (se : SE S L Env) (x : S) : S := se.smax x (se.ofInt 0)

/-- `getNegativePart`, DependenceAnalysis.cpp:3052-3054. -/
def negPart (se : SE S L Env) (x : S) : S := se.smin x (se.ofInt 0)

/-- The initial information, DependenceAnalysis.cpp:3065-3070. -/
def zeroCoef (se : SE S L Env) : Coef S := ⟨se.ofInt 0, se.ofInt 0, se.ofInt 0, none⟩

/-- The loop of `collectCoeffInfo`, DependenceAnalysis.cpp:3071-3079. -/
def collectCoef [DecidableEq L] (se : SE S L Env) : Sub S L → (L → Coef S) → L → Coef S
  | .base _, ci => ci
  | .addRec s st l, ci =>
    collectCoef se s fun k => if k = l then ⟨st, posPart se st, negPart se st, se.bound l⟩ else ci k

/-- `findBoundsALL`, DependenceAnalysis.cpp:2894-2915: the lower and the upper bound. -/
def boundsALL (se : SE S L Env) (a b : Coef S) (iters : Option S) : Option S × Option S :=
  match iters with
  | some n => (some (se.mul (se.minus a.neg b.pos) n), some (se.mul (se.minus a.pos b.neg) n))
  | none =>
    (if se.isKnown .eq a.neg b.pos then some (se.ofInt 0) else none,
     if se.isKnown .eq a.pos b.neg then some (se.ofInt 0) else none)

/-- `findBoundsEQ`, DependenceAnalysis.cpp:2933-2957. -/
def boundsEQ (se : SE S L Env) (a b : Coef S) (iters : Option S) : Option S × Option S :=
  let delta := se.minus a.coeff b.coeff
  let n := negPart se delta
  let p := posPart se delta
  match iters with
  | some u => (some (se.mul n u), some (se.mul p u))
  | none => (if se.isZero n then some n else none, if se.isZero p then some p else none)

/-- `findBoundsLT`, DependenceAnalysis.cpp:2973-3001. -/
def boundsLT (se : SE S L Env) (a b : Coef S) (iters : Option S) : Option S × Option S :=
  let n := negPart se (se.minus a.neg b.coeff)
  let p := posPart se (se.minus a.pos b.coeff)
  match iters with
  | some u =>
    let u1 := se.minus u (se.ofInt 1)
    (some (se.minus (se.mul n u1) b.coeff), some (se.minus (se.mul p u1) b.coeff))
  | none =>
    (if se.isZero n then some (se.neg b.coeff) else none,
     if se.isZero p then some (se.neg b.coeff) else none)

/-- `findBoundsGT`, DependenceAnalysis.cpp:3017-3042. -/
def boundsGT (se : SE S L Env) (a b : Coef S) (iters : Option S) : Option S × Option S :=
  let n := negPart se (se.minus a.coeff b.pos)
  let p := posPart se (se.minus a.coeff b.neg)
  match iters with
  | some u =>
    let u1 := se.minus u (se.ofInt 1)
    (some (se.add (se.mul n u1) a.coeff), some (se.add (se.mul p u1) a.coeff))
  | none =>
    (if se.isZero n then some a.coeff else none, if se.isZero p then some a.coeff else none)

/-- Bounds of a level for a direction.  The array of bounds is filled level by level
(`DepthExpanded`, DependenceAnalysis.cpp:2801-2807) with values which depend on the coefficients of
the level only; here they are computed again whenever they are used. -/
def bounds (se : SE S L Env) (a b : Coef S) : Kind → Option S × Option S
  | .LT => boundsLT se a b (a.iters.or b.iters)
  | .EQ => boundsEQ se a b (a.iters.or b.iters)
  | .GT => boundsGT se a b (a.iters.or b.iters)
  | .ALL => boundsALL se a b (a.iters.or b.iters)

/-- `getLowerBound`, `getUpperBound`, DependenceAnalysis.cpp:3107-3133: the sum over all levels;
`none` if some of the bounds is infinite.  There is at least one level (`Bound[1]` is read). -/
def sumBounds (se : SE S L Env) : List (Option S) → Option S
  | [] => none
  | x :: xs => xs.foldl (fun s y => match s, y with
    | some s, some y => some (se.add s y)
    | _, _ => none) x

/-- `testBounds`, DependenceAnalysis.cpp:2866-2877, without the assignment of the direction, which is
already in `dirs`. -/
def testBounds (se : SE S L Env) (all : List L) (bd : L → Kind → Option S × Option S) (delta : S)
    (dirs : L → Kind) : Bool :=
  !((match sumBounds se (all.map fun k => (bd k (dirs k)).1) with
      | some lo => se.isKnown .sgt lo delta
      | none => false) ||
    (match sumBounds se (all.map fun k => (bd k (dirs k)).2) with
      | some up => se.isKnown .sgt delta up
      | none => false))

/-- `exploreDirections`, DependenceAnalysis.cpp:2761-2862.  The list `rest` contains the levels which
follow, from `Level` to `CommonLevels`; the result is the number of dependences and the sets of
directions. -/
def explore [DecidableEq L] (test : (L → Kind) → Bool) (common : List L) (loops : L → Bool) :
    List L → (L → Kind) → (L → Dirs) → Nat × (L → Dirs)
  | [], dirs, acc =>
    (1, fun k => if k ∈ common ∧ loops k = true then (acc k).union (dirs k).dirs else acc k)
  | k :: rest, dirs, acc =>
    if loops k then
      let set := fun d l => if l = k then d else dirs l
      let r1 := if test (set .LT) then explore test common loops rest (set .LT) acc else (0, acc)
      let r2 := if test (set .EQ) then explore test common loops rest (set .EQ) r1.2 else (0, r1.2)
      let r3 := if test (set .GT) then explore test common loops rest (set .GT) r2.2 else (0, r2.2)
      (r1.1 + r2.1 + r3.1, r3.2)
    else explore test common loops rest dirs acc

/-- The loop which updates directions, DependenceAnalysis.cpp:2725-2737. -/
def narrow [DecidableEq L] (loops : L → Bool) (found : L → Dirs) :
    List L → (L → Dv S) → Bool × (L → Dv S)
  | [], dv => (false, dv)
  | k :: ks, dv =>
    if loops k then
      let dv' : L → Dv S :=
        fun l => if l = k then { dv k with dir := (dv k).dir.inter (found k) } else dv l
      if (dv' k).dir = .none then (true, dv') else narrow loops found ks dv'
    else narrow loops found ks dv

/-- `banerjeeMIVtest`, DependenceAnalysis.cpp:2679-2753: the returned value and the direction vector.
`all` is the list of all levels (from 1 to `MaxLevels`), `common` contains the first of them (from 1
to `CommonLevels`). -/
def banerjee [DecidableEq L] (se : SE S L Env) (src dst : Sub S L) (all common : List L)
    (loops : L → Bool) (dv : L → Dv S) : Bool × (L → Dv S) :=
  let a := collectCoef se src fun _ => zeroCoef se
  let b := collectCoef se dst fun _ => zeroCoef se
  if !se.nest src.const dst.const then (false, dv)
  else
    let delta := se.minus dst.const src.const
    let test := testBounds se all (fun k => bounds se (a k) (b k)) delta
    if test fun _ => .ALL then
      let r := explore test common loops common (fun _ => .ALL) fun _ => .none
      if r.1 > 0 then narrow loops r.2 common dv else (true, dv)
    else (true, dv)

/-! ## Soundness -/

/-- The direction of a pair of iterations is the given one. -/
def Kind.Holds : Kind → Int → Int → Prop
  | .LT, i, j => i < j
  | .EQ, i, j => i = j
  | .GT, i, j => j < i
  | .ALL, _, _ => True

/-- Information about a coefficient is right. -/
structure CoefOk (se : SE S L Env) (e : Env) (c : Coef S) (v : Int) : Prop where
  coeff : se.val c.coeff e = v
  pos : se.val c.pos e = max v 0
  neg : se.val c.neg e = min v 0

/-- A bound, if it is finite, is a bound of the value. -/
def InBounds (se : SE S L Env) (e : Env) (b : Option S × Option S) (v : Int) : Prop :=
  (∀ x, b.1 = some x → se.val x e ≤ v) ∧ (∀ x, b.2 = some x → v ≤ se.val x e)

theorem val_posPart {se : SE S L Env} (h : se.Laws) (x : S) (e : Env) :
    se.val (posPart se x) e = max (se.val x e) 0 := by
  rw [posPart, h.smax, h.ofInt]

theorem val_negPart {se : SE S L Env} (h : se.Laws) (x : S) (e : Env) :
    se.val (negPart se x) e = min (se.val x e) 0 := by
  rw [negPart, h.smin, h.ofInt]

theorem isZero_val {se : SE S L Env} (h : se.Laws) {x : S} (e : Env) (hz : se.isZero x = true) :
    se.val x e = 0 := h.const _ _ e (by simpa [SE.isZero] using hz)

/-- A product with a nonnegative factor is monotone. -/
theorem mul_mono {a b i : Int} (hi : 0 ≤ i) (h : a ≤ b) : a * i ≤ b * i :=
  Int.mul_le_mul_of_nonneg_right h hi

theorem bounds_sound {se : SE S L Env} (h : se.Laws) {e : Env} {a b : Coef S} {va vb i j : Int}
    (ha : CoefOk se e a va) (hb : CoefOk se e b vb) (hi : 0 ≤ i) (hj : 0 ≤ j)
    (hui : ∀ u, a.iters.or b.iters = some u → i ≤ se.val u e)
    (huj : ∀ u, a.iters.or b.iters = some u → j ≤ se.val u e) (d : Kind) (hd : d.Holds i j) :
    InBounds se e (bounds se a b d) (va * i - vb * j) := by
  have pa : va ≤ max va 0 := le_max_left ..
  have na : min va 0 ≤ va := min_le_left ..
  have pb : vb ≤ max vb 0 := le_max_left ..
  have nb : min vb 0 ≤ vb := min_le_left ..
  have pa0 : 0 ≤ max va 0 := le_max_right ..
  have na0 : min va 0 ≤ 0 := min_le_right ..
  have pb0 : 0 ≤ max vb 0 := le_max_right ..
  have nb0 : min vb 0 ≤ 0 := min_le_right ..
  have a1 := mul_mono hi pa
  have a2 := mul_mono hi na
  have b1 := mul_mono hj pb
  have b2 := mul_mono hj nb
  cases d with
  | ALL =>
    simp only [bounds, boundsALL]
    split
    · rename_i u hu
      have ui := hui u hu
      have uj := huj u hu
      constructor <;> intro x hx <;> cases hx <;>
        simp only [h.mul, h.minus, ha.neg, ha.pos, hb.neg, hb.pos] <;> nlinarith
    · constructor
      · intro x hx
        dsimp only at hx
        split at hx
        · cases hx
          rename_i hk
          have := h.isKnown e hk
          simp only [Pred.Holds, ha.neg, hb.pos] at this
          rw [h.ofInt]
          have e1 : min va 0 = 0 := by omega
          have e2 : max vb 0 = 0 := by omega
          rw [e1] at a2; rw [e2] at b1; omega
        · cases hx
      · intro x hx
        dsimp only at hx
        split at hx
        · cases hx
          rename_i hk
          have := h.isKnown e hk
          simp only [Pred.Holds, ha.pos, hb.neg] at this
          rw [h.ofInt]
          have e1 : max va 0 = 0 := by omega
          have e2 : min vb 0 = 0 := by omega
          rw [e1] at a1; rw [e2] at b2; omega
        · cases hx
  | EQ =>
    simp only [Kind.Holds] at hd
    subst hd
    have hv : va * i - vb * i = (va - vb) * i := by ring
    rw [hv]
    have p1 := mul_mono hi (le_max_left (va - vb) 0)
    have p2 := mul_mono hi (min_le_left (va - vb) 0)
    have p0 := le_max_right (va - vb) 0
    have n0 := min_le_right (va - vb) 0
    simp only [bounds, boundsEQ]
    split
    · rename_i u hu
      have ui := hui u hu
      constructor <;> intro x hx <;> cases hx <;>
        simp only [h.mul, val_negPart h, val_posPart h, h.minus, ha.coeff, hb.coeff] <;> nlinarith
    · constructor
      · intro x hx
        dsimp only at hx
        split at hx
        · cases hx
          rename_i hk
          have := isZero_val h e hk
          simp only [val_negPart h, h.minus, ha.coeff, hb.coeff] at this ⊢
          rw [this] at p2 ⊢; omega
        · cases hx
      · intro x hx
        dsimp only at hx
        split at hx
        · cases hx
          rename_i hk
          have := isZero_val h e hk
          simp only [val_posPart h, h.minus, ha.coeff, hb.coeff] at this ⊢
          rw [this] at p1 ⊢; omega
        · cases hx
  | LT =>
    simp only [Kind.Holds] at hd
    simp only [bounds, boundsLT]
    have p1 := le_max_left (max va 0 - vb) 0
    have n1 := min_le_left (min va 0 - vb) 0
    have p0 := le_max_right (max va 0 - vb) 0
    have n0 := min_le_right (min va 0 - vb) 0
    have k0 : 0 ≤ j - 1 := by omega
    have q1 : min va 0 * (j - 1) ≤ min va 0 * i :=
      Int.mul_le_mul_of_nonpos_left na0 (by omega)
    have q2 : max va 0 * i ≤ max va 0 * (j - 1) :=
      Int.mul_le_mul_of_nonneg_left (by omega) pa0
    have r1 := mul_mono k0 n1
    have r2 := mul_mono k0 p1
    split
    · rename_i u hu
      have uj := huj u hu
      constructor <;> intro x hx <;> cases hx <;>
        simp only [h.mul, val_negPart h, val_posPart h, h.minus, ha.neg, ha.pos, hb.coeff, h.ofInt]
      · have := Int.mul_le_mul_of_nonpos_left n0 (show j - 1 ≤ se.val u e - 1 by omega)
        nlinarith
      · have := Int.mul_le_mul_of_nonneg_left (show j - 1 ≤ se.val u e - 1 by omega) p0
        nlinarith
    · constructor
      · intro x hx
        dsimp only at hx
        split at hx
        · cases hx
          rename_i hk
          have := isZero_val h e hk
          simp only [val_negPart h, h.minus, ha.neg, hb.coeff] at this
          rw [h.neg, hb.coeff]
          rw [this] at r1; nlinarith
        · cases hx
      · intro x hx
        dsimp only at hx
        split at hx
        · cases hx
          rename_i hk
          have := isZero_val h e hk
          simp only [val_posPart h, h.minus, ha.pos, hb.coeff] at this
          rw [h.neg, hb.coeff]
          rw [this] at r2; nlinarith
        · cases hx
  | GT =>
    simp only [Kind.Holds] at hd
    simp only [bounds, boundsGT]
    have p1 := le_max_left (va - min vb 0) 0
    have n1 := min_le_left (va - max vb 0) 0
    have p0 := le_max_right (va - min vb 0) 0
    have n0 := min_le_right (va - max vb 0) 0
    have k0 : 0 ≤ i - 1 := by omega
    have q1 : min vb 0 * (i - 1) ≤ min vb 0 * j :=
      Int.mul_le_mul_of_nonpos_left nb0 (by omega)
    have q2 : max vb 0 * j ≤ max vb 0 * (i - 1) :=
      Int.mul_le_mul_of_nonneg_left (by omega) pb0
    have r1 := mul_mono k0 n1
    have r2 := mul_mono k0 p1
    split
    · rename_i u hu
      have ui := hui u hu
      constructor <;> intro x hx <;> cases hx <;>
        simp only [h.add, h.mul, val_negPart h, val_posPart h, h.minus, ha.coeff, hb.pos, hb.neg,
          h.ofInt]
      · have := Int.mul_le_mul_of_nonpos_left n0 (show i - 1 ≤ se.val u e - 1 by omega)
        nlinarith
      · have := Int.mul_le_mul_of_nonneg_left (show i - 1 ≤ se.val u e - 1 by omega) p0
        nlinarith
    · constructor
      · intro x hx
        dsimp only at hx
        split at hx
        · cases hx
          rename_i hk
          have := isZero_val h e hk
          simp only [val_negPart h, h.minus, ha.coeff, hb.pos] at this
          rw [ha.coeff]
          rw [this] at r1; nlinarith
        · cases hx
      · intro x hx
        dsimp only at hx
        split at hx
        · cases hx
          rename_i hk
          have := isZero_val h e hk
          simp only [val_posPart h, h.minus, ha.coeff, hb.neg] at this
          rw [ha.coeff]
          rw [this] at r2; nlinarith
        · cases hx

theorem sumBounds_none (se : SE S L Env) (xs : List (Option S)) :
    xs.foldl (fun s y => match s, y with
      | some s, some y => some (se.add s y)
      | _, _ => none) none = none := by
  induction xs with
  | nil => rfl
  | cons x xs ih => simpa using ih

/-- A finite sum of bounds is the sum of finite bounds. -/
theorem sumBounds_spec {se : SE S L Env} (h : se.Laws) (e : Env) (f : L → Option S) (v : L → Int)
    (le : Int → Int → Prop) (hadd : ∀ a b c d, le a b → le c d → le (a + c) (b + d)) :
    ∀ (ks : List L), (∀ k ∈ ks, ∀ x, f k = some x → le (se.val x e) (v k)) →
      ∀ s, sumBounds se (ks.map f) = some s → le (se.val s e) ((ks.map v).sum) := by
  have go : ∀ (ks : List L) (s0 : S) (v0 : Int), le (se.val s0 e) v0 →
      (∀ k ∈ ks, ∀ x, f k = some x → le (se.val x e) (v k)) →
      ∀ s, (ks.map f).foldl (fun s y => match s, y with
        | some s, some y => some (se.add s y)
        | _, _ => none) (some s0) = some s → le (se.val s e) (v0 + (ks.map v).sum) := by
    intro ks
    induction ks with
    | nil => intro s0 v0 h0 _ s hs; cases hs; simpa using h0
    | cons k ks ih =>
      intro s0 v0 h0 hk s hs
      simp only [List.map_cons, List.foldl_cons] at hs
      cases hf : f k with
      | none => rw [hf] at hs; simp only at hs; rw [sumBounds_none] at hs; cases hs
      | some x =>
        rw [hf] at hs
        have := ih _ (v0 + v k) (by rw [h.add]; exact hadd _ _ _ _ h0 (hk k (by simp) x hf))
          (fun k' hk' => hk k' (by simp [hk'])) s hs
        simp only [List.map_cons, List.sum_cons]
        rwa [Int.add_assoc] at this
  intro ks hk s hs
  cases ks with
  | nil => cases hs
  | cons k ks =>
    simp only [List.map_cons, sumBounds] at hs
    cases hf : f k with
    | none => rw [hf, sumBounds_none] at hs; cases hs
    | some x =>
      rw [hf] at hs
      simpa using go ks x (v k) (hk k (by simp) x hf) (fun k' hk' => hk k' (by simp [hk'])) s hs

theorem testBounds_sound {se : SE S L Env} (h : se.Laws) {e : Env} {all : List L}
    {bd : L → Kind → Option S × Option S} {delta : S} {dirs : L → Kind} (v : L → Int)
    (hb : ∀ k ∈ all, InBounds se e (bd k (dirs k)) (v k))
    (hs : (all.map v).sum = se.val delta e) : testBounds se all bd delta dirs = true := by
  unfold testBounds
  rw [Bool.not_eq_true', Bool.or_eq_false_iff]
  constructor
  · split
    · rename_i lo hlo
      by_contra hk
      have := h.isKnown e (by simpa using hk)
      have := sumBounds_spec h e (fun k => (bd k (dirs k)).1) v (· ≤ ·)
        (fun _ _ _ _ => Int.add_le_add) all (fun k hk x hx => (hb k hk).1 x hx) _ hlo
      simp only [Pred.Holds] at *
      omega
    · rfl
  · split
    · rename_i up hup
      by_contra hk
      have := h.isKnown e (by simpa using hk)
      have := sumBounds_spec h e (fun k => (bd k (dirs k)).2) v (· ≥ ·)
        (fun _ _ _ _ => Int.add_le_add) all (fun k hk x hx => (hb k hk).2 x hx) _ hup
      simp only [Pred.Holds] at *
      omega
    · rfl

theorem Dirs.has_union_left {a b : Dirs} {i j : Int} (h : a.Has i j) : (a.union b).Has i j := by
  obtain ⟨h1, h2, h3⟩ := h
  exact ⟨fun x => by simp [Dirs.union, h1 x], fun x => by simp [Dirs.union, h2 x],
    fun x => by simp [Dirs.union, h3 x]⟩

theorem Dirs.has_union_right {a b : Dirs} {i j : Int} (h : b.Has i j) : (a.union b).Has i j := by
  obtain ⟨h1, h2, h3⟩ := h
  exact ⟨fun x => by simp [Dirs.union, h1 x], fun x => by simp [Dirs.union, h2 x],
    fun x => by simp [Dirs.union, h3 x]⟩

theorem Kind.has_dirs {d : Kind} {i j : Int} (h : d.Holds i j) : d.dirs.Has i j := by
  cases d <;> simp only [Kind.Holds] at h <;>
    refine ⟨fun x => ?_, fun x => ?_, fun x => ?_⟩ <;> first | rfl | (exfalso; omega)

/-- Directions which have been recorded are kept. -/
theorem explore_mono [DecidableEq L] (test : (L → Kind) → Bool) (common : List L) (loops : L → Bool)
    (i j : Int) (k : L) (rest : List L) : ∀ dirs acc, (acc k).Has i j →
      ((explore test common loops rest dirs acc).2 k).Has i j := by
  induction rest with
  | nil =>
    intro dirs acc h
    simp only [explore]
    split
    · exact Dirs.has_union_left h
    · exact h
  | cons k' rest ih =>
    intro dirs acc h
    simp only [explore]
    have ite : ∀ (c : Bool) (d : L → Kind) (a : L → Dirs), (a k).Has i j →
        ((if c = true then explore test common loops rest d a else (0, a)).2 k).Has i j := by
      intro c d a ha
      split
      · exact ih _ _ ha
      · exact ha
    split
    · exact ite _ _ _ (ite _ _ _ (ite _ _ _ h))
    · exact ih _ _ h

theorem explore_sound [DecidableEq L] {test : (L → Kind) → Bool} {common : List L} {loops : L → Bool}
    {I J : L → Int} (ht : ∀ dirs : L → Kind, (∀ k, (dirs k).Holds (I k) (J k)) → test dirs = true)
    (rest : List L) : ∀ (dirs : L → Kind) (acc : L → Dirs), (∀ k, (dirs k).Holds (I k) (J k)) →
      (explore test common loops rest dirs acc).1 > 0 ∧
      ∀ k ∈ common, loops k = true →
        ((explore test common loops rest dirs acc).2 k).Has (I k) (J k) := by
  induction rest with
  | nil =>
    intro dirs acc hd
    simp only [explore]
    refine ⟨by omega, fun k hk hl => ?_⟩
    rw [if_pos ⟨hk, hl⟩]
    exact Dirs.has_union_right (Kind.has_dirs (hd k))
  | cons k' rest ih =>
    intro dirs acc hd
    simp only [explore]
    split
    · generalize hset : (fun (d : Kind) l => if l = k' then d else dirs l) = set
      have hh : ∀ d : Kind, d.Holds (I k') (J k') → ∀ k, (set d k).Holds (I k) (J k) := by
        intro d hdk k
        subst hset
        simp only
        split
        · rename_i hk; subst hk; exact hdk
        · exact hd k
      have mono : ∀ (c : Bool) (d : L → Kind) (a : L → Dirs) (k : L), (a k).Has (I k) (J k) →
          ((if c = true then explore test common loops rest d a else (0, a)).2 k).Has (I k) (J k) := by
        intro c d a k ha
        split
        · exact explore_mono _ _ _ _ _ _ _ _ _ ha
        · exact ha
      have hset' : ∀ d : Kind, (fun l => if l = k' then d else dirs l) = set d := by
        intro d; subst hset; rfl
      simp only [hset']
      rcases lt_trichotomy (I k') (J k') with hlt | hlt | hlt
      · have hc := hh .LT hlt
        simp only [ht _ hc, if_true]
        obtain ⟨h1, h2⟩ := ih (set .LT) acc hc
        exact ⟨by omega, fun k hk hl => mono _ _ _ _ (mono _ _ _ _ (h2 k hk hl))⟩
      · have hc := hh .EQ hlt
        simp only [ht _ hc, if_true]
        generalize (if test (set .LT) = true then explore test common loops rest (set .LT) acc
          else (0, acc)) = r1
        obtain ⟨h1, h2⟩ := ih (set .EQ) r1.2 hc
        exact ⟨by omega, fun k hk hl => mono _ _ _ _ (h2 k hk hl)⟩
      · have hc := hh .GT hlt
        simp only [ht _ hc, if_true]
        generalize (if test (set .LT) = true then explore test common loops rest (set .LT) acc
          else (0, acc)) = r1
        generalize (if test (set .EQ) = true then explore test common loops rest (set .EQ) r1.2
          else (0, r1.2)) = r2
        obtain ⟨h1, h2⟩ := ih (set .GT) r2.2 hc
        exact ⟨by omega, fun k hk hl => h2 k hk hl⟩
    · exact ih _ _ hd

theorem narrow_sound [DecidableEq L] {se : SE S L Env} {e : Env} {common : L → Bool} {loops : L → Bool}
    {found : L → Dirs} {I J : L → Int} (ks : List L)
    (hf : ∀ k ∈ ks, loops k = true → (found k).Has (I k) (J k))
    (hc : ∀ k ∈ ks, common k = true) : ∀ (dv : L → Dv S),
      se.CoversAll e common dv I J → (narrow loops found ks dv).1 = false ∧
        se.CoversAll e common (narrow loops found ks dv).2 I J := by
  induction ks with
  | nil => intro dv hdv; exact ⟨rfl, hdv⟩
  | cons k ks ih =>
    intro dv hdv
    simp only [narrow]
    split
    · rename_i hl
      have hk := hdv k (hc k (by simp))
      have hdir := Dirs.has_inter.2 ⟨hk.dir, hf k (by simp) hl⟩
      simp only [if_true]
      rw [if_neg (Dirs.ne_none hdir)]
      refine ih (fun k' hk' => hf k' (by simp [hk'])) (fun k' hk' => hc k' (by simp [hk'])) _ ?_
      intro l hl
      dsimp only
      split
      · rename_i hlk; subst hlk
        exact ⟨hdir, hk.distance, hk.first, hk.last⟩
      · exact hdv l hl
    · exact ih (fun k' hk' => hf k' (by simp [hk'])) (fun k' hk' => hc k' (by simp [hk'])) _ hdv

/-- What `collectCoeffInfo` finds. -/
theorem collectCoef_spec [DecidableEq L] {se : SE S L Env} (h : se.Laws) (e : Env) (c : Sub S L) :
    ∀ (ci : L → Coef S) (v : L → Int), c.loops.Nodup → (∀ k, CoefOk se e (ci k) (v k)) →
      (∀ k, CoefOk se e (collectCoef se c ci k) (if k ∈ c.loops then c.coefVal se e k else v k)) ∧
      ∀ k, (collectCoef se c ci k).iters = if k ∈ c.loops then se.bound k else (ci k).iters := by
  induction c with
  | base c => intro ci v _ hv; exact ⟨fun k => by simpa [Sub.loops, collectCoef] using hv k,
       fun k => by simp [Sub.loops, collectCoef]⟩
  | addRec s st l ih =>
    intro ci v hn hv
    simp only [Sub.loops, List.nodup_cons] at hn
    simp only [collectCoef]
    obtain ⟨h1, h2⟩ := ih (fun k => if k = l then ⟨st, posPart se st, negPart se st, se.bound l⟩
      else ci k) (fun k => if k = l then se.val st e else v k) hn.2 (fun k => by
        split
        · exact ⟨rfl, val_posPart h _ _, val_negPart h _ _⟩
        · exact hv k)
    refine ⟨fun k => ?_, fun k => ?_⟩
    · have := h1 k
      simp only [Sub.loops, List.mem_cons, Sub.coefVal]
      by_cases hk : k = l
      · subst hk
        simpa [hn.1] using this
      · simpa [hk, Ne.symm hk] using this
    · rw [h2]
      simp only [Sub.loops, List.mem_cons]
      by_cases hk : k = l
      · subst hk; simp [hn.1]
      · simp [hk]

/-- The sum of products of coefficients. -/
theorem lin_eq_sum [DecidableEq L] (se : SE S L Env) (e : Env) (it : L → Int) (all : List L)
    (hall : all.Nodup) (c : Sub S L) : c.loops.Nodup → (∀ l ∈ c.loops, l ∈ all) →
      c.lin se e it = (all.map fun k => c.coefVal se e k * it k).sum := by
  induction c with
  | base c => intro _ _; simp [Sub.lin, Sub.coefVal]
  | addRec s st l ih =>
    intro hn hm
    simp only [Sub.loops, List.nodup_cons] at hn
    simp only [Sub.lin, ih hn.2 fun l' hl' => hm l' (by simp [Sub.loops, hl'])]
    have hl : l ∈ all := hm l (by simp [Sub.loops])
    have h0 := Sub.coefVal_of_not_mem se e hn.1
    clear ih hm hn
    induction all with
    | nil => cases hl
    | cons k ks ih =>
      simp only [List.nodup_cons] at hall
      simp only [List.map_cons, List.sum_cons]
      by_cases hk : k = l
      · subst hk
        have : ∀ k' ∈ ks, (if k = k' then se.val st e else s.coefVal se e k') * it k' =
            s.coefVal se e k' * it k' := by
          intro k' hk'
          rw [if_neg (by rintro rfl; exact hall.1 hk')]
        simp only [Sub.coefVal, if_true, h0]
        rw [List.map_congr_left this]
        ring
      · have := ih hall.2 (by simpa [Ne.symm hk] using hl)
        simp only [Sub.coefVal, if_neg (Ne.symm hk)] at this ⊢
        rw [← this]; ring

/-- Banerjee test: if two accesses collide, the dependence is not disproved and no direction which
really occurs is removed.  Coefficients and bounds are arbitrary expressions. -/
theorem banerjee_sound [DecidableEq L] {se : SE S L Env} (h : se.Laws) {src dst : Sub S L}
    {all common : List L} {loops : L → Bool} {com : L → Bool} {dv : L → Dv S} {e : Env}
    {I J : L → Int} (hall : all.Nodup) (hns : src.loops.Nodup) (hnd : dst.loops.Nodup)
    (hms : ∀ l ∈ src.loops, l ∈ all) (hmd : ∀ l ∈ dst.loops, l ∈ all)
    (hcom : ∀ k ∈ common, com k = true)
    (hI : ∀ l, se.Iter e l (I l)) (hJ : ∀ l, se.Iter e l (J l))
    (heq : src.val se e I = dst.val se e J) (hdv : se.CoversAll e com dv I J) :
    (banerjee se src dst all common loops dv).1 = false ∧
      se.CoversAll e com (banerjee se src dst all common loops dv).2 I J := by
  unfold banerjee
  simp only
  split
  · exact ⟨rfl, hdv⟩
  have zok : ∀ k : L, CoefOk se e (zeroCoef se) ((fun _ : L => 0) k) := fun k =>
    ⟨h.ofInt .., by rw [zeroCoef]; simp [h.ofInt], by rw [zeroCoef]; simp [h.ofInt]⟩
  obtain ⟨a1, a2⟩ := collectCoef_spec h e src (fun _ => zeroCoef se) _ hns zok
  obtain ⟨b1, b2⟩ := collectCoef_spec h e dst (fun _ => zeroCoef se) _ hnd zok
  generalize collectCoef se src (fun _ => zeroCoef se) = a at *
  generalize collectCoef se dst (fun _ => zeroCoef se) = b at *
  have ite0 : ∀ (c : Sub S L) k, (if k ∈ c.loops then c.coefVal se e k else 0) = c.coefVal se e k := by
    intro c k
    split
    · rfl
    · rw [Sub.coefVal_of_not_mem se e (by assumption)]
  simp only [ite0] at a1 b1
  have hit : ∀ k u, (a k).iters.or (b k).iters = some u → se.bound k = some u := by
    intro k u hu
    rw [a2, b2] at hu
    split at hu
    · cases hb : se.bound k with
      | none => rw [hb] at hu; split at hu <;> simp [zeroCoef] at hu
      | some x => rw [hb] at hu; simpa using hu
    · split at hu
      · simpa [zeroCoef] using hu
      · simp [zeroCoef] at hu
  have htest : ∀ dirs : L → Kind, (∀ k, (dirs k).Holds (I k) (J k)) →
      testBounds se all (fun k => bounds se (a k) (b k)) (se.minus dst.const src.const) dirs
        = true := by
    intro dirs hd
    refine testBounds_sound h (fun k => src.coefVal se e k * I k - dst.coefVal se e k * J k)
      (fun k _ => bounds_sound h (a1 k) (b1 k) (hI k).1 (hJ k).1
        (fun u hu => (hI k).2 u (hit k u hu)) (fun u hu => (hJ k).2 u (hit k u hu)) _ (hd k)) ?_
    have hsub : ∀ ks : List L, (ks.map fun k => src.coefVal se e k * I k - dst.coefVal se e k * J k).sum
        = (ks.map fun k => src.coefVal se e k * I k).sum -
          (ks.map fun k => dst.coefVal se e k * J k).sum := by
      intro ks
      induction ks with
      | nil => rfl
      | cons k ks ih => simp only [List.map_cons, List.sum_cons, ih]; ring
    rw [hsub, ← lin_eq_sum se e I all hall src hns hms, ← lin_eq_sum se e J all hall dst hnd hmd,
      h.minus]
    rw [Sub.val_eq, Sub.val_eq] at heq
    omega
  rw [if_pos (htest (fun _ => .ALL) fun _ => trivial)]
  obtain ⟨e1, e2⟩ := explore_sound (common := common) (loops := loops) htest common (fun _ => .ALL)
    (fun _ => .none) fun _ => trivial
  rw [if_pos e1]
  exact narrow_sound common e2 hcom dv hdv

end Tsar.DepTest
