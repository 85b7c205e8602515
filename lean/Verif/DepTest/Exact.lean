import Verif.DepTest.Siv
import Mathlib.Algebra.Order.Ring.Abs
/-!
# Exact tests and the symbolic test

`lib/Analysis/Memory/DependenceAnalysis.cpp`: `exactSIVtest`, `exactRDIVtest`, `symbolicRDIVtest`.
-/

namespace Tsar.DepTest

variable {S L Env : Type}

/-- Values of the parameter of the line of solutions which are still possible. -/
structure Window where
  tl : Int
  tu : Int
  deriving DecidableEq, Repr

/-- The initial values of `TL` and `TU`, DependenceAnalysis.cpp:1656-1657 and 2067-2068: the least and
the greatest number with `w + 1` bits. -/
def Window.init (w : Nat) : Window := ⟨-2 ^ w, 2 ^ w - 1⟩

/-- "test(TMUL, LM - X) and test(-TMUL, X - UM)", DependenceAnalysis.cpp:1659-1676 (the same text is
repeated at 1678-1695, 2070-2083 and 2085-2098): restricts the parameter `t` so that
`0 ≤ x + tmul * t ≤ um`. -/
def Window.clamp (tmul x : Int) (um : Option Int) (w : Window) : Window :=
  if tmul > 0 then
    { tl := maxI w.tl (ceilQ (-x) tmul)
      tu := match um with
        | none => w.tu
        | some u => minI w.tu (floorQ (u - x) tmul) }
  else
    { tu := minI w.tu (floorQ (-x) tmul)
      tl := match um with
        | none => w.tl
        | some u => maxI w.tl (ceilQ (u - x) tmul) }

/-- One exploration of a direction, for example DependenceAnalysis.cpp:1711-1718: restricts the
parameter `t` so that `a ≤ tmul * t`. -/
def Window.atLeast (tmul a : Int) (w : Window) : Window :=
  if tmul > 0 then { w with tl := maxI w.tl (ceilQ a tmul) }
  else { w with tu := minI w.tu (floorQ a tmul) }

/-- "Explore directions" of `exactSIVtest`, DependenceAnalysis.cpp:1702-1763. -/
def exactDirs (am bm x y : Int) (w : Window) : Dirs :=
  let lt := w.atLeast (am - bm) (x - y + 1)
  let eq := (w.atLeast (am - bm) (x - y)).atLeast (bm - am) (y - x)
  let gt := w.atLeast (bm - am) (y - x + 1)
  ⟨decide (lt.tl ≤ lt.tu), decide (eq.tl ≤ eq.tu), decide (gt.tl ≤ gt.tu)⟩

/-- `exactSIVtest`, DependenceAnalysis.cpp:1604-1770; `none` is a division by zero, subscripts have
`w + 1` bits. -/
def exactSIV (se : SE S L Env) (w : Nat) (a1 a2 c1 c2 : S) (l : L) (dv : Dv S) : Option (Out S) :=
  if !se.nest c1 c2 then some ⟨false, dv, false, none, none⟩
  else
    let delta := se.minus c2 c1
    let con := Con.line a1 (se.neg a2) delta
    match se.const delta, se.const a1, se.const a2 with
    | some d, some am, some bm =>
      match findGCD am bm d with
      | .undef => none
      | .disproved => some ⟨true, dv, false, some con, none⟩
      | .solved g x y =>
        if am = 0 ∨ am = bm then none else
        let um := (se.bound l).bind se.const
        let win := ((Window.init w).clamp (bm.tdiv g) x um).clamp (am.tdiv g) y um
        if win.tl > win.tu then some ⟨true, dv, false, some con, none⟩
        else
          let dv' := { dv with dir := dv.dir.inter (exactDirs am bm x y win) }
          some ⟨decide (dv'.dir = .none), dv', false, some con, none⟩
    | _, _, _ => some ⟨false, dv, false, some con, none⟩

/-- `exactRDIVtest`, DependenceAnalysis.cpp:2014-2101; the result tells whether the dependence is
disproved, `none` is a division by zero. -/
def exactRDIV (se : SE S L Env) (w : Nat) (a1 a2 c1 c2 : S) (l1 l2 : L) : Option Bool :=
  if !se.nest c1 c2 then some false
  else match se.const (se.minus c2 c1), se.const a1, se.const a2 with
  | some d, some am, some bm =>
    match findGCD am bm d with
    | .undef => none
    | .disproved => some true
    | .solved g x y =>
      if am = 0 then none else
      let win := ((Window.init w).clamp (bm.tdiv g) x ((se.bound l1).bind se.const)).clamp
        (am.tdiv g) y ((se.bound l2).bind se.const)
      some (decide (win.tl > win.tu))
  | _, _, _ => some false

/-- `symbolicRDIVtest`, DependenceAnalysis.cpp:2157-2262. -/
def symbolicRDIV (se : SE S L Env) (a1 a2 c1 c2 : S) (l1 l2 : L) : Bool :=
  let n1 := se.bound l1
  let n2 := se.bound l2
  if !se.nest c1 c2 then false
  else
    let c21 := se.minus c2 c1
    let c12 := se.minus c1 c2
    if se.knownNonNeg a1 then
      if se.knownNonNeg a2 then
        (match n1 with
          | some n1 => se.isKnown .sgt c21 (se.mul a1 n1)
          | none => false) ||
        (match n2 with
          | some n2 => se.isKnown .slt (se.mul a2 n2) c12
          | none => false)
      else if se.knownNonPos a2 then
        (match n1, n2 with
          | some n1, some n2 => se.isKnown .sgt c21 (se.minus (se.mul a1 n1) (se.mul a2 n2))
          | _, _ => false) ||
        se.knownNeg c21
      else false
    else if se.knownNonPos a1 then
      if se.knownNonNeg a2 then
        (match n1, n2 with
          | some n1, some n2 => se.isKnown .sgt (se.minus (se.mul a1 n1) (se.mul a2 n2)) c21
          | _, _ => false) ||
        se.knownPos c21
      else if se.knownNonPos a2 then
        (match n1 with
          | some n1 => se.isKnown .sgt (se.mul a1 n1) c21
          | none => false) ||
        (match n2 with
          | some n2 => se.isKnown .slt c12 (se.mul a2 n2)
          | none => false)
      else false
    else false

/-! ## Soundness -/

/-- A value of the parameter is still possible. -/
def Window.Has (w : Window) (t : Int) : Prop := w.tl ≤ t ∧ t ≤ w.tu

theorem Window.has_clamp {tmul x : Int} {um : Option Int} {w : Window} {t : Int} (h0 : tmul ≠ 0) :
    (w.clamp tmul x um).Has t ↔
      w.Has t ∧ 0 ≤ x + tmul * t ∧ ∀ u, um = some u → x + tmul * t ≤ u := by
  unfold Window.clamp Window.Has
  split
  · rename_i hp
    cases um with
    | none =>
      simp only [le_maxI, ceilQ_pos hp]
      constructor
      · rintro ⟨⟨a, b⟩, c⟩; exact ⟨⟨a, c⟩, by omega, fun u hu => by cases hu⟩
      · rintro ⟨⟨a, c⟩, b, _⟩; exact ⟨⟨a, by omega⟩, c⟩
    | some u =>
      simp only [le_maxI, le_minI, ceilQ_pos hp, floorQ_pos hp]
      constructor
      · rintro ⟨⟨a, b⟩, c, d⟩; exact ⟨⟨a, c⟩, by omega, fun u hu => by cases hu; omega⟩
      · rintro ⟨⟨a, c⟩, b, d⟩; have := d u rfl; exact ⟨⟨a, by omega⟩, c, by omega⟩
  · have hn : tmul < 0 := by omega
    cases um with
    | none =>
      simp only [le_minI, floorQ_neg hn]
      constructor
      · rintro ⟨a, b, c⟩; exact ⟨⟨a, b⟩, by omega, fun u hu => by cases hu⟩
      · rintro ⟨⟨a, c⟩, b, _⟩; exact ⟨a, c, by omega⟩
    | some u =>
      simp only [le_maxI, le_minI, ceilQ_neg hn, floorQ_neg hn]
      constructor
      · rintro ⟨⟨a, b⟩, c, d⟩; exact ⟨⟨a, c⟩, by omega, fun u hu => by cases hu; omega⟩
      · rintro ⟨⟨a, c⟩, b, d⟩; have := d u rfl; exact ⟨⟨a, by omega⟩, c, by omega⟩

theorem Window.has_atLeast {tmul a : Int} {w : Window} {t : Int} (h0 : tmul ≠ 0) :
    (w.atLeast tmul a).Has t ↔ w.Has t ∧ a ≤ tmul * t := by
  unfold Window.atLeast Window.Has
  split
  · rename_i hp
    simp only [le_maxI, ceilQ_pos hp]
    constructor
    · rintro ⟨⟨a, b⟩, c⟩; exact ⟨⟨a, c⟩, b⟩
    · rintro ⟨⟨a, c⟩, b⟩; exact ⟨⟨a, b⟩, c⟩
  · have hn : tmul < 0 := by omega
    simp only [le_minI, floorQ_neg hn]
    constructor
    · rintro ⟨a, b, c⟩; exact ⟨⟨a, b⟩, c⟩
    · rintro ⟨⟨a, b⟩, c⟩; exact ⟨a, b, c⟩

theorem Window.nonempty {w : Window} {t : Int} (h : w.Has t) : w.tl ≤ w.tu :=
  le_trans h.1 h.2

theorem iter_const {se : SE S L Env} (h : se.Laws) {e : Env} {l : L} {i : Int}
    (hi : se.Iter e l i) : ∀ u, (se.bound l).bind se.const = some u → i ≤ u := by
  intro u hu
  obtain ⟨ub, hb, hc⟩ := Option.bind_eq_some_iff.1 hu
  rw [← h.const _ _ e hc]
  exact hi.2 _ hb

/-- A particular solution is not far from the considered iteration: the difference fits into
`w + 1` bits. -/
def Fits (w : Nat) (am bm d i : Int) : Prop :=
  ∀ g x y, findGCD am bm d = .solved g x y → |i - x| < 2 ^ w

theorem init_has {w : Nat} {t m k : Int} (hm : m ≠ 0) (hk : k = m * t) (hf : |k| < 2 ^ w) :
    (Window.init w).Has t := by
  have h1 : |t| ≤ |k| := by
    rw [hk, abs_mul]
    have : 1 ≤ |m| := Int.one_le_abs hm
    have := abs_nonneg t
    nlinarith
  have h2 := abs_lt.1 (lt_of_le_of_lt h1 hf)
  unfold Window.Has Window.init
  simp only
  constructor <;> omega

theorem tdiv_ne_zero {a : Int} {n : Nat} (ha : a ≠ 0) (hd : (n : Int) ∣ a) : a.tdiv n ≠ 0 := by
  obtain ⟨k, rfl⟩ := hd
  have hn : (n : Int) ≠ 0 := by rintro h; rw [h] at ha; simp at ha
  rw [Int.mul_tdiv_cancel_left _ hn]
  rintro rfl; simp at ha

/-- The window of parameters contains the parameter of every pair of iterations which access the
same element. -/
theorem window_sound {se : SE S L Env} (h : se.Laws) {w : Nat} {am bm d x y : Int} {l1 l2 : L}
    {e : Env} {i j : Int} (hi : se.Iter e l1 i) (hj : se.Iter e l2 j) (ha : am ≠ 0) (hb : bm ≠ 0)
    (hs : am * x - bm * y = d) (hij : am * i - bm * j = d) (hf : |i - x| < 2 ^ w) :
    ∃ t, i = x + bm.tdiv (Int.gcd am bm) * t ∧ j = y + am.tdiv (Int.gcd am bm) * t ∧
      (((Window.init w).clamp (bm.tdiv (Int.gcd am bm)) x ((se.bound l1).bind se.const)).clamp
        (am.tdiv (Int.gcd am bm)) y ((se.bound l2).bind se.const)).Has t := by
  obtain ⟨t, hi', hj'⟩ := solution_line hb hs hij
  have h1 : bm.tdiv (Int.gcd am bm) ≠ 0 := tdiv_ne_zero hb (Int.gcd_dvd_right ..)
  have h2 : am.tdiv (Int.gcd am bm) ≠ 0 := tdiv_ne_zero ha (Int.gcd_dvd_left ..)
  refine ⟨t, hi', hj', ?_⟩
  rw [Window.has_clamp h2, Window.has_clamp h1, ← hi', ← hj']
  exact ⟨⟨init_has h1 (by omega) hf, hi.1, iter_const h hi⟩, hj.1, iter_const h hj⟩

/-- Exact RDIV: the dependence is not disproved if some iterations of two loops access the same
element; there are no divisions by zero if the coefficients are not zero. -/
theorem exactRDIV_sound {se : SE S L Env} (h : se.Laws) {w : Nat} {a1 a2 c1 c2 : S} {l1 l2 : L}
    {e : Env} {i j : Int} (hi : se.Iter e l1 i) (hj : se.Iter e l2 j)
    (ha1 : se.val a1 e ≠ 0) (ha2 : se.val a2 e ≠ 0)
    (hf : Fits w (se.val a1 e) (se.val a2 e) (se.val c2 e - se.val c1 e) i)
    (heq : se.val c1 e + se.val a1 e * i = se.val c2 e + se.val a2 e * j) :
    exactRDIV se w a1 a2 c1 c2 l1 l2 = some false := by
  have hd : se.val a1 e * i - se.val a2 e * j = se.val (se.minus c2 c1) e := by
    rw [h.minus]; linear_combination heq
  rw [← h.minus] at hf
  unfold exactRDIV
  split
  · rfl
  split
  · rename_i d am bm hcd hca hcb
    rw [h.const _ _ e hcd, h.const _ _ e hca, h.const _ _ e hcb] at *
    rcases findGCD_spec am bm d ha2 with ⟨hg, hno⟩ | ⟨x, y, hg, hs⟩
    · exact absurd ⟨i, j, hd⟩ hno
    · rw [hg]
      simp only [ha1, ↓reduceIte]
      obtain ⟨t, -, -, hw⟩ := window_sound h hi hj ha1 ha2 hs hd (hf _ _ _ hg)
      have := Window.nonempty hw
      simp only [Option.some.injEq, decide_eq_false_iff_not]
      omega
  · rfl

theorem exactDirs_sound {am bm x y i j t : Int} {win : Window} (hne : am ≠ bm)
    (hi : i = x + bm * t) (hj : j = y + am * t) (hw : win.Has t) :
    (exactDirs am bm x y win).Has i j := by
  have h1 : am - bm ≠ 0 := by omega
  have h2 : bm - am ≠ 0 := by omega
  have hd1 : (am - bm) * t = (j - i) + (x - y) := by rw [hi, hj]; ring
  have hd2 : (bm - am) * t = (i - j) + (y - x) := by rw [hi, hj]; ring
  unfold exactDirs Dirs.Has
  simp only [decide_eq_true_eq]
  refine ⟨fun hlt => ?_, fun hlt => ?_, fun hlt => ?_⟩
  · exact Window.nonempty ((Window.has_atLeast h1).2 ⟨hw, by omega⟩)
  · exact Window.nonempty ((Window.has_atLeast h2).2
      ⟨(Window.has_atLeast h1).2 ⟨hw, by omega⟩, by omega⟩)
  · exact Window.nonempty ((Window.has_atLeast h2).2 ⟨hw, by omega⟩)

/-- Exact SIV, coefficients without a common divisor: nothing is lost. -/
theorem exactSIV_sound {se : SE S L Env} (h : se.Laws) {w : Nat} {a1 a2 c1 c2 : S} {l : L}
    {dv : Dv S} {e : Env} {i j : Int} (hi : se.Iter e l i) (hj : se.Iter e l j)
    (ha1 : se.val a1 e ≠ 0) (ha2 : se.val a2 e ≠ 0) (hne : se.val a1 e ≠ se.val a2 e)
    (hg : Int.gcd (se.val a1 e) (se.val a2 e) = 1)
    (hf : Fits w (se.val a1 e) (se.val a2 e) (se.val c2 e - se.val c1 e) i)
    (heq : se.val c1 e + se.val a1 e * i = se.val c2 e + se.val a2 e * j)
    (hdv : se.Covers e l dv i j) :
    ∃ o, exactSIV se w a1 a2 c1 c2 l dv = some o ∧ se.Sound e l o i j := by
  have hd : se.val a1 e * i - se.val a2 e * j = se.val (se.minus c2 c1) e := by
    rw [h.minus]; linear_combination heq
  have hcon : ∀ c, some (Con.line a1 (se.neg a2) (se.minus c2 c1)) = some c → se.Sat e c i j := by
    intro c hc; cases hc; simp only [SE.Sat, h.neg]; rw [← hd]; ring
  rw [← h.minus] at hf
  unfold exactSIV
  split
  · exact ⟨_, rfl, rfl, hdv, fun c hc => by cases hc⟩
  simp only
  split
  · rename_i d am bm hcd hca hcb
    have ed := h.const _ _ e hcd
    have ea := h.const _ _ e hca
    have eb := h.const _ _ e hcb
    rw [ed, ea, eb] at hf
    rw [ed, ea, eb] at hd
    rw [ea, eb] at hg hne
    rw [ea] at ha1
    rw [eb] at ha2
    rcases findGCD_spec am bm d ha2 with ⟨hgc, hno⟩ | ⟨x, y, hgc, hs⟩
    · exact absurd ⟨i, j, hd⟩ hno
    · rw [hgc]
      simp only [ha1, hne, or_self, ↓reduceIte]
      obtain ⟨t, hi', hj', hw⟩ := window_sound h hi hj ha1 ha2 hs hd (hf _ _ _ hgc)
      rw [if_neg (by have := Window.nonempty hw; omega)]
      refine ⟨_, rfl, ?_⟩
      rw [hg] at hi' hj' hw ⊢
      rw [show ((1 : Nat) : Int) = 1 from rfl, Int.tdiv_one] at hi' hj'
      have hdir := Dirs.has_inter.2 ⟨hdv.dir, exactDirs_sound hne hi' hj' hw⟩
      exact ⟨by simpa using Dirs.ne_none hdir, ⟨hdir, hdv.distance, hdv.first, hdv.last⟩, hcon⟩
  · exact ⟨_, rfl, rfl, hdv, hcon⟩

/-- Exact SIV, arbitrary coefficients: there is no division by zero, the constraint holds, and the
dependence is not disproved before directions are explored: whatever is lost is lost because
the set of explored directions does not contain the direction of the pair. -/
theorem exactSIV_window {se : SE S L Env} (h : se.Laws) {w : Nat} {a1 a2 c1 c2 : S} {l : L}
    {dv : Dv S} {e : Env} {i j : Int} (hi : se.Iter e l i) (hj : se.Iter e l j)
    (ha1 : se.val a1 e ≠ 0) (ha2 : se.val a2 e ≠ 0) (hne : se.val a1 e ≠ se.val a2 e)
    (hf : Fits w (se.val a1 e) (se.val a2 e) (se.val c2 e - se.val c1 e) i)
    (heq : se.val c1 e + se.val a1 e * i = se.val c2 e + se.val a2 e * j)
    (hdv : se.Covers e l dv i j) :
    ∃ o, exactSIV se w a1 a2 c1 c2 l dv = some o ∧ (∀ c, o.con = some c → se.Sat e c i j) ∧
      (o.dv.dir.Has i j → se.Sound e l o i j) := by
  have hd : se.val a1 e * i - se.val a2 e * j = se.val (se.minus c2 c1) e := by
    rw [h.minus]; linear_combination heq
  have hcon : ∀ c, some (Con.line a1 (se.neg a2) (se.minus c2 c1)) = some c → se.Sat e c i j := by
    intro c hc; cases hc; simp only [SE.Sat, h.neg]; rw [← hd]; ring
  rw [← h.minus] at hf
  unfold exactSIV
  split
  · exact ⟨_, rfl, fun c hc => (by cases hc), fun _ => ⟨rfl, hdv, fun c hc => (by cases hc)⟩⟩
  simp only
  split
  · rename_i d am bm hcd hca hcb
    have ed := h.const _ _ e hcd
    have ea := h.const _ _ e hca
    have eb := h.const _ _ e hcb
    rw [ed, ea, eb] at hf
    rw [ed, ea, eb] at hd
    rw [ea, eb] at hne
    rw [ea] at ha1
    rw [eb] at ha2
    rcases findGCD_spec am bm d ha2 with ⟨hgc, hno⟩ | ⟨x, y, hgc, hs⟩
    · exact absurd ⟨i, j, hd⟩ hno
    · rw [hgc]
      simp only [ha1, hne, or_self, ↓reduceIte]
      obtain ⟨t, hi', hj', hw⟩ := window_sound h hi hj ha1 ha2 hs hd (hf _ _ _ hgc)
      rw [if_neg (by have := Window.nonempty hw; omega)]
      refine ⟨_, rfl, hcon, fun hdir => ?_⟩
      exact ⟨by simpa using Dirs.ne_none hdir, ⟨hdir, hdv.distance, hdv.first, hdv.last⟩, hcon⟩
  · exact ⟨_, rfl, hcon, fun _ => ⟨rfl, hdv, hcon⟩⟩

/-- Symbolic RDIV: the dependence is not disproved if some iterations of two loops access the same
element.  Coefficients are arbitrary expressions. -/
theorem symbolicRDIV_sound {se : SE S L Env} (h : se.Laws) {a1 a2 c1 c2 : S} {l1 l2 : L}
    {e : Env} {i j : Int} (hi : se.Iter e l1 i) (hj : se.Iter e l2 j)
    (heq : se.val c1 e + se.val a1 e * i = se.val c2 e + se.val a2 e * j) :
    symbolicRDIV se a1 a2 c1 c2 l1 l2 = false := by
  have mulle : ∀ {a x u : Int}, 0 ≤ a → 0 ≤ x → x ≤ u → 0 ≤ a * x ∧ a * x ≤ a * u :=
    fun ha hx hu => ⟨Int.mul_nonneg ha hx, Int.mul_le_mul_of_nonneg_left hu ha⟩
  have mulge : ∀ {a x u : Int}, a ≤ 0 → 0 ≤ x → x ≤ u → a * x ≤ 0 ∧ a * u ≤ a * x :=
    fun ha hx hu => ⟨Int.mul_nonpos_of_nonpos_of_nonneg ha hx, Int.mul_le_mul_of_nonpos_left ha hu⟩
  have mul0 : ∀ {a x : Int}, 0 ≤ a → 0 ≤ x → 0 ≤ a * x := fun ha hx => Int.mul_nonneg ha hx
  have mul0' : ∀ {a x : Int}, a ≤ 0 → 0 ≤ x → a * x ≤ 0 :=
    fun ha hx => Int.mul_nonpos_of_nonpos_of_nonneg ha hx
  have hi0 := hi.1
  have hj0 := hj.1
  unfold symbolicRDIV
  simp only
  split
  · rfl
  split
  · have s1 := h.knownNonNeg _ e (by assumption : se.knownNonNeg a1 = true)
    split
    · have s2 := h.knownNonNeg _ e (by assumption : se.knownNonNeg a2 = true)
      rw [Bool.or_eq_false_iff]
      constructor
      · split
        · rename_i n1 hn
          have hu := hi.2 _ hn
          by_contra hk
          have hk := h.isKnown e (by simpa using hk)
          simp only [Pred.Holds, h.minus, h.mul] at hk
          have := (mulle s1 hi0 hu).2
          have := mul0 s2 hj0
          omega
        · rfl
      · split
        · rename_i n1 hn
          have hu := hj.2 _ hn
          by_contra hk
          have hk := h.isKnown e (by simpa using hk)
          simp only [Pred.Holds, h.minus, h.mul] at hk
          have := (mulle s2 hj0 hu).2
          have := mul0 s1 hi0
          omega
        · rfl
    · split
      · have s2 := h.knownNonPos _ e (by assumption : se.knownNonPos a2 = true)
        rw [Bool.or_eq_false_iff]
        constructor
        · split
          · rename_i n1 n2 hn1 hn2
            have hu1 := hi.2 _ hn1
            have hu2 := hj.2 _ hn2
            by_contra hk
            have hk := h.isKnown e (by simpa using hk)
            simp only [Pred.Holds, h.minus, h.mul] at hk
            have := (mulle s1 hi0 hu1).2
            have := (mulge s2 hj0 hu2).2
            omega
          · rfl
        · by_contra hk
          have hk := h.knownNeg _ e (by simpa using hk)
          rw [h.minus] at hk
          have := mul0 s1 hi0
          have := mul0' s2 hj0
          omega
      · rfl
  · split
    · have s1 := h.knownNonPos _ e (by assumption : se.knownNonPos a1 = true)
      split
      · have s2 := h.knownNonNeg _ e (by assumption : se.knownNonNeg a2 = true)
        rw [Bool.or_eq_false_iff]
        constructor
        · split
          · rename_i n1 n2 hn1 hn2
            have hu1 := hi.2 _ hn1
            have hu2 := hj.2 _ hn2
            by_contra hk
            have hk := h.isKnown e (by simpa using hk)
            simp only [Pred.Holds, h.minus, h.mul] at hk
            have := (mulge s1 hi0 hu1).2
            have := (mulle s2 hj0 hu2).2
            omega
          · rfl
        · by_contra hk
          have hk := h.knownPos _ e (by simpa using hk)
          rw [h.minus] at hk
          have := mul0' s1 hi0
          have := mul0 s2 hj0
          omega
      · split
        · have s2 := h.knownNonPos _ e (by assumption : se.knownNonPos a2 = true)
          rw [Bool.or_eq_false_iff]
          constructor
          · split
            · rename_i n1 hn
              have hu := hi.2 _ hn
              by_contra hk
              have hk := h.isKnown e (by simpa using hk)
              simp only [Pred.Holds, h.minus, h.mul] at hk
              have := (mulge s1 hi0 hu).2
              have := mul0' s2 hj0
              omega
            · rfl
          · split
            · rename_i n1 hn
              have hu := hj.2 _ hn
              by_contra hk
              have hk := h.isKnown e (by simpa using hk)
              simp only [Pred.Holds, h.minus, h.mul] at hk
              have := (mulge s2 hj0 hu).2
              have := mul0' s1 hi0
              omega
            · rfl
        · rfl
    · rfl

end Tsar.DepTest
