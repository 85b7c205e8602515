import Verif.Range.Bytes
import Mathlib.Algebra.GCDMonoid.Nat
import Mathlib.Data.Int.GCD
import Mathlib.Tactic.LinearCombination

/-!
# Properties of memory ranges (C01-C05, C54, C55)
-/

namespace Tsar.Range

/-! ## A reference solver which meets the contract -/

/-- Reference solver of `k1 * x - k2 * y = c` (used only to show that `SolverOK` can be
met). -/
def refSolver : Solver := fun k1 k2 c =>
  let g : Int := Int.gcd k1 k2
  if c % g = 0 then
    some ((c / g) * Int.gcdA k1 k2, k2 / g, -((c / g) * Int.gcdB k1 k2), k1 / g)
  else none

theorem refSolver_ok : SolverOK refSolver := by
  intro k1 k2 c h1 h2
  unfold refSolver
  simp only
  have hg : (0 : Int) < Int.gcd k1 k2 := by
    have := Int.gcd_pos_of_ne_zero_left k2 (Int.ne_of_gt h1)
    exact_mod_cast this
  have hgab := Int.gcd_eq_gcd_ab k1 k2
  have hd1 : (Int.gcd k1 k2 : Int) ∣ k1 := Int.gcd_dvd_left ..
  have hd2 : (Int.gcd k1 k2 : Int) ∣ k2 := Int.gcd_dvd_right ..
  obtain ⟨a, ha⟩ := hd1
  obtain ⟨b, hb⟩ := hd2
  generalize ((Int.gcd k1 k2 : Nat) : Int) = g at *
  have ha' : k1 / g = a := by
    conv_lhs => rw [ha]
    exact Int.mul_ediv_cancel_left _ hg.ne'
  have hb' : k2 / g = b := by
    conv_lhs => rw [hb]
    exact Int.mul_ediv_cancel_left _ hg.ne'
  have hapos : 0 < a := by
    have : 0 < g * a := by rw [← ha]; exact h1
    exact (mul_pos_iff_of_pos_left hg).1 this
  have hbpos : 0 < b := by
    have : 0 < g * b := by rw [← hb]; exact h2
    exact (mul_pos_iff_of_pos_left hg).1 this
  split
  · rename_i heq
    split at heq
    · simp at heq
    · rename_i hmod
      intro x y hxy
      apply hmod
      rw [← hxy]
      apply Int.emod_eq_zero_of_dvd
      exact Int.dvd_sub (Dvd.dvd.mul_right ⟨a, ha⟩ x) (Dvd.dvd.mul_right ⟨b, hb⟩ y)
  · rename_i A B C D heq
    split at heq
    · rename_i hmod
      simp only [Option.some.injEq, Prod.mk.injEq] at heq
      obtain ⟨rfl, rfl, rfl, rfl⟩ := heq
      rw [ha', hb']
      refine ⟨hbpos, hapos, ?_⟩
      obtain ⟨m, hm⟩ := Int.dvd_of_emod_eq_zero hmod
      have hcm : c / g = m := by
        rw [hm]; exact Int.mul_ediv_cancel_left _ hg.ne'
      rw [hcm]
      set u := Int.gcdA k1 k2
      set v := Int.gcdB k1 k2
      have hone : a * u + b * v = 1 := by
        have : g * (a * u + b * v) = g * 1 := by
          rw [mul_one]; conv_rhs => rw [hgab]
          conv_rhs => rw [ha, hb]
          ring
        exact mul_left_cancel₀ hg.ne' this
      intro x y
      constructor
      · intro hxy
        have h3 : a * x - b * y = m := by
          have : g * (a * x - b * y) = g * m := by rw [← hm, ← hxy, ha, hb]; ring
          exact mul_left_cancel₀ hg.ne' this
        -- `t = v*x + u*y`
        refine ⟨v * x + u * y, ?_, ?_⟩
        · linear_combination u * h3 - x * hone
        · linear_combination (-v) * h3 - y * hone
      · rintro ⟨t, rfl, rfl⟩
        rw [hm, ha, hb]; linear_combination g * m * hone
    · simp at heq

/-! ## C01: byte ranges -/

/-- C01. Intersection of byte ranges with the same base: the answer 'none' means that the
ranges have no common bytes, otherwise the returned range consists of exactly the common
bytes and the complements consist of exactly the remaining bytes. The answer is never
'unknown', and it is 'none' only if nothing was added to complements. -/
theorem intersectScalar_exact (l r : Loc) (hl : l.IsScalar) (hr : r.IsScalar)
    (hp : l.ptr = r.ptr) :
    IntersectSpec l r true true (intersectScalar l r) ∧
    (intersectScalar l r).1 ≠ .unknown ∧
    ((intersectScalar l r).1 = .none → (intersectScalar l r).2 = ([], [])) := by
  obtain ⟨hlc, ll, lu, hll, hlu⟩ := hl
  obtain ⟨hrc, rl, ru, hrl, hru⟩ := hr
  unfold intersectScalar
  rw [if_neg (by simp [hp]), if_neg (by simp [hlc, hrc])]
  simp only [hll, hlu, hrl, hru]
  by_cases h : lu > rl ∧ ll < ru
  · rw [if_pos h]
    refine ⟨⟨rfl, ?_, ?_, ?_⟩, by simp, by simp⟩
    · intro b; simp [Loc.Byte, hlc, hrc, hll, hlu, hrl, hru]; omega
    · intro _ b
      by_cases h1 : ll < max ll rl <;> by_cases h2 : lu > min lu ru <;>
        simp only [h1, h2, if_true, if_false, List.mem_append, List.mem_singleton, List.not_mem_nil,
          or_false, false_or, exists_eq_left, or_and_right, exists_or, false_and, exists_false] <;>
        simp only [Loc.Byte, hlc, hrc, hll, hlu, hrl, hru] <;> simp <;> omega
    · intro _ b
      by_cases h1 : rl < max ll rl <;> by_cases h2 : ru > min lu ru <;>
        simp only [h1, h2, if_true, if_false, List.mem_append, List.mem_singleton, List.not_mem_nil,
          or_false, false_or, exists_eq_left, or_and_right, exists_or, false_and, exists_false] <;>
        simp only [Loc.Byte, hlc, hrc, hll, hlu, hrl, hru] <;> simp <;> omega
  · rw [if_neg h]
    refine ⟨?_, by simp, by simp⟩
    intro b
    simp [Loc.Byte, hlc, hrc, hll, hlu, hrl, hru]; omega

/-- Non-vacuity: `[0, 8)` and `[4, 12)`. -/
example : (⟨some 1, some 0, some 8, [], Kind.default⟩ : Loc).IsScalar ∧
    (⟨some 1, some 4, some 12, [], Kind.default⟩ : Loc).IsScalar ∧
    intersectScalar ⟨some 1, some 0, some 8, [], Kind.default⟩
      ⟨some 1, some 4, some 12, [], Kind.default⟩ =
      (.exact ⟨some 1, some 4, some 8, [], Kind.default⟩,
        [⟨some 1, some 0, some 4, [], Kind.default⟩],
        [⟨some 1, some 8, some 12, [], Kind.default⟩]) := by
  refine ⟨⟨rfl, 0, 8, rfl, rfl⟩, ⟨rfl, 4, 12, rfl, rfl⟩, by decide⟩

/-- C01 (unknown bounds). If some bounds of byte ranges are unknown and the answer is 'none',
then the ranges have no common bytes whatever the actual bounds are; the code never claims an
exact answer in this case. -/
theorem intersectScalar_unknown_sound (l r l' r' : Loc) (hl' : Refines l' l) (hr' : Refines r' r)
    (hlc : l.kind.collapsed = false) (hrc : r.kind.collapsed = false) (hp : l.ptr = r.ptr)
    (hunk : l.lower = none ∨ l.upper = none ∨ r.lower = none ∨ r.upper = none) :
    (intersectScalar l r = (.none, [], []) ∧ ∀ b, ¬ (l'.Byte b ∧ r'.Byte b)) ∨
    intersectScalar l r = (.unknown, [], []) := by
  obtain ⟨_, hk, ⟨lo, h1⟩, ⟨up, h2⟩, h3, h4⟩ := hl'
  obtain ⟨_, hk', ⟨lo', h1'⟩, ⟨up', h2'⟩, h3', h4'⟩ := hr'
  have hb : (boundLe l.upper r.lower || boundLe r.upper l.lower) = true →
      ∀ b, ¬ (l'.Byte b ∧ r'.Byte b) := by
    intro hb b
    simp only [Loc.Byte, h1, h2, h1', h2', hk, hk', hlc, hrc]
    simp only [Bool.or_eq_true] at hb
    rcases hb with hb | hb
    · cases hu : l.upper with
      | none => simp [hu, boundLe] at hb
      | some u =>
        cases hw : r.lower with
        | none => simp [hu, hw, boundLe] at hb
        | some w =>
          simp [hu, hw, boundLe] at hb
          have := h4 u hu; have := h3' w hw
          simp_all; omega
    · cases hu : r.upper with
      | none => simp [hu, boundLe] at hb
      | some u =>
        cases hw : l.lower with
        | none => simp [hu, hw, boundLe] at hb
        | some w =>
          simp [hu, hw, boundLe] at hb
          have := h4' u hu; have := h3 w hw
          simp_all; omega
  unfold intersectScalar
  rw [if_neg (by simp [hp]), if_neg (by simp [hlc, hrc])]
  split
  · rename_i e1 e2 e3 e4
    simp [e1, e2, e3, e4] at hunk
  · split
    · rename_i h; exact Or.inl ⟨rfl, hb h⟩
    · exact Or.inr rfl

/-- Non-vacuity: `[0, ?)` against `[4, 8)`, and `[8, ?)` against `[4, 8)`. -/
example : Refines ⟨some 1, some 0, some 100, [], Kind.default⟩
      ⟨some 1, some 0, none, [], Kind.default⟩ ∧
    intersectScalar ⟨some 1, some 0, none, [], Kind.default⟩
      ⟨some 1, some 4, some 8, [], Kind.default⟩ = (.unknown, [], []) ∧
    intersectScalar ⟨some 1, some 8, none, [], Kind.default⟩
      ⟨some 1, some 4, some 8, [], Kind.default⟩ = (.none, [], []) := by
  refine ⟨⟨rfl, rfl, ⟨_, rfl⟩, ⟨_, rfl⟩, by simp, by simp⟩, by decide, by decide⟩

/-! ## C02: difference of progressions -/

/-- C02. If `i` is a sub-progression of `d` and the threshold is not exceeded, then the pieces
together consist of exactly the indexes of `d` which are not in `i`. The pieces are
well-formed, i.e. they may be passed to further intersections. -/
theorem difference_exact (d i : Dim) (hd : d.Wf) (hi : i.Wf) (hsub : ∀ x, i.Mem x → d.Mem x)
    (th : Nat) (ps : List Dim) (h : difference d i th = some ps) :
    (∀ p ∈ ps, p.Wf ∧ p.size = d.size) ∧
    ∀ x, (∃ p ∈ ps, p.Mem x) ↔ d.Mem x ∧ ¬ i.Mem x :=
  difference_spec hd hi hsub h

/-- C02. The difference is not computed only if the number of pieces between the members of
`i` exceeds the threshold. -/
theorem difference_some_of_threshold (d i : Dim) (th : Nat) (h : i.step / d.step - 1 ≤ th) :
    ∃ ps, difference d i th = some ps := by
  unfold difference
  simp only
  split
  · rw [if_neg (by omega)]; exact ⟨_, rfl⟩
  · exact ⟨_, rfl⟩

/-- Non-vacuity: `0,2,...,18` without `4,10`. -/
example : difference ⟨0, 2, 10, 100⟩ ⟨4, 6, 2, 100⟩ 10 =
    some [⟨0, 2, 2, 100⟩, ⟨12, 2, 4, 100⟩, ⟨6, 6, 1, 100⟩, ⟨8, 6, 1, 100⟩] := by decide

example : Dim.Wf ⟨0, 2, 10, 100⟩ ∧ Dim.Wf ⟨4, 6, 2, 100⟩ ∧
    ∀ x, Dim.Mem ⟨4, 6, 2, 100⟩ x → Dim.Mem ⟨0, 2, 10, 100⟩ x := by
  refine ⟨by simp [Dim.Wf], by simp [Dim.Wf], ?_⟩
  rintro x ⟨k, hk, rfl⟩
  simp only at hk
  exact ⟨2 + 3 * k, by simp only; omega, by simp only; omega⟩

/-! ## C03: intersection of one dimension -/

/-- C03. Intersection of two strided ranges of one dimension. -/
theorem dimIntersect_exact (S : Solver) (hS : SolverOK S) (l r : Dim) (hl : l.Wf) (hr : r.Wf)
    (hsz : l.size = r.size) :
    (dimIntersect S l r = .empty ∧ ∀ i, ¬ (l.Mem i ∧ r.Mem i)) ∨
    (∃ d, dimIntersect S l r = .ok d ∧ d.Wf ∧ d.size = l.size ∧
      (∃ i, d.Mem i) ∧ ∀ i, d.Mem i ↔ l.Mem i ∧ r.Mem i) := by
  rcases dimIntersect_spec hS hl hr hsz with h | ⟨d, h1, h2, h3, h4⟩
  · exact Or.inl h
  · exact Or.inr ⟨d, h1, h2, h3, ⟨d.start, 0, h2.2, by simp⟩, h4⟩

/-- Non-vacuity: `0,4,8,...,36` and `2,8,14,...,32` have the common part `8,20,32`. -/
example : SolverOK refSolver ∧
    dimIntersect refSolver ⟨0, 4, 10, 100⟩ ⟨2, 6, 6, 100⟩ = .ok ⟨8, 12, 3, 100⟩ :=
  ⟨refSolver_ok, by decide +kernel⟩

/-! ## C04: the whole intersection -/

theorem array_of_shape {l : Loc} {e : Nat} (h : l.IsArray e) {ds : List Dim} (hs : Shape ds l.dims)
    (hsub : ∀ v, DimsMem ds v → DimsMem l.dims v) :
    ({ l with dims := ds } : Loc).IsArray e := by
  obtain ⟨h1, h2, h3, h4, h5, h6, h7⟩ := h
  refine ⟨h1, h2, h3, h4, ?_, hs.2, inBounds_tail_of_sub hs.2 hs.1 hsub h7⟩
  intro h0
  simp only at h0
  have := hs.1
  rw [h0] at this
  simp at this
  exact h5 this

theorem array_byte_of {l : Loc} {e : Nat} (h : l.IsArray e) {ds ref : List Dim}
    (hs : ds.map Dim.size = ref.map Dim.size) (b : Nat) :
    ({ l with dims := ds } : Loc).Byte b ↔ ByteOf ref e (DimsMem ds) b := by
  obtain ⟨hc, hlo, hup, _⟩ := h
  simp only [Loc.Byte, hc, hlo, hup, ByteOf, if_true]
  simp only [linear_congr _ hs]

theorem byteOf_congr {ds : List Dim} {e : Nat} {P Q : List Nat → Prop} (h : ∀ v, P v ↔ Q v)
    (b : Nat) : ByteOf ds e P b ↔ ByteOf ds e Q b := by
  simp only [ByteOf, h]

theorem intersect_scalars {S : Solver} {wl wr : Bool} {th : Nat} {l r : Loc}
    (hp : l.ptr = r.ptr) (hpn : l.ptr ≠ none) (hl : l.kind.collapsed = false)
    (hr : r.kind.collapsed = false) : intersect S wl wr th l r = intersectScalar l r := by
  unfold intersect
  rw [if_neg (by rw [← hp]; simp [hpn]), if_neg (by simp [hp])]
  simp [hl, hr]

theorem intersect_collapsed {S : Solver} {wl wr : Bool} {th : Nat} {l r : Loc}
    (hp : l.ptr = r.ptr) (hpn : l.ptr ≠ none) (hl : l.kind.collapsed = true)
    (hr : r.kind.collapsed = true) :
    intersect S wl wr th l r =
      if l.dims.length ≠ r.dims.length then (.unknown, [], []) else
      if l.lower = r.lower ∧ l.upper = r.upper ∧ l.dims = r.dims then (.exact l, [], []) else
      match intersectDimsFrom S wl wr th [] [] l.dims r.dims [] [] [] with
      | (res, lc, rc) =>
        match res with
        | .ub => (.ub, lc.map fun ds => { l with dims := ds }, rc.map fun ds => { r with dims := ds })
        | .empty => (.none, lc.map fun ds => { l with dims := ds },
            rc.map fun ds => { r with dims := ds })
        | .unknown => (.unknown, lc.map fun ds => { l with dims := ds },
            rc.map fun ds => { r with dims := ds })
        | .ok ds => (.exact { l with dims := ds }, lc.map fun ds => { l with dims := ds },
            rc.map fun ds => { r with dims := ds }) := by
  unfold intersect
  rw [if_neg (by rw [← hp]; simp [hpn]), if_neg (by simp [hp])]
  simp only [hl, hr, not_true, false_and, if_false, or_self]
  rfl

theorem intersect_arrays {S : Solver} (hS : SolverOK S) {wl wr : Bool} {th : Nat} {l r : Loc}
    {e : Nat} (hp : l.ptr = r.ptr) (hpn : l.ptr ≠ none) (hl : l.IsArray e) (hr : r.IsArray e)
    (hsz : l.dims.map Dim.size = r.dims.map Dim.size) :
    IntersectSpec l r wl wr (intersect S wl wr th l r) := by
  have hlen : l.dims.length = r.dims.length := by
    have := congrArg List.length hsz; simpa using this
  have hcl := hl.1
  have hcr := hr.1
  rw [intersect_collapsed hp hpn hcl hcr, if_neg (by simp [hlen])]
  have hbl : ∀ b, l.Byte b ↔ ByteOf l.dims e (DimsMem l.dims) b := array_byte hl
  have hbr : ∀ b, r.Byte b ↔ ByteOf l.dims e (DimsMem r.dims) b :=
    fun b => array_byte_of hr hsz.symm b
  have hinl : ∀ v, DimsMem l.dims v → InBox l.dims v := fun v => arr_inBox hl
  have hinr : ∀ v, DimsMem r.dims v → InBox l.dims v :=
    fun v hv => inBox_of_mem hsz.symm hl.2.2.2.2.1 hr.2.2.2.2.2.2 hv
  by_cases heq : l.lower = r.lower ∧ l.upper = r.upper ∧ l.dims = r.dims
  · rw [if_pos heq]
    have hbe : ∀ b, l.Byte b ↔ r.Byte b := by
      intro b; rw [hbl, hbr, heq.2.2]
    refine ⟨rfl, fun b => ?_, fun _ b => ?_, fun _ b => ?_⟩
    · rw [hbe b]; simp
    · simp [hbe b]
    · simp [hbe b]
  rw [if_neg heq]
  rcases intersectDimsFrom_spec hS wl wr th l.dims r.dims [] [] [] [] [] hl.2.2.2.2.2.1
    hr.2.2.2.2.2.1 hlen with h | ⟨h, hno⟩ | ⟨ds, tl, tr, h, hm, hsh, _, hshl, hshr, hL, hR⟩
  · rcases hq : intersectDimsFrom S wl wr th [] [] l.dims r.dims [] [] [] with ⟨q, lc, rc⟩
    rw [hq] at h
    simp only at h
    subst h
    trivial
  · rcases hq : intersectDimsFrom S wl wr th [] [] l.dims r.dims [] [] [] with ⟨q, lc, rc⟩
    rw [hq] at h
    simp only at h
    subst h
    intro b
    rw [hbl, hbr, ← byteOf_and hinl hinr]
    rintro ⟨v, hv, _⟩
    exact hno v hv
  · rw [h]
    simp only [List.nil_append]
    refine ⟨rfl, fun b => ?_, fun hw b => ?_, fun hw b => ?_⟩
    · rw [hbl, hbr, ← byteOf_and hinl hinr, array_byte_of hl hsh.1]
      exact byteOf_congr hm b
    · have hdiff : ∀ b, l.Byte b ∧ ¬ r.Byte b ↔
          ByteOf l.dims e (fun v => DimsMem l.dims v ∧ ¬ DimsMem r.dims v) b := by
        intro b; rw [hbl, hbr, byteOf_diff hinl hinr]
      rw [hdiff]
      simp only [List.map_map, List.mem_map, exists_exists_and_eq_and, Function.comp_def]
      constructor
      · rintro ⟨t, ht, hb⟩
        rw [array_byte_of hl (hshl t ht).1] at hb
        obtain ⟨v, hv, o, ho, rfl⟩ := hb
        have := (hL hw v).1 ⟨t, ht, hv⟩
        exact ⟨v, ⟨this.1, fun hn => this.2 ((hm v).2 ⟨this.1, hn⟩)⟩, o, ho, rfl⟩
      · rintro ⟨v, ⟨h1, h2⟩, o, ho, rfl⟩
        obtain ⟨t, ht, hv⟩ := (hL hw v).2 ⟨h1, fun hn => h2 ((hm v).1 hn).2⟩
        exact ⟨t, ht, (array_byte_of hl (hshl t ht).1 _).2 ⟨v, hv, o, ho, rfl⟩⟩
    · have hdiff : ∀ b, r.Byte b ∧ ¬ l.Byte b ↔
          ByteOf l.dims e (fun v => DimsMem r.dims v ∧ ¬ DimsMem l.dims v) b := by
        intro b; rw [hbl, hbr, byteOf_diff hinr hinl]
      rw [hdiff]
      simp only [List.map_map, List.mem_map, exists_exists_and_eq_and, Function.comp_def]
      constructor
      · rintro ⟨t, ht, hb⟩
        rw [array_byte_of hr ((hshr t ht).1.trans hsz.symm)] at hb
        obtain ⟨v, hv, o, ho, rfl⟩ := hb
        have := (hR hw v).1 ⟨t, ht, hv⟩
        exact ⟨v, ⟨this.1, fun hn => this.2 ((hm v).2 ⟨hn, this.1⟩)⟩, o, ho, rfl⟩
      · rintro ⟨v, ⟨h1, h2⟩, o, ho, rfl⟩
        obtain ⟨t, ht, hv⟩ := (hR hw v).2 ⟨h1, fun hn => h2 ((hm v).1 hn).1⟩
        exact ⟨t, ht, (array_byte_of hr ((hshr t ht).1.trans hsz.symm) _).2 ⟨v, hv, o, ho, rfl⟩⟩

theorem intersectSpec_congr {l r l' r' : Loc} {wl wr : Bool} (hp : l'.ptr = l.ptr)
    (hl : ∀ b, l'.Byte b ↔ l.Byte b) (hr : ∀ b, r'.Byte b ↔ r.Byte b)
    {q : Res × List Loc × List Loc} (h : IntersectSpec l' r' wl wr q) :
    IntersectSpec l r wl wr q := by
  obtain ⟨q, lc, rc⟩ := q
  cases q <;> simp only [IntersectSpec, hl, hr, hp] at h ⊢ <;> exact h

theorem IsScalar.not_coll {l : Loc} (h : l.IsScalar) : l.kind.collapsed = false := h.1

/-- C04. For compatible locations with the same base `intersect` meets its documentation in
terms of bytes: for byte ranges, for multi-dimensional strided ranges of any number of
dimensions and for mixtures of both. -/
theorem intersect_exact (S : Solver) (hS : SolverOK S) (wl wr : Bool) (th : Nat) (l r : Loc)
    (hp : l.ptr = r.ptr) (hpn : l.ptr ≠ none) (hc : Compatible l r) :
    IntersectSpec l r wl wr (intersect S wl wr th l r) := by
  cases hc with
  | scalars hl hr =>
    have h := (intersectScalar_exact l r hl hr hp).1
    rw [intersect_scalars hp hpn hl.1 hr.1]
    rcases hq : intersectScalar l r with ⟨q, lc, rc⟩
    rw [hq] at h
    cases q <;> simp only [IntersectSpec] at h ⊢
    · exact h
    · exact ⟨h.1, h.2.1, fun _ => h.2.2.1 trivial, fun _ => h.2.2.2 trivial⟩
  | arrays e hl hr hsz => exact intersect_arrays hS hp hpn hl hr hsz
  | arrayScalar e up hl hr hup hfit =>
    obtain ⟨r', hr', h⟩ := delinearize_spec hl hr fun u hu => by
      rw [hup] at hu; obtain rfl := Option.some.inj hu; exact hfit
    by_cases hnc : r.kind.nonCollapsable
    · unfold intersect
      rw [if_neg (by rw [← hp]; simp [hpn]), if_neg (by simp [hp])]
      simp [hl.1, hr.1, hnc, IntersectSpec]
    rcases h with rfl | ⟨harr, hsz, hptr, hb⟩
    · unfold intersect
      rw [if_neg (by rw [← hp]; simp [hpn]), if_neg (by simp [hp])]
      simp [hl.1, hr.1, hnc, hr', IntersectSpec]
    · have h2 := intersect_arrays hS (wl := wl) (wr := wr) (th := th)
        (hp.trans hptr.symm) hpn hl harr hsz.symm
      have : intersect S wl wr th l r = intersect S wl wr th l r' := by
        unfold intersect
        simp [hl.1, hr.1, hnc, hr', harr.1, hptr]
      rw [this]
      exact intersectSpec_congr rfl (fun _ => Iff.rfl) hb h2
  | scalarArray e up hl hr hup hfit =>
    obtain ⟨l', hl', h⟩ := delinearize_spec hr hl fun u hu => by
      rw [hup] at hu; obtain rfl := Option.some.inj hu; exact hfit
    by_cases hnc : l.kind.nonCollapsable
    · unfold intersect
      rw [if_neg (by rw [← hp]; simp [hpn]), if_neg (by simp [hp])]
      simp [hl.1, hr.1, hnc, IntersectSpec]
    rcases h with rfl | ⟨harr, hsz, hptr, hb⟩
    · unfold intersect
      rw [if_neg (by rw [← hp]; simp [hpn]), if_neg (by simp [hp])]
      simp [hl.1, hr.1, hnc, hl', IntersectSpec]
    · have h2 := intersect_arrays hS (wl := wl) (wr := wr) (th := th)
        (hptr.trans hp) (hptr ▸ hpn) harr hr hsz
      have : intersect S wl wr th l r = intersect S wl wr th l' r := by
        unfold intersect
        simp [hl.1, hr.1, hnc, hl', harr.1, hptr]
      rw [this]
      exact intersectSpec_congr hptr hb (fun _ => Iff.rfl) h2

/-- C04. Different base pointers: never an intersection. -/
theorem intersect_other_base (S : Solver) (wl wr : Bool) (th : Nat) (l r : Loc)
    (h1 : l.ptr ≠ none) (h2 : r.ptr ≠ none) (h : l.ptr ≠ r.ptr) :
    intersect S wl wr th l r = (.none, [], []) := by
  unfold intersect
  rw [if_neg (by simp [h1, h2]), if_pos h]

/-- C04. When complements are not requested, the intersection of arrays of the same shape is
always computed exactly. -/
theorem intersect_known (S : Solver) (hS : SolverOK S) (th e : Nat) (l r : Loc)
    (hp : l.ptr = r.ptr) (hpn : l.ptr ≠ none) (hl : l.IsArray e) (hr : r.IsArray e)
    (hsz : l.dims.map Dim.size = r.dims.map Dim.size) :
    (intersect S false false th l r).1 ≠ .unknown := by
  have hlen : l.dims.length = r.dims.length := by
    have := congrArg List.length hsz; simpa using this
  rw [intersect_collapsed hp hpn hl.1 hr.1, if_neg (by simp [hlen])]
  have h := intersectDimsFrom_known hS th l.dims r.dims [] [] [] [] [] hl.2.2.2.2.2.1
    hr.2.2.2.2.2.1 hsz
  split
  · simp
  · rcases hq : intersectDimsFrom S false false th [] [] l.dims r.dims [] [] [] with ⟨q, lc, rc⟩
    rw [hq] at h
    cases q <;> simp_all

/-- Element kind of collapsed (array) locations. -/
def Kind.coll : Kind := ⟨false, true, false⟩

/-- Non-vacuity: rows `0..3` of `A[10][20]` against `[80*2, 80*5)` bytes (rows 2, 3, 4). -/
example : Compatible ⟨some 1, some 0, some 4, [⟨0, 1, 4, 10⟩, ⟨0, 1, 20, 20⟩], Kind.coll⟩
      ⟨some 1, some 160, some 400, [], Kind.default⟩ ∧
    intersect refSolver true true 10
      ⟨some 1, some 0, some 4, [⟨0, 1, 4, 10⟩, ⟨0, 1, 20, 20⟩], Kind.coll⟩
      ⟨some 1, some 160, some 400, [], Kind.default⟩ =
      (.exact ⟨some 1, some 0, some 4, [⟨2, 1, 2, 10⟩, ⟨0, 1, 20, 20⟩], Kind.coll⟩,
       [⟨some 1, some 0, some 4, [⟨0, 1, 2, 10⟩, ⟨0, 1, 20, 20⟩], Kind.coll⟩],
       [⟨some 1, some 0, some 4, [⟨4, 1, 1, 10⟩, ⟨0, 1, 20, 20⟩], Kind.coll⟩]) := by
  refine ⟨.arrayScalar 4 400 ⟨rfl, rfl, rfl, by decide +kernel, by decide +kernel, ?_, ?_⟩
    ⟨rfl, 160, 400, rfl, rfl⟩ rfl ?_, by decide +kernel⟩
  · simp [Dim.Wf]
  · simp [Dim.last]
  · exact ⟨by decide +kernel, by decide +kernel, by decide +kernel, _, _, rfl, Or.inr (by decide +kernel)⟩

/-! ## C05: the complements and the absence of intersection -/

/-- C05 is false: the first dimensions intersect (and a piece is added to the complement of the
left location), the second ones do not; the answer is 'none' but both lists were changed
despite the documentation (MemoryLocationRange.h:195). -/
theorem intersect_complement_untouched_fails :
    ¬ ∀ (S : Solver), SolverOK S → ∀ (l r : Loc) (th : Nat), l.ptr = r.ptr → l.ptr ≠ none →
      Compatible l r → (intersect S true true th l r).1 = .none →
      (intersect S true true th l r).2 = ([], []) := by
  intro h
  have := h refSolver refSolver_ok
    ⟨some 1, some 0, some 4, [⟨0, 1, 4, 10⟩, ⟨0, 1, 5, 20⟩], Kind.coll⟩
    ⟨some 1, some 0, some 4, [⟨2, 1, 4, 10⟩, ⟨10, 1, 5, 20⟩], Kind.coll⟩ 10 rfl (by decide +kernel)
    (.arrays 4 ⟨rfl, rfl, rfl, by decide +kernel, by decide +kernel, by simp [Dim.Wf], by simp [Dim.last]⟩
      ⟨rfl, rfl, rfl, by decide +kernel, by decide +kernel, by simp [Dim.Wf], by simp [Dim.last]⟩ rfl)
    (by decide +kernel)
  revert this
  decide +kernel

/-- C05, the part which holds: the lists are not changed if there is no intersection of byte
ranges or of arrays with one dimension. Missing: several dimensions (see `_fails`). -/
theorem intersect_complement_untouched_partial (S : Solver) (l r : Loc) (th : Nat)
    (h1 : l.kind.collapsed = false ∧ r.kind.collapsed = false ∨
      (l.kind.collapsed = true ∧ r.kind.collapsed = true ∧ l.dims.length = 1))
    (h : (intersect S true true th l r).1 = .none) :
    (intersect S true true th l r).2 = ([], []) := by
  by_cases hn : l.ptr = none ∨ r.ptr = none
  · unfold intersect; rw [if_pos hn]
  by_cases hpp : l.ptr = r.ptr
  swap
  · unfold intersect; rw [if_neg hn, if_pos hpp]
  have hln : l.ptr ≠ none := fun e => hn (Or.inl e)
  rcases h1 with ⟨ha, hb⟩ | ⟨ha, hb, hd⟩
  · rw [intersect_scalars hpp hln ha hb] at h ⊢
    unfold intersectScalar at h ⊢
    rw [if_neg (by simp [hpp]), if_neg (by simp [ha, hb])] at h ⊢
    cases hll : l.lower <;> cases hlu : l.upper <;> cases hrl : r.lower <;>
      cases hru : r.upper <;> simp only [hll, hlu, hrl, hru] at h ⊢ <;> split at h <;>
      simp_all
    rw [if_neg (by omega)]
  · rw [intersect_collapsed hpp hln ha hb] at h ⊢
    by_cases hlen : l.dims.length ≠ r.dims.length
    · rw [if_pos hlen]
    rw [if_neg hlen] at h ⊢
    by_cases hne : l.lower = r.lower ∧ l.upper = r.upper ∧ l.dims = r.dims
    · rw [if_pos hne]
    rw [if_neg hne] at h ⊢
    obtain ⟨d, hd⟩ := List.length_eq_one_iff.1 hd
    obtain ⟨d', hd'⟩ := List.length_eq_one_iff.1 (by rw [hd] at hlen; simpa using Eq.symm (not_not.1 hlen) :
      r.dims.length = 1)
    rw [hd, hd'] at h ⊢
    simp only [intersectDimsFrom] at h ⊢
    cases hx : dimIntersect S d d' with
    | ub => simp [hx] at h
    | empty => simp
    | unknown => simp [hx] at h
    | ok q =>
      simp only [hx] at h ⊢
      cases hy : compl true d q th with
      | none => simp [hy] at h
      | some cl =>
        simp only [hy] at h ⊢
        cases hz : compl true d' q th with
        | none => simp [hz] at h
        | some cr => simp [hz] at h

/-- Non-vacuity: disjoint one-dimensional arrays. -/
example : (intersect refSolver true true 10
    ⟨some 1, some 0, some 4, [⟨0, 2, 5, 10⟩], Kind.coll⟩
    ⟨some 1, some 0, some 4, [⟨1, 2, 5, 10⟩], Kind.coll⟩).1 = .none := by decide +kernel

/-! ## C54: delinearization -/

/-- C54. A byte range is either left as it is or converted to an array range with the same
bytes, if the range lies inside of the array. -/
theorem delinearize_bytes (a w : Loc) (e up : Nat) (ha : a.IsArray e) (hw : w.IsScalar)
    (hup : w.upper = some up) (hfit : FitsIn a e up) :
    ∃ w', delinearize a w = some w' ∧ w'.ptr = w.ptr ∧ ∀ b, w'.Byte b ↔ w.Byte b := by
  obtain ⟨w', h, h'⟩ := delinearize_spec ha hw fun u hu => by
    rw [hup] at hu; obtain rfl := Option.some.inj hu; exact hfit
  refine ⟨w', h, ?_⟩
  rcases h' with rfl | ⟨_, _, h1, h2⟩
  · exact ⟨rfl, fun _ => Iff.rfl⟩
  · exact ⟨h1, h2⟩

/-- Non-vacuity: bytes `[12, 36)` of `int A[4][3]` are rows 1 and 2. -/
example : delinearize ⟨some 1, some 0, some 4, [⟨0, 1, 1, 4⟩, ⟨0, 1, 1, 3⟩], Kind.coll⟩
    ⟨some 1, some 12, some 36, [], Kind.default⟩ =
    some ⟨some 1, some 0, some 4, [⟨1, 1, 2, 4⟩, ⟨0, 1, 3, 3⟩], Kind.coll⟩ := by decide +kernel

/-- C54 fails if the byte range is not inside of the array: elements 8..11 of an array with 10
elements are converted to a range with an enormous (wrapped) trip count. -/
theorem delinearize_out_of_bounds_fails :
    ¬ ∀ (a w : Loc) (e : Nat), a.IsArray e → w.IsScalar → ∀ w', delinearize a w = some w' →
      ∀ b, w'.Byte b ↔ w.Byte b := by
  intro h
  have := h ⟨some 1, some 0, some 4, [⟨0, 1, 1, 10⟩], Kind.coll⟩
    ⟨some 1, some 32, some 48, [], Kind.default⟩ 4
    ⟨rfl, rfl, rfl, by decide +kernel, by decide +kernel, by simp [Dim.Wf], by simp⟩
    ⟨rfl, 32, 48, rfl, rfl⟩ _ rfl 60
  have h2 : (⟨some 1, some 32, some 48, [], Kind.default⟩ : Loc).Byte 60 := by
    apply this.1
    refine ⟨[15], ⟨⟨7, by decide +kernel, rfl⟩, trivial⟩, 0, by decide +kernel, rfl⟩
  have h3 : 32 ≤ 60 ∧ 60 < 48 := h2
  omega

/-! ## C55: arrays viewed with different shapes -/

/-- C55 is false: two views of the same memory with different shapes. Sizes of the first
dimension are equal, sizes of the second one are not. Row 1 of `A[10][20]` and row 0 of
`A[10][30]` overlap (elements 20..29) but the answer is 'none' because the first dimensions
are compared before the sizes of the second ones. -/
theorem intersect_shape_mismatch_fails :
    ¬ ∀ (S : Solver), SolverOK S → ∀ (l r : Loc) (th e : Nat), l.ptr = r.ptr → l.ptr ≠ none →
      l.IsArray e → r.IsArray e → (intersect S true true th l r).1 = .none →
      ∀ b, ¬ (l.Byte b ∧ r.Byte b) := by
  intro h
  have := h refSolver refSolver_ok
    ⟨some 1, some 0, some 4, [⟨1, 1, 1, 10⟩, ⟨0, 1, 20, 20⟩], Kind.coll⟩
    ⟨some 1, some 0, some 4, [⟨0, 1, 1, 10⟩, ⟨0, 1, 30, 30⟩], Kind.coll⟩ 10 4 rfl (by decide +kernel)
    ⟨rfl, rfl, rfl, by decide +kernel, by decide +kernel, by simp [Dim.Wf], by simp [Dim.last]⟩
    ⟨rfl, rfl, rfl, by decide +kernel, by decide +kernel, by simp [Dim.Wf], by simp [Dim.last]⟩
    (by decide +kernel) 80
  apply this
  constructor
  · exact ⟨[1, 0], ⟨⟨0, by decide +kernel, rfl⟩, ⟨0, by decide +kernel, rfl⟩, trivial⟩, 0, by decide +kernel, rfl⟩
  · exact ⟨[0, 20], ⟨⟨0, by decide +kernel, rfl⟩, ⟨20, by decide +kernel, rfl⟩, trivial⟩, 0, by decide +kernel, rfl⟩

/-- C55, the part which holds: 'none' is sound if shapes are the same. Missing: different
shapes (see `_fails`). -/
theorem intersect_same_shape_none_partial (S : Solver) (hS : SolverOK S) (wl wr : Bool)
    (th e : Nat) (l r : Loc) (hp : l.ptr = r.ptr) (hpn : l.ptr ≠ none) (hl : l.IsArray e)
    (hr : r.IsArray e) (hsz : l.dims.map Dim.size = r.dims.map Dim.size)
    (h : (intersect S wl wr th l r).1 = .none) (b : Nat) : ¬ (l.Byte b ∧ r.Byte b) := by
  have := intersect_arrays hS (wl := wl) (wr := wr) (th := th) hp hpn hl hr hsz
  rcases hq : intersect S wl wr th l r with ⟨q, lc, rc⟩
  rw [hq] at h this
  simp only at h
  subst h
  exact this b

end Tsar.Range
