import Verif.DepTest.Exact
/-!
# Linear subscripts and the GCD test

`lib/Analysis/Memory/DependenceAnalysis.cpp`: `gcdMIVtest` with its helpers.
-/

namespace Tsar.DepTest

variable {S L Env : Type}

/-- A linear subscript: a chain of `SCEVAddRecExpr` whose steps and the last start do not change in
the considered nest (`checkSrcSubscript`, `checkDstSubscript`, DependenceAnalysis.cpp:936-1011).
Loops are identified with their levels (`mapSrcLoop`, `mapDstLoop`, DependenceAnalysis.cpp:814-827),
see `Levels.lean`. -/
inductive Sub (S L : Type)
  /-- an expression which is not a recurrence -/
  | base (c : S)
  /-- `{start,+,step}<loop>` -/
  | addRec (start : Sub S L) (step : S) (loop : L)

namespace Sub

/-- Loops mentioned in a subscript, from the outermost recurrence of the chain. -/
def loops : Sub S L → List L
  | base _ => []
  | addRec s _ l => l :: s.loops

/-- The constant at the end of the chain. -/
def const : Sub S L → S
  | base c => c
  | addRec s _ _ => s.const

/-- Value of a subscript; `it` gives the numbers of iterations of loops. -/
def val (se : SE S L Env) (e : Env) (it : L → Int) : Sub S L → Int
  | base c => se.val c e
  | addRec s st l => s.val se e it + se.val st e * it l

/-- The sum of products without the constant. -/
def lin (se : SE S L Env) (e : Env) (it : L → Int) : Sub S L → Int
  | base _ => 0
  | addRec s st l => s.lin se e it + se.val st e * it l

/-- Value of the coefficient of a loop (zero if the loop is not mentioned). -/
def coefVal [DecidableEq L] (se : SE S L Env) (e : Env) (cur : L) : Sub S L → Int
  | base _ => 0
  | addRec s st l => if l = cur then se.val st e else s.coefVal se e cur

theorem val_eq (se : SE S L Env) (e : Env) (it : L → Int) (c : Sub S L) :
    c.val se e it = se.val c.const e + c.lin se e it := by
  induction c with
  | base => simp [val, lin, const]
  | addRec s st l ih => simp only [val, lin, const, ih]; ring

theorem coefVal_of_not_mem [DecidableEq L] (se : SE S L Env) (e : Env) {cur : L} {c : Sub S L}
    (h : cur ∉ c.loops) : c.coefVal se e cur = 0 := by
  induction c with
  | base => rfl
  | addRec s st l ih =>
    simp only [loops, List.mem_cons, not_or] at h
    simp only [coefVal, if_neg (Ne.symm h.1), ih h.2]

end Sub

/-- `getConstantPart`, DependenceAnalysis.cpp:2437-2446. -/
def constPart (se : SE S L Env) (x : S) : Option Int :=
  match se.const x with
  | some c => some c
  | none => match se.product x with
    | some (y :: _) => se.const y
    | _ => none

/-- The loops at DependenceAnalysis.cpp:2478-2490 and 2498-2510: the running greatest common divisor
and the constant at the end of the chain; `none` if some coefficient has no constant part. -/
def chainGcd (se : SE S L Env) : Sub S L → Nat → Option (Nat × S)
  | .base c, g => some (g, c)
  | .addRec s st _, g =>
    match constPart se st with
    | none => none
    | some c => chainGcd se s (Nat.gcd g c.natAbs)

/-- The loop over operands of the sum, DependenceAnalysis.cpp:2521-2541: the constant operand and the
greatest common divisor of constant parts of products. -/
def sumParts (se : SE S L Env) : List S → Option Int → Nat → Option (Option Int × Nat)
  | [], c, g => some (c, g)
  | x :: xs, c, g =>
    match se.const x with
    | some v => sumParts se xs (some v) g
    | none =>
      match se.product x with
      | none => none
      | some _ =>
        match constPart se x with
        | none => none
        | some v => sumParts se xs c (Nat.gcd g v.natAbs)

/-- The loops at DependenceAnalysis.cpp:2578-2593 and 2595-2609: the greatest common divisor of all
coefficients except the coefficient of the loop `cur`, and the latter; exploration stops as soon as
the divisor is one. -/
def exceptGcd [DecidableEq L] (se : SE S L Env) (cur : L) : Sub S L → Nat → S → Option (Nat × S)
  | .base _, g, d => some (g, d)
  | .addRec s st l, g, d =>
    if g = 1 then some (g, d)
    else if l = cur then exceptGcd se cur s g st
    else match constPart se st with
      | none => none
      | some c => exceptGcd se cur s (Nat.gcd g c.natAbs) d

/-- "Try to disprove equal directions", DependenceAnalysis.cpp:2568-2640: the loop over the chain of
the source (the first argument is the rest of the chain). -/
def gcdDirs [DecidableEq L] (se : SE S L Env) (src dst : Sub S L) (common : L → Bool) (cd : Int)
    (extra : Nat) : Sub S L → (L → Dv S) → L → Dv S
  | .base _, dv => dv
  | .addRec s st cur, dv =>
    match exceptGcd se cur src extra (se.minus st st) with
    | none => dv
    | some (g1, _) =>
      match exceptGcd se cur dst g1 (se.minus st st) with
      | none => dv
      | some (g2, dstCoeff) =>
        match constPart se (se.minus st dstCoeff) with
        | none => gcdDirs se src dst common cd extra s dv
        | some c =>
          let g := Nat.gcd g2 c.natAbs
          if g ≠ 0 ∧ cd.tmod g ≠ 0 ∧ common cur = true then
            gcdDirs se src dst common cd extra s
              (fun l => if l = cur then { dv l with dir := (dv l).dir.inter .NE } else dv l)
          else gcdDirs se src dst common cd extra s dv

/-- `gcdMIVtest`, DependenceAnalysis.cpp:2466-2645: the returned value and the direction vector;
`none` is a division by zero.  `common` tells that a loop contains both accesses. -/
def gcdMIV [DecidableEq L] (se : SE S L Env) (src dst : Sub S L) (common : L → Bool) (dv : L → Dv S) :
    Option (Bool × (L → Dv S)) :=
  match chainGcd se src 0 with
  | none => some (false, dv)
  | some (g1, c1) =>
    match chainGcd se dst g1 with
    | none => some (false, dv)
    | some (g2, c2) =>
      if !se.nest c1 c2 then some (false, dv)
      else
        let delta := se.minus c2 c1
        let parts := match se.sum delta with
          | some ops => sumParts se ops (se.const delta) 0
          | none => some (se.const delta, 0)
        match parts with
        | none => some (false, dv)
        | some (none, _) => some (false, dv)
        | some (some cd, extra) =>
          if cd = 0 then some (false, dv)
          else
            let g := Nat.gcd g2 extra
            if g = 0 then none
            else if cd.tmod g ≠ 0 then some (true, dv)
            else some (false, gcdDirs se src dst common cd extra src dv)

/-! ## Soundness -/

/-- What `gcdMIVtest` additionally assumes about sums: constants are folded, so a constant is not a
sum, and a sum has at most one constant operand (the function asserts it,
DependenceAnalysis.cpp:2526). -/
structure SE.SumLaws (se : SE S L Env) : Prop where
  constSum : ∀ x l, se.sum x = some l → se.const x = none
  oneConst : ∀ x l, se.sum x = some l → (l.filter fun y => (se.const y).isSome).length ≤ 1

theorem constPart_dvd {se : SE S L Env} (h : se.Laws) {x : S} {c : Int}
    (hc : constPart se x = some c) (e : Env) : c ∣ se.val x e := by
  unfold constPart at hc
  split at hc
  · cases hc; rw [h.const _ _ e (by assumption)]
  · split at hc
    · rename_i y ys hp
      rw [h.product _ _ e hp]
      simp only [List.map_cons, List.foldr_cons]
      rw [h.const _ _ e hc]
      exact Dvd.intro _ rfl
    · cases hc

theorem chainGcd_spec {se : SE S L Env} (h : se.Laws) (c : Sub S L) :
    ∀ (g g' : Nat) (b : S), chainGcd se c g = some (g', b) →
      b = c.const ∧ g' ∣ g ∧ ∀ e it, (g' : Int) ∣ c.lin se e it := by
  induction c with
  | base c => intro g g' b hc; cases hc; exact ⟨rfl, dvd_refl _, fun e it => Int.dvd_zero _⟩
  | addRec s st l ih =>
    intro g g' b hc
    simp only [chainGcd] at hc
    split at hc
    · cases hc
    · rename_i c hcp
      obtain ⟨h1, h2, h3⟩ := ih _ _ _ hc
      refine ⟨h1, h2.trans (Nat.gcd_dvd_left ..), fun e it => ?_⟩
      refine Int.dvd_add (h3 e it) (Dvd.dvd.mul_right ?_ _)
      refine Int.dvd_trans ?_ (constPart_dvd h hcp e)
      have := h2.trans (Nat.gcd_dvd_right ..)
      exact Int.natCast_dvd.2 this

theorem sumParts_spec {se : SE S L Env} (h : se.Laws) (e : Env) : ∀ (l : List S) (c : Option Int)
    (g : Nat) (c' : Option Int) (g' : Nat),
    (l.filter fun y => (se.const y).isSome).length + (if c.isSome then 1 else 0) ≤ 1 →
    sumParts se l c g = some (c', g') →
      g' ∣ g ∧ (g' : Int) ∣ (l.map (se.val · e)).sum + c.getD 0 - c'.getD 0 := by
  intro l
  induction l with
  | nil =>
    intro c g c' g' _ hp
    cases hp
    exact ⟨dvd_refl _, by simp⟩
  | cons x xs ih =>
    intro c g c' g' hl hp
    simp only [sumParts] at hp
    split at hp
    · rename_i v hv
      simp only [List.filter_cons, hv, Option.isSome_some, ↓reduceIte, List.length_cons] at hl
      have hc : c = none := by
        cases c with
        | none => rfl
        | some _ => simp at hl
      subst hc
      obtain ⟨h1, h2⟩ := ih (some v) g c' g' (by simpa using hl) hp
      refine ⟨h1, ?_⟩
      simp only [List.map_cons, List.sum_cons, Option.getD_none, Option.getD_some] at h2 ⊢
      rw [h.const _ _ e hv]
      have : v + (List.map (se.val · e) xs).sum + 0 - c'.getD 0 =
        (List.map (se.val · e) xs).sum + v - c'.getD 0 := by ring
      rw [this]; exact h2
    · rename_i hv
      simp only [List.filter_cons, hv, Option.isSome_none, Bool.false_eq_true, ↓reduceIte] at hl
      split at hp
      · cases hp
      · split at hp
        · cases hp
        · rename_i v hcp
          obtain ⟨h1, h2⟩ := ih c _ c' g' hl hp
          refine ⟨h1.trans (Nat.gcd_dvd_left ..), ?_⟩
          simp only [List.map_cons, List.sum_cons]
          have h3 : (g' : Int) ∣ se.val x e :=
            Int.dvd_trans (Int.natCast_dvd.2 (h1.trans (Nat.gcd_dvd_right ..))) (constPart_dvd h hcp e)
          have := Int.dvd_add h3 h2
          have e1 : se.val x e + (List.map (se.val · e) xs).sum + c.getD 0 - c'.getD 0 =
            se.val x e + ((List.map (se.val · e) xs).sum + c.getD 0 - c'.getD 0) := by ring
          rw [e1]; exact this

theorem exceptGcd_spec [DecidableEq L] {se : SE S L Env} (h : se.Laws) (cur : L) (c : Sub S L) :
    ∀ (g g' : Nat) (d d' : S), c.loops.Nodup → exceptGcd se cur c g d = some (g', d') →
      g' ∣ g ∧ (g' = 1 ∨
        ((∀ e it, (g' : Int) ∣ c.lin se e it - c.coefVal se e cur * it cur) ∧
          ∀ e, se.val d' e = if cur ∈ c.loops then c.coefVal se e cur else se.val d e)) := by
  induction c with
  | base c =>
    intro g g' d d' _ hc
    cases hc
    exact ⟨dvd_refl _, .inr ⟨fun e it => by simp [Sub.lin, Sub.coefVal],
      fun e => by simp [Sub.loops]⟩⟩
  | addRec s st l ih =>
    intro g g' d d' hn hc
    simp only [Sub.loops, List.nodup_cons] at hn
    simp only [exceptGcd] at hc
    split at hc
    · rename_i h1; cases hc; exact ⟨dvd_refl _, .inl h1⟩
    · split at hc
      · rename_i hl
        subst hl
        obtain ⟨h1, h2⟩ := ih _ _ _ _ hn.2 hc
        refine ⟨h1, ?_⟩
        rcases h2 with h2 | ⟨h2, h3⟩
        · exact .inl h2
        · right
          refine ⟨fun e it => ?_, fun e => ?_⟩
          · have := h2 e it
            rw [Sub.coefVal_of_not_mem se e hn.1] at this
            simp only [Sub.lin, Sub.coefVal, ↓reduceIte]
            simpa using this
          · simp only [Sub.loops, List.mem_cons, true_or, ↓reduceIte, Sub.coefVal]
            rw [h3, if_neg hn.1]
      · rename_i hl
        split at hc
        · cases hc
        · rename_i v hcp
          obtain ⟨h1, h2⟩ := ih _ _ _ _ hn.2 hc
          refine ⟨h1.trans (Nat.gcd_dvd_left ..), ?_⟩
          rcases h2 with h2 | ⟨h2, h3⟩
          · exact .inl h2
          · right
            refine ⟨fun e it => ?_, fun e => ?_⟩
            · simp only [Sub.lin, Sub.coefVal, if_neg hl]
              have h4 : (g' : Int) ∣ se.val st e * it l :=
                Dvd.dvd.mul_right (Int.dvd_trans (Int.natCast_dvd.2 (h1.trans (Nat.gcd_dvd_right ..)))
                  (constPart_dvd h hcp e)) _
              have := Int.dvd_add (h2 e it) h4
              have e1 : s.lin se e it + se.val st e * it l - s.coefVal se e cur * it cur =
                s.lin se e it - s.coefVal se e cur * it cur + se.val st e * it l := by ring
              rw [e1]; exact this
            · simp only [Sub.loops, List.mem_cons, Ne.symm hl, false_or, Sub.coefVal, if_neg hl]
              exact h3 e

/-- All entries of a direction vector hold for a pair of iteration vectors. -/
def SE.CoversAll (se : SE S L Env) (e : Env) (common : L → Bool) (dv : L → Dv S) (I J : L → Int) :
    Prop :=
  ∀ l, common l = true → se.Covers e l (dv l) (I l) (J l)

theorem gcdDirs_sound [DecidableEq L] {se : SE S L Env} (h : se.Laws) {src dst : Sub S L}
    {common : L → Bool} {cd : Int} {extra : Nat} {e : Env} {I J : L → Int}
    (hns : src.loops.Nodup) (hnd : dst.loops.Nodup)
    (hx : (extra : Int) ∣ src.lin se e I - dst.lin se e J - cd) (rest : Sub S L) :
    ∀ (dv : L → Dv S), rest.loops.Nodup →
      (∀ l ∈ rest.loops, rest.coefVal se e l = src.coefVal se e l) →
      (∀ l ∈ rest.loops, l ∈ src.loops) →
      se.CoversAll e common dv I J →
      se.CoversAll e common (gcdDirs se src dst common cd extra rest dv) I J := by
  induction rest with
  | base => intro dv _ _ _ hdv; exact hdv
  | addRec s st cur ih =>
    intro dv hn hco hmem hdv
    simp only [Sub.loops, List.nodup_cons] at hn
    have hcur : se.val st e = src.coefVal se e cur := by
      have := hco cur (by simp [Sub.loops])
      simpa [Sub.coefVal] using this
    have hco' : ∀ l ∈ s.loops, s.coefVal se e l = src.coefVal se e l := by
      intro l hl
      have := hco l (by simp [Sub.loops, hl])
      simp only [Sub.coefVal] at this
      rw [if_neg (by rintro rfl; exact hn.1 hl)] at this
      exact this
    have hmem' : ∀ l ∈ s.loops, l ∈ src.loops := fun l hl => hmem l (by simp [Sub.loops, hl])
    simp only [gcdDirs]
    split
    · exact hdv
    · rename_i g1 d1 h1
      split
      · exact hdv
      · rename_i g2 d2 h2
        split
        · exact ih _ hn.2 hco' hmem' hdv
        · rename_i c hc
          split
          · rename_i hg
            obtain ⟨hg0, hgm, hcom⟩ := hg
            refine ih _ hn.2 hco' hmem' fun l hl => ?_
            split
            · rename_i hlc
              subst hlc
              have hc0 := hdv l hl
              refine ⟨Dirs.has_inter.2 ⟨hc0.dir, fun _ => rfl, fun hij => ?_, fun _ => rfl⟩,
                hc0.distance, hc0.first, hc0.last⟩
              exfalso
              apply hgm
              obtain ⟨a1, a2⟩ := exceptGcd_spec h l src _ _ _ _ hns h1
              obtain ⟨b1, b2⟩ := exceptGcd_spec h l dst _ _ _ _ hnd h2
              have hone : g2 = 1 → Nat.gcd g2 c.natAbs = 1 := by rintro rfl; simp
              rcases b2 with b2 | ⟨b2, b3⟩
              · rw [hone b2]; simp
              rcases a2 with a2 | ⟨a2, a3⟩
              · rw [hone (by rw [a2] at b1; exact Nat.dvd_one.1 b1)]; simp
              apply Int.tmod_eq_zero_of_dvd
              have hgg : ((Nat.gcd g2 c.natAbs : Nat) : Int) ∣ (g2 : Int) :=
                Int.natCast_dvd_natCast.2 (Nat.gcd_dvd_left ..)
              have hx' := Int.dvd_trans (Int.dvd_trans hgg
                (Int.dvd_trans (Int.natCast_dvd_natCast.2 b1) (Int.natCast_dvd_natCast.2 a1))) hx
              have ha' := Int.dvd_trans (Int.dvd_trans hgg (Int.natCast_dvd_natCast.2 b1)) (a2 e I)
              have hb' := Int.dvd_trans hgg (b2 e J)
              have hcd : ((Nat.gcd g2 c.natAbs : Nat) : Int) ∣ se.val (se.minus st d2) e :=
                Int.dvd_trans (Int.natCast_dvd.2 (Nat.gcd_dvd_right ..)) (constPart_dvd h hc e)
              have hd2 : se.val d2 e = dst.coefVal se e l := by
                rw [b3]
                split
                · rfl
                · rw [h.minus, Int.sub_self, Sub.coefVal_of_not_mem se e (by assumption)]
              rw [h.minus, hcur, hd2] at hcd
              generalize ((Nat.gcd g2 c.natAbs : Nat) : Int) = g at *
              have hsum := Int.dvd_sub (Int.dvd_add (Int.dvd_sub ha' hb')
                (Dvd.dvd.mul_right hcd (I l))) hx'
              have e1 : src.lin se e I - src.coefVal se e l * I l -
                  (dst.lin se e J - dst.coefVal se e l * J l) +
                  (src.coefVal se e l - dst.coefVal se e l) * I l -
                  (src.lin se e I - dst.lin se e J - cd) = cd := by
                rw [hij]; ring
              rw [e1] at hsum
              exact hsum
            · exact hdv l hl
          · exact ih _ hn.2 hco' hmem' hdv

/-- GCD test: if two accesses collide, the dependence is not disproved and no direction which really
occurs is removed; the only division by zero is possible if all coefficients (and constant parts of
invariant terms) are zero. -/
theorem gcdMIV_sound [DecidableEq L] {se : SE S L Env} (h : se.Laws) (hs : se.SumLaws)
    {src dst : Sub S L} {common : L → Bool} {dv : L → Dv S} {e : Env} {I J : L → Int}
    (hns : src.loops.Nodup) (hnd : dst.loops.Nodup)
    (heq : src.val se e I = dst.val se e J) (hdv : se.CoversAll e common dv I J) :
    ∀ r, gcdMIV se src dst common dv = some r → r.1 = false ∧ se.CoversAll e common r.2 I J := by
  intro r hr
  unfold gcdMIV at hr
  split at hr
  · cases hr; exact ⟨rfl, hdv⟩
  rename_i g1 c1 h1
  split at hr
  · cases hr; exact ⟨rfl, hdv⟩
  rename_i g2 c2 h2
  split at hr
  · cases hr; exact ⟨rfl, hdv⟩
  obtain ⟨rfl, -, a2⟩ := chainGcd_spec h src _ _ _ h1
  obtain ⟨rfl, b1, b2⟩ := chainGcd_spec h dst _ _ _ h2
  rw [Sub.val_eq, Sub.val_eq] at heq
  have hparts : ∀ cd extra, (match se.sum (se.minus dst.const src.const) with
      | some ops => sumParts se ops (se.const (se.minus dst.const src.const)) 0
      | none => some (se.const (se.minus dst.const src.const), 0)) = some (some cd, extra) →
      (extra : Int) ∣ src.lin se e I - dst.lin se e J - cd := by
    intro cd extra hp
    have hd := h.minus dst.const src.const e
    have hl : src.lin se e I - dst.lin se e J = se.val (se.minus dst.const src.const) e := by
      rw [hd]; omega
    rw [hl]
    split at hp
    · rename_i ops ho
      have hc := hs.constSum _ _ ho
      rw [hc] at hp
      have := (sumParts_spec h e ops none 0 _ _ (by simpa using hs.oneConst _ _ ho) hp).2
      rw [h.sum _ _ e ho]
      simpa using this
    · simp only [Option.some.injEq, Prod.mk.injEq] at hp
      obtain ⟨hc, rfl⟩ := hp
      rw [h.const _ _ e hc]; simp
  simp only at hr
  split at hr
  · cases hr; exact ⟨rfl, hdv⟩
  · cases hr; exact ⟨rfl, hdv⟩
  · rename_i cd extra hp
    have hx := hparts _ _ hp
    split at hr
    · cases hr; exact ⟨rfl, hdv⟩
    · split at hr
      · cases hr
      · have hdvd : ((Nat.gcd g2 extra : Nat) : Int) ∣ cd := by
          have hgg : ((Nat.gcd g2 extra : Nat) : Int) ∣ (g2 : Int) :=
            Int.natCast_dvd_natCast.2 (Nat.gcd_dvd_left ..)
          have ha' := Int.dvd_trans (Int.dvd_trans hgg (Int.natCast_dvd_natCast.2 b1)) (a2 e I)
          have hb' := Int.dvd_trans hgg (b2 e J)
          have hx' := Int.dvd_trans (Int.natCast_dvd_natCast.2 (Nat.gcd_dvd_right g2 extra)) hx
          have := Int.dvd_sub (Int.dvd_sub ha' hb') hx'
          simpa using this
        rw [if_neg (by simpa using Int.tmod_eq_zero_of_dvd hdvd)] at hr
        cases hr
        exact ⟨rfl, gcdDirs_sound h hns hnd hx src dv hns (fun _ _ => rfl) (fun _ hl => hl) hdv⟩

/-- The GCD test divides by zero only if neither subscript really varies. -/
theorem gcdMIV_defined [DecidableEq L] {se : SE S L Env} (h : se.Laws)
    {src dst : Sub S L} {common : L → Bool} {dv : L → Dv S}
    (hr : gcdMIV se src dst common dv = none) (e : Env) (I J : L → Int) :
    src.lin se e I = 0 ∧ dst.lin se e J = 0 := by
  unfold gcdMIV at hr
  split at hr
  · cases hr
  rename_i g1 c1 h1
  split at hr
  · cases hr
  rename_i g2 c2 h2
  split at hr
  · cases hr
  obtain ⟨-, -, a2⟩ := chainGcd_spec h src _ _ _ h1
  obtain ⟨-, b1, b2⟩ := chainGcd_spec h dst _ _ _ h2
  simp only at hr
  split at hr
  · cases hr
  · cases hr
  · split at hr
    · cases hr
    · split at hr
      · rename_i hg
        have hg2 : g2 = 0 := Nat.eq_zero_of_gcd_eq_zero_left hg
        subst hg2
        have hg1 : g1 = 0 := Nat.eq_zero_of_zero_dvd b1
        subst hg1
        exact ⟨by simpa using a2 e I, by simpa using b2 e J⟩
      · split at hr <;> cases hr

end Tsar.DepTest
