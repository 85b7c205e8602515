import Verif.DepTest.Banerjee
/-!
# Tests of a pair of subscripts

`lib/Analysis/Memory/DependenceAnalysis.cpp`: `classifyPair`, `testSIV`, `testRDIV`, `testMIV`.
-/

namespace Tsar.DepTest

variable {S L Env : Type}

/-- `Subscript::ClassificationKind`, DependenceAnalysis.h:405.  `NonLinear` is a kind of subscripts,
see `Subscript` in `Depends.lean`. -/
inductive Class
  | ZIV | SIV | RDIV | MIV
  deriving DecidableEq, Repr

/-- Number of different elements (`SmallBitVector::count`). -/
def count [DecidableEq L] (l : List L) : Nat := l.dedup.length

/-- The last part of `classifyPair`, DependenceAnalysis.cpp:1041-1052, for linear subscripts. -/
def classify [DecidableEq L] (src dst : Sub S L) : Class :=
  let n := count (src.loops ++ dst.loops)
  if n = 0 then .ZIV
  else if n = 1 then .SIV
  else if n = 2 ∧ (count src.loops = 0 ∨ count dst.loops = 0 ∨
      (count src.loops = 1 ∧ count dst.loops = 1)) then .RDIV
  else .MIV

/-- Effects of a test of a pair of subscripts: the returned value, the direction vector, the flag
`Consistent`, the value assigned to `NewConstraint` and the value assigned to `Level` (`none` if a
variable is left as it was). -/
structure Res (S L : Type) where
  indep : Bool
  dv : L → Dv S
  consistent : Bool
  con : Option (Con S)
  level : Option L

/-- The direction vector with a new entry for a level. -/
def setDv [DecidableEq L] (dv : L → Dv S) (l : L) (x : Dv S) : L → Dv S :=
  fun k => if k = l then x else dv k

/-- Effects of a test of a level. -/
def Out.res [DecidableEq L] (o : Out S) (dv : L → Dv S) (l : L) : Res S L :=
  ⟨o.indep, setDv dv l o.dv, o.consistent, o.con, some l⟩

/-- `… || gcdMIVtest(Src, Dst, Result)`. -/
def Res.gcd [DecidableEq L] (se : SE S L Env) (src dst : Sub S L) (common : L → Bool) (r : Res S L) :
    Option (Res S L) :=
  if r.indep then some r
  else (gcdMIV se src dst common r.dv).map fun g => { r with indep := g.1, dv := g.2 }

/-- `testSIV`, DependenceAnalysis.cpp:2274-2343; `none` is a division by zero or
`llvm_unreachable`.  `inNest` tells that loops of recurrences contain the accesses
(`InCommonNest`), `w + 1` is the number of bits. -/
def testSIV [DecidableEq L] (se : SE S L Env) (w : Nat) (inNest : Bool) (common : L → Bool)
    (src dst : Sub S L) (dv : L → Dv S) (consistent : Bool) : Option (Res S L) :=
  if !inNest then some ⟨false, dv, consistent, none, none⟩
  else match src, dst with
  | .addRec (.base c1) a1 l, .addRec (.base c2) a2 _ =>
    let first :=
      if se.same a1 a2 then some ((strongSIV se a1 c1 c2 l (dv l) consistent).res dv l)
      else if se.same a1 (se.neg a2) then some ((weakCrossing se a1 c1 c2 l (dv l)).res dv l)
      else (exactSIV se w a1 a2 c1 c2 l (dv l)).map fun o => o.res dv l
    (first.bind (Res.gcd se src dst common)).map fun r =>
      { r with indep := r.indep || symbolicRDIV se a1 a2 c1 c2 l l }
  | .addRec (.base c1) a1 l, .base c2 =>
    Res.gcd se src dst common ((weakZeroDst se a1 c1 c2 l (common l) (dv l)).res dv l)
  | .base c1, .addRec (.base c2) a2 l =>
    Res.gcd se src dst common ((weakZeroSrc se a2 c1 c2 l (common l) (dv l)).res dv l)
  | _, _ => none

/-- The last statement of `testRDIV`, DependenceAnalysis.cpp:2410-2417. -/
def rdivRest [DecidableEq L] (se : SE S L Env) (w : Nat) (common : L → Bool) (src dst : Sub S L)
    (dv : L → Dv S) (consistent : Bool) (a1 a2 c1 c2 : S) (l1 l2 : L) : Option (Res S L) :=
  (((exactRDIV se w a1 a2 c1 c2 l1 l2).map fun b => (⟨b, dv, consistent, none, none⟩ : Res S L)).bind
    (Res.gcd se src dst common)).map fun r =>
      { r with indep := r.indep || symbolicRDIV se a1 a2 c1 c2 l1 l2 }

/-- `testRDIV`, DependenceAnalysis.cpp:2358-2418. -/
def testRDIV [DecidableEq L] (se : SE S L Env) (w : Nat) (common : L → Bool) (src dst : Sub S L)
    (dv : L → Dv S) (consistent : Bool) : Option (Res S L) :=
  match src, dst with
  | .addRec (.base c1) a1 l1, .addRec (.base c2) a2 l2 =>
    rdivRest se w common src dst dv consistent a1 a2 c1 c2 l1 l2
  | .addRec (.addRec (.base c1) a1 l1) a2 l2, .base c2 =>
    rdivRest se w common src dst dv consistent a1 (se.neg a2) c1 c2 l1 l2
  | .base c1, .addRec (.addRec (.base c2) a2 l2) a1 l1 =>
    rdivRest se w common src dst dv consistent (se.neg a1) a2 c1 c2 l1 l2
  | _, _ => none

/-- `testMIV`, DependenceAnalysis.cpp:2424-2433. -/
def testMIV [DecidableEq L] (se : SE S L Env) (all commonList : List L) (common : L → Bool)
    (src dst : Sub S L) (loops : L → Bool) (dv : L → Dv S) : Option (Res S L) :=
  (gcdMIV se src dst common dv).map fun g =>
    if g.1 then ⟨true, g.2, false, none, none⟩
    else
      let b := banerjee se src dst all commonList loops g.2
      ⟨b.1, b.2, false, none, none⟩

/-! ## Soundness -/

/-- Effects of a test of a pair of subscripts agree with a pair of iteration vectors for which the
subscripts are equal. -/
structure SE.SoundRes (se : SE S L Env) (e : Env) (common : L → Bool) (r : Res S L) (I J : L → Int) :
    Prop where
  indep : r.indep = false
  dv : se.CoversAll e common r.dv I J
  con : ∀ c l, r.con = some c → r.level = some l → se.Sat e c (I l) (J l)

/-- The pair of subscripts is suitable for `testSIV`: recurrences belong to the same loop,
coefficients are not zero, the sign of a common coefficient is recognised, coefficients of
the exact test have no common divisor and the iterations are not far from the solution it finds. -/
def SE.SivOk (se : SE S L Env) (w : Nat) (e : Env) (I : L → Int) : Sub S L → Sub S L → Prop
  | .addRec (.base c1) a1 l, .addRec (.base c2) a2 l' =>
    l = l' ∧ se.val a1 e ≠ 0 ∧ se.val a2 e ≠ 0 ∧
    (se.same a1 a2 = true → se.knownNonNeg a1 = true ∨ se.val a1 e ≤ 0) ∧
    (se.same a1 a2 = false → se.same a1 (se.neg a2) = false →
      se.val a1 e ≠ se.val a2 e ∧ Int.gcd (se.val a1 e) (se.val a2 e) = 1 ∧
      Fits w (se.val a1 e) (se.val a2 e) (se.val c2 e - se.val c1 e) (I l))
  | .addRec (.base _) a _, .base _ => se.val a e ≠ 0
  | .base _, .addRec (.base _) a _ => se.val a e ≠ 0
  | _, _ => False

/-- The pair of subscripts is suitable for `testRDIV`. -/
def SE.RdivOk (se : SE S L Env) (w : Nat) (e : Env) (I J : L → Int) : Sub S L → Sub S L → Prop
  | .addRec (.base c1) a1 l1, .addRec (.base c2) a2 _ =>
    se.val a1 e ≠ 0 ∧ se.val a2 e ≠ 0 ∧
      Fits w (se.val a1 e) (se.val a2 e) (se.val c2 e - se.val c1 e) (I l1)
  | .addRec (.addRec (.base c1) a1 l1) a2 _, .base c2 =>
    se.val a1 e ≠ 0 ∧ se.val a2 e ≠ 0 ∧
      Fits w (se.val a1 e) (-se.val a2 e) (se.val c2 e - se.val c1 e) (I l1)
  | .base c1, .addRec (.addRec (.base c2) a2 _) a1 l1 =>
    se.val a1 e ≠ 0 ∧ se.val a2 e ≠ 0 ∧
      Fits w (-se.val a1 e) (se.val a2 e) (se.val c2 e - se.val c1 e) (J l1)
  | _, _ => False

/-- At least one of two subscripts really varies. -/
def SE.Varies (se : SE S L Env) (src dst : Sub S L) : Prop :=
  ∃ e I, src.lin se e I ≠ 0 ∨ dst.lin se e I ≠ 0

theorem covers_set [DecidableEq L] {se : SE S L Env} {e : Env} {common : L → Bool} {dv : L → Dv S}
    {I J : L → Int} {l : L} {x : Dv S} (hdv : se.CoversAll e common dv I J)
    (hx : common l = true → se.Covers e l x (I l) (J l)) :
    se.CoversAll e common (setDv dv l x) I J := by
  intro k hk
  unfold setDv
  split
  · rename_i hkl; subst hkl; exact hx hk
  · exact hdv k hk

theorem gcdMIV_varies [DecidableEq L] {se : SE S L Env} (h : se.Laws) (hs : se.SumLaws)
    {src dst : Sub S L} {common : L → Bool} {dv : L → Dv S} {e : Env} {I J : L → Int}
    (hv : se.Varies src dst) (hns : src.loops.Nodup) (hnd : dst.loops.Nodup)
    (heq : src.val se e I = dst.val se e J) (hdv : se.CoversAll e common dv I J) :
    ∃ r, gcdMIV se src dst common dv = some r ∧ r.1 = false ∧ se.CoversAll e common r.2 I J := by
  cases hr : gcdMIV se src dst common dv with
  | none =>
    obtain ⟨e', I', hv⟩ := hv
    have := gcdMIV_defined h hr e' I' I'
    rcases hv with hv | hv
    · exact absurd this.1 hv
    · exact absurd this.2 hv
  | some r => exact ⟨r, rfl, gcdMIV_sound h hs hns hnd heq hdv r hr⟩

theorem Res.gcd_sound [DecidableEq L] {se : SE S L Env} (h : se.Laws) (hs : se.SumLaws)
    {src dst : Sub S L} {common : L → Bool} {r : Res S L} {e : Env} {I J : L → Int}
    (hv : se.Varies src dst) (hns : src.loops.Nodup) (hnd : dst.loops.Nodup)
    (heq : src.val se e I = dst.val se e J) (hr : se.SoundRes e common r I J) :
    ∃ r', Res.gcd se src dst common r = some r' ∧ se.SoundRes e common r' I J ∧ r'.con = r.con ∧
      r'.level = r.level := by
  unfold Res.gcd
  rw [hr.indep, if_neg (by simp)]
  obtain ⟨g, h1, h2, h3⟩ := gcdMIV_varies h hs hv hns hnd heq hr.dv
  rw [h1]
  exact ⟨_, rfl, ⟨h2, h3, hr.con⟩, rfl, rfl⟩

theorem weakZeroRest_dv (se : SE S L Env) (coeff delta : S) (l : L) (dv dv' : Dv S) (con : Con S)
    (d : Dirs) : weakZeroRest se coeff delta l false dv con d =
      { weakZeroRest se coeff delta l false dv' con d with dv := dv } := by
  unfold weakZeroRest
  simp only [Bool.false_eq_true, if_false]
  cases se.const coeff with
  | none => rfl
  | some c =>
    simp only
    generalize (if se.knownNeg coeff = true then se.neg coeff else coeff) = ac
    generalize (if se.knownNeg coeff = true then se.neg delta else delta) = nd
    split
    · rfl
    split
    · rfl
    split
    · rfl
    cases se.const delta <;> rfl

theorem weakZeroDst_dv (se : SE S L Env) (coeff c1 c2 : S) (l : L) (dv dv' : Dv S) :
    weakZeroDst se coeff c1 c2 l false dv =
      { weakZeroDst se coeff c1 c2 l false dv' with dv := dv } := by
  unfold weakZeroDst
  split
  · rfl
  simp only [Bool.false_eq_true, if_false]
  split
  · rfl
  · exact weakZeroRest_dv ..

theorem weakZeroSrc_dv (se : SE S L Env) (coeff c1 c2 : S) (l : L) (dv dv' : Dv S) :
    weakZeroSrc se coeff c1 c2 l false dv =
      { weakZeroSrc se coeff c1 c2 l false dv' with dv := dv } := by
  unfold weakZeroSrc
  split
  · rfl
  simp only [Bool.false_eq_true, if_false]
  split
  · rfl
  · exact weakZeroRest_dv ..

/-- An entry without information. -/
def Dv.top (S : Type) : Dv S := ⟨.all, none, false, false, false⟩

theorem covers_top (se : SE S L Env) (e : Env) (l : L) (i j : Int) :
    se.Covers e l (Dv.top S) i j :=
  ⟨⟨fun _ => rfl, fun _ => rfl, fun _ => rfl⟩, fun d hd => (by cases hd), fun hd => (by cases hd),
    fun hd => (by cases hd)⟩

/-- `testSIV` is sound for suitable subscripts. -/
theorem testSIV_sound [DecidableEq L] {se : SE S L Env} (h : se.Laws) (hs : se.SumLaws) {w : Nat}
    {inNest : Bool} {common : L → Bool} {src dst : Sub S L} {dv : L → Dv S} {cons : Bool} {e : Env}
    {I J : L → Int} (hI : ∀ l, se.Iter e l (I l)) (hJ : ∀ l, se.Iter e l (J l))
    (hcom : ∀ l ∈ src.loops, l ∈ dst.loops → common l = true)
    (hok : se.SivOk w e I src dst) (heq : src.val se e I = dst.val se e J)
    (hdv : se.CoversAll e common dv I J) :
    ∃ r, testSIV se w inNest common src dst dv cons = some r ∧ se.SoundRes e common r I J := by
  cases inNest with
  | false => exact ⟨_, rfl, rfl, hdv, fun c l hc => (by cases hc)⟩
  | true =>
    have hvar : ∀ (x y : Sub S L) (c a : S) (l : L), x = .addRec (.base c) a l → se.val a e ≠ 0 →
        se.Varies x y ∧ se.Varies y x := by
      rintro x y c a l rfl ha
      exact ⟨⟨e, fun _ => 1, .inl (by simpa [Sub.lin] using ha)⟩,
        ⟨e, fun _ => 1, .inr (by simpa [Sub.lin] using ha)⟩⟩
    unfold testSIV
    rw [if_neg (by simp)]
    unfold SE.SivOk at hok
    split at hok
    · rename_i c1 a1 l c2 a2 l'
      obtain ⟨rfl, h1, h2, h3, h4⟩ := hok
      have hcl : common l = true := hcom l (by simp [Sub.loops]) (by simp [Sub.loops])
      have heq' : se.val c1 e + se.val a1 e * I l = se.val c2 e + se.val a2 e * J l := heq
      have hfirst : ∃ o : Out S, (if se.same a1 a2 = true then
            some ((strongSIV se a1 c1 c2 l (dv l) cons).res dv l)
          else if se.same a1 (se.neg a2) = true then
            some ((weakCrossing se a1 c1 c2 l (dv l)).res dv l)
          else (exactSIV se w a1 a2 c1 c2 l (dv l)).map fun o => o.res dv l)
          = some (o.res dv l) ∧ se.Sound e l o (I l) (J l) := by
        split
        · rename_i hsame
          refine ⟨_, rfl, strongSIV_sound h (hI l) (hJ l) h1 (h3 hsame) ?_ (hdv l hcl)⟩
          rw [heq', ← h.same _ _ e hsame]
        · rename_i hns
          split
          · rename_i hsame
            refine ⟨_, rfl, weakCrossing_sound h (hI l) (hJ l) h1 ?_ (hdv l hcl)⟩
            have := h.same _ _ e hsame
            rw [h.neg] at this
            rw [heq']
            have : se.val a2 e = - se.val a1 e := by omega
            rw [this]; ring
          · rename_i hns'
            obtain ⟨g1, g2, g3⟩ := h4 (by simpa using hns) (by simpa using hns')
            obtain ⟨o, ho, hso⟩ := exactSIV_sound h (hI l) (hJ l) h1 h2 g1 g2 g3 heq' (hdv l hcl)
            exact ⟨o, by rw [ho]; rfl, hso⟩
      obtain ⟨o, ho, hso⟩ := hfirst
      have hres : se.SoundRes e common (o.res dv l) I J :=
        ⟨hso.indep, covers_set hdv fun _ => hso.dv, fun c k hc hk => by cases hk; exact hso.con c hc⟩
      obtain ⟨r', h5, h6, h7, h8⟩ := Res.gcd_sound h hs
        (hvar _ _ _ _ _ rfl h1).1 (by simp [Sub.loops]) (by simp [Sub.loops]) heq hres
      simp only [ho, Option.bind_some, h5, Option.map_some]
      refine ⟨_, rfl, ?_, h6.dv, h6.con⟩
      simp only [h6.indep, Bool.false_or]
      exact symbolicRDIV_sound h (hI l) (hJ l) heq'
    · rename_i c1 a1 l c2
      have hres : se.SoundRes e common ((weakZeroDst se a1 c1 c2 l (common l) (dv l)).res dv l) I J := by
        cases hc : common l with
        | true =>
          have hso := weakZeroDst_sound (common := true) (dv := dv l)
            (i := I l) (j := J l) h (hI l) (hJ l) hok heq (hdv l hc)
          exact ⟨hso.indep, covers_set hdv fun _ => hso.dv,
            fun c k hc hk => by cases hk; exact hso.con c hc⟩
        | false =>
          have hso := weakZeroDst_sound (common := false) (dv := Dv.top S)
            (i := I l) (j := J l) h (hI l) (hJ l) hok heq (covers_top ..)
          rw [weakZeroDst_dv se a1 c1 c2 l (dv l) (Dv.top S)]
          exact ⟨hso.indep, covers_set hdv fun hc' => (by rw [hc] at hc'; cases hc'),
            fun c k hc hk => by cases hk; exact hso.con c hc⟩
      obtain ⟨r', h5, h6, h7, h8⟩ := Res.gcd_sound h hs
        (hvar _ (.base c2) _ _ _ rfl hok).1 (by simp [Sub.loops]) (by simp [Sub.loops]) heq hres
      exact ⟨r', h5, h6⟩
    · rename_i c1 c2 a2 l
      have hres : se.SoundRes e common ((weakZeroSrc se a2 c1 c2 l (common l) (dv l)).res dv l) I J := by
        cases hc : common l with
        | true =>
          have hso := weakZeroSrc_sound (common := true) (dv := dv l)
            (i := I l) (j := J l) h (hI l) (hJ l) hok heq (hdv l hc)
          exact ⟨hso.indep, covers_set hdv fun _ => hso.dv,
            fun c k hc hk => by cases hk; exact hso.con c hc⟩
        | false =>
          have hso := weakZeroSrc_sound (common := false) (dv := Dv.top S)
            (i := I l) (j := J l) h (hI l) (hJ l) hok heq (covers_top ..)
          rw [weakZeroSrc_dv se a2 c1 c2 l (dv l) (Dv.top S)]
          exact ⟨hso.indep, covers_set hdv fun hc' => (by rw [hc] at hc'; cases hc'),
            fun c k hc hk => by cases hk; exact hso.con c hc⟩
      obtain ⟨r', h5, h6, h7, h8⟩ := Res.gcd_sound h hs
        (hvar _ (.base c1) _ _ _ rfl hok).2 (by simp [Sub.loops]) (by simp [Sub.loops]) heq hres
      exact ⟨r', h5, h6⟩
    · exact hok.elim

theorem rdivRest_sound [DecidableEq L] {se : SE S L Env} (h : se.Laws) (hs : se.SumLaws) {w : Nat}
    {common : L → Bool} {src dst : Sub S L} {dv : L → Dv S} {cons : Bool} {e : Env}
    {I J : L → Int} {a1 a2 c1 c2 : S} {l1 l2 : L} {i j : Int}
    (hi : se.Iter e l1 i) (hj : se.Iter e l2 j) (h1 : se.val a1 e ≠ 0) (h2 : se.val a2 e ≠ 0)
    (hf : Fits w (se.val a1 e) (se.val a2 e) (se.val c2 e - se.val c1 e) i)
    (heq' : se.val c1 e + se.val a1 e * i = se.val c2 e + se.val a2 e * j)
    (hv : se.Varies src dst) (hns : src.loops.Nodup) (hnd : dst.loops.Nodup)
    (heq : src.val se e I = dst.val se e J) (hdv : se.CoversAll e common dv I J) :
    ∃ r, rdivRest se w common src dst dv cons a1 a2 c1 c2 l1 l2 = some r ∧
      se.SoundRes e common r I J := by
  unfold rdivRest
  rw [exactRDIV_sound h hi hj h1 h2 hf heq']
  obtain ⟨r', h5, h6, h7, h8⟩ := Res.gcd_sound h hs hv hns hnd heq
    (r := ⟨false, dv, cons, none, none⟩) ⟨rfl, hdv, fun c l hc => (by cases hc)⟩
  simp only [Option.map_some, Option.bind_some, h5]
  refine ⟨_, rfl, ?_, h6.dv, h6.con⟩
  simp only [h6.indep, Bool.false_or]
  exact symbolicRDIV_sound h hi hj heq'

/-- `testRDIV` is sound for suitable subscripts. -/
theorem testRDIV_sound [DecidableEq L] {se : SE S L Env} (h : se.Laws) (hs : se.SumLaws) {w : Nat}
    {common : L → Bool} {src dst : Sub S L} {dv : L → Dv S} {cons : Bool} {e : Env}
    {I J : L → Int} (hI : ∀ l, se.Iter e l (I l)) (hJ : ∀ l, se.Iter e l (J l))
    (hns : src.loops.Nodup) (hnd : dst.loops.Nodup)
    (hok : se.RdivOk w e I J src dst) (heq : src.val se e I = dst.val se e J)
    (hdv : se.CoversAll e common dv I J) :
    ∃ r, testRDIV se w common src dst dv cons = some r ∧ se.SoundRes e common r I J := by
  unfold testRDIV
  unfold SE.RdivOk at hok
  split at hok
  · rename_i c1 a1 l1 c2 a2 l2
    obtain ⟨h1, h2, hf⟩ := hok
    exact rdivRest_sound h hs (hI l1) (hJ l2) h1 h2 hf heq
      ⟨e, fun _ => 1, .inl (by simpa [Sub.lin] using h1)⟩ hns hnd heq hdv
  · rename_i c1 a1 l1 a2 l2 c2
    obtain ⟨h1, h2, hf⟩ := hok
    simp only [Sub.loops, List.nodup_cons, List.mem_singleton] at hns
    refine rdivRest_sound h hs (hI l1) (hI l2) h1 (by rw [h.neg]; omega) (by rw [h.neg]; exact hf)
      ?_ ⟨e, fun k => if k = l1 then 1 else 0, .inl ?_⟩ (by simpa [Sub.loops] using hns.1) hnd heq hdv
    · have := heq
      simp only [Sub.val] at this
      rw [h.neg]
      linear_combination this
    · simpa [Sub.lin, hns.1] using h1
  · rename_i c1 c2 a2 l2 a1 l1
    obtain ⟨h1, h2, hf⟩ := hok
    simp only [Sub.loops, List.nodup_cons, List.mem_singleton] at hnd
    refine rdivRest_sound h hs (hJ l1) (hJ l2) (by rw [h.neg]; omega) h2 (by rw [h.neg]; exact hf)
      ?_ ⟨e, fun k => if k = l2 then 1 else 0, .inr ?_⟩ hns (by simpa [Sub.loops] using hnd.1) heq hdv
    · have := heq
      simp only [Sub.val] at this
      rw [h.neg]
      linear_combination this
    · simpa [Sub.lin, hnd.1] using h2
  · exact hok.elim

/-- `testMIV` is sound. -/
theorem testMIV_sound [DecidableEq L] {se : SE S L Env} (h : se.Laws) (hs : se.SumLaws)
    {all commonList : List L} {common : L → Bool} {src dst : Sub S L} {loops : L → Bool}
    {dv : L → Dv S} {e : Env} {I J : L → Int} (hall : all.Nodup)
    (hns : src.loops.Nodup) (hnd : dst.loops.Nodup)
    (hms : ∀ l ∈ src.loops, l ∈ all) (hmd : ∀ l ∈ dst.loops, l ∈ all)
    (hcom : ∀ k ∈ commonList, common k = true)
    (hI : ∀ l, se.Iter e l (I l)) (hJ : ∀ l, se.Iter e l (J l)) (hv : se.Varies src dst)
    (heq : src.val se e I = dst.val se e J) (hdv : se.CoversAll e common dv I J) :
    ∃ r, testMIV se all commonList common src dst loops dv = some r ∧
      se.SoundRes e common r I J := by
  unfold testMIV
  obtain ⟨g, h1, h2, h3⟩ := gcdMIV_varies h hs hv hns hnd heq hdv
  rw [h1]
  simp only [Option.map_some, h2, Bool.false_eq_true, if_false]
  obtain ⟨b1, b2⟩ := banerjee_sound (loops := loops) h hall hns hnd hms hmd hcom hI hJ heq h3
  exact ⟨_, rfl, b1, b2, fun c l hc => (by cases hc)⟩

end Tsar.DepTest
