import Verif.Delin.Props

/-!
# Sizes of dimensions

Property C83.
-/

namespace Tsar
namespace Delin

open Scev

section
variable {E : Se} {eval : E.S → Int} {iter : Nat → Int}

theorem conv_eq {w : Nat} {s : E.S} (h : E.ty s = w) : conv E w s = s := by
  unfold conv
  rw [if_neg (by omega), if_neg (by omega)]

/-- Factors divide the expression and are invariant. -/
theorem invFactors_spec (H : E.Sound eval iter) {loops : List Nat} {g : E.S} {w : Nat} (hw : E.ty g = w) :
    (∀ o ∈ invFactors E loops g, E.ty o = w ∧ ∀ l ∈ loops, E.inv o l = true) ∧
    (invFactors E loops g ≠ [] → ∃ c, eval g ≡ c * ((invFactors E loops g).map eval).prod [ZMOD 2 ^ w]) := by
  unfold invFactors
  split
  · rename_i ops hv
    obtain ⟨t1, t2, t3⟩ := H.mul g ops hv
    have hsub : (ops.filter fun s => loops.all fun l => E.inv s l).Sublist ops := List.filter_sublist
    refine ⟨?_, fun _ => ?_⟩
    · intro o ho
      exact ⟨(t1 o (hsub.subset ho)).trans hw, List.all_eq_true.1 (List.mem_filter.1 ho).2⟩
    · obtain ⟨c, hc⟩ := sublist_prod (eval := eval) hsub
      rw [hw] at t3
      refine ⟨c, t3.trans ?_⟩
      rw [hc, Int.mul_comm]
  · split
    · rename_i hall
      refine ⟨?_, fun _ => ⟨1, by simp⟩⟩
      intro o ho
      rw [List.mem_singleton.1 ho]
      exact ⟨hw, List.all_eq_true.1 hall⟩
    · simp

/-- Invariant factors divide the expression. -/
theorem invariant_spec (H : E.Sound eval iter) {loops : List Nat} {g g' : E.S} {w : Nat} (hw : E.ty g = w)
    (h : invariant E loops g = some g') :
    E.ty g' = w ∧ (∃ c, eval g ≡ c * eval g' [ZMOD 2 ^ w]) ∧ ∀ l ∈ loops, E.inv g' l = true := by
  unfold invariant at h
  split at h
  · rename_i hl
    simp only [Option.some.injEq] at h
    subst h
    refine ⟨hw, ⟨1, by simp⟩, ?_⟩
    rw [List.isEmpty_iff.1 hl]
    simp
  · split at h
    · simp at h
    · rename_i hne
      simp only [Option.some.injEq] at h
      subst h
      obtain ⟨h1, h2⟩ := invFactors_spec H (loops := loops) hw
      have hne' : invFactors E loops g ≠ [] := by simpa using hne
      obtain ⟨c, hc⟩ := h2 hne'
      obtain ⟨m1, m2⟩ := H.mkMul w _ hne' fun o ho => (h1 o ho).1
      exact ⟨m1, ⟨c, hc.trans (m2.mul_left c).symm⟩, fun l hl => H.invMkMul _ l fun o ho => (h1 o ho).2 l hl⟩

/-- A range which is used to compute sizes. -/
def Full {S : Type} (r : Rng S) : Prop := r.isElement = true ∧ r.needZero = false

/-- A relation between states of the loop. -/
structure Filling (E : Se) (eval : E.S → Int) (w last : Nat) (loops : List Nat) (ranges : List (Rng E.S)) (d : Nat)
    (dims dims' : List (Option E.S)) : Prop where
  len : dims'.length = dims.length
  other : ∀ i, i = 0 ∨ d < i → dims'[i]? = dims[i]?
  known : ∀ (i : Nat) (s : E.S), dims[i]? = some (some s) → dims'[i]? = some (some s)
  all : ∀ i, 1 ≤ i → i ≤ d → ∃ s, dims'[i]? = some (some s) ∧ E.ty s = w
  multiple : ∀ i, 1 ≤ i → i ≤ d → dims[i]? = some none → ∃ vs : List E.S, (dims'.take last).drop i = vs.map some ∧
    ∀ r ∈ ranges, Full r → ∀ (j : Nat) (s : E.S × Ty), j < i → r.subs[j]? = some s →
      ∃ q, eval s.1 ≡ q * (vs.map eval).prod [ZMOD 2 ^ w]
  inv : ∀ (i : Nat) (s : E.S), 1 ≤ i → i ≤ d → dims[i]? = some none → dims'[i]? = some (some s) → ∀ l ∈ loops, E.inv s l = true

theorem fillLoop_flags {order : List E.S → List E.S} {f w : Nat} {loops : List Nat} {ranges : List (Rng E.S)} :
    ∀ (d : Nat) (st st' : Fill E.S), fillLoop E order true f w loops ranges d st = some (st', true) → st'.bad = false →
    st'.exact = true → st.bad = false ∧ st.exact = true := by
  intro d
  induction d with
  | zero =>
    intro st st' h h1 h2
    simp only [fillLoop, Option.some.injEq, Prod.mk.injEq, and_true] at h
    subst h
    exact ⟨h1, h2⟩
  | succ d ih =>
    intro st st' h h1 h2
    simp only [fillLoop] at h
    split at h
    · simp at h
    · split at h
      · simp at h
      · rename_i s _ _
        exact ih { st with prev := E.mul [st.prev, conv E w s] } _ h h1 h2
    · split at h
      · simp at h
      · simp only [Option.bind_eq_bind] at h
        obtain ⟨⟨g, b⟩, -, h⟩ := Option.bind_eq_some_iff.1 h
        simp only at h
        split at h
        · simp at h
        · split at h
          · simp at h
          · obtain ⟨t, -, h⟩ := Option.bind_eq_some_iff.1 h
            obtain ⟨h3, h4⟩ := ih _ _ h h1 h2
            simp only [Bool.or_eq_false_iff, Bool.and_eq_true] at h3 h4
            exact ⟨h3.1.1, h4.1⟩

theorem fillLoop_spec (H : E.Sound eval iter) (hA : Affine E) {order : List E.S → List E.S}
    (horder : ∀ l x, x ∈ order l ↔ x ∈ l) {f w last : Nat} {loops : List Nat} {ranges : List (Rng E.S)}
    (hty : ∀ r ∈ ranges, ∀ s ∈ r.subs, E.ty s.1 = w) :
    ∀ (d : Nat) (st st' : Fill E.S) (vs : List E.S), last ≤ st.dims.length → d < last →
    (∀ (i : Nat) (s : E.S), 1 ≤ i → st.dims[i]? = some (some s) → E.ty s = w) →
    (st.dims.take last).drop (d + 1) = vs.map some → E.ty st.prev = w → eval st.prev ≡ (vs.map eval).prod [ZMOD 2 ^ w] →
    fillLoop E order true f w loops ranges d st = some (st', true) → st'.bad = false → st'.exact = true →
    Filling E eval w last loops ranges d st.dims st'.dims := by
  intro d
  induction d with
  | zero =>
    intro st st' vs _ _ _ _ _ _ h _ _
    simp only [fillLoop, Option.some.injEq, Prod.mk.injEq, and_true] at h
    subst h
    exact ⟨rfl, fun _ _ => rfl, fun _ _ h => h, fun i _ _ => by omega, fun i _ _ _ => by omega, fun i _ _ _ _ _ => by omega⟩
  | succ d ih =>
    intro st st' vs hl hd hk hvs hp he h hb hx
    have hflags := fillLoop_flags _ _ _ h hb hx
    -- Sizes of inner dimensions are the same after the next iterations.
    have hdropd : (st.dims.take last).drop (d + 1) = (st.dims[d + 1]'(by omega)) :: (st.dims.take last).drop (d + 2) := by
      rw [← List.cons_getElem_drop_succ (h := by simp; omega)]
      congr 1
      simp
    have hstep : ∀ (s : E.S), E.ty s = w → E.ty (E.mul [st.prev, conv E w s]) = w ∧
        eval (E.mul [st.prev, conv E w s]) ≡ ((s :: vs).map eval).prod [ZMOD 2 ^ w] := by
      intro s hs
      rw [conv_eq hs]
      obtain ⟨m1, m2⟩ := H.mkMul w [st.prev, s] (by simp) (by
        intro o ho
        rcases List.mem_cons.1 ho with rfl | ho
        · exact hp
        · rw [List.mem_singleton.1 ho]; exact hs)
      refine ⟨m1, m2.trans ?_⟩
      have := he.mul_right (eval s)
      simp only [List.map_cons, List.map_nil, List.prod_cons, List.prod_nil, Int.mul_one]
      rw [Int.mul_comm (eval s)]
      exact this
    simp only [fillLoop] at h
    split at h
    · simp at h
    · rename_i s hs
      split at h
      · simp at h
      · have hsw : E.ty s = w := hk (d + 1) s (by omega) hs
        obtain ⟨m1, m2⟩ := hstep s hsw
        have hF := ih { st with prev := E.mul [st.prev, conv E w s] } st' (s :: vs) hl (by omega) hk (by
          simp only
          rw [hdropd, hvs]
          rw [List.getElem?_eq_getElem (by omega)] at hs
          simp only [Option.some.injEq] at hs
          rw [hs]; rfl) m1 m2 h hb hx
        refine ⟨hF.len, fun i hi => hF.other i (by omega), hF.known, ?_, ?_, ?_⟩
        · intro i h1 h2
          by_cases hi : i = d + 1
          · subst hi
            exact ⟨s, hF.known _ _ hs, hsw⟩
          · exact hF.all i h1 (by omega)
        · intro i h1 h2 hn
          by_cases hi : i = d + 1
          · subst hi
            rw [hs] at hn; simp at hn
          · exact hF.multiple i h1 (by omega) hn
        · intro i s' h1 h2 hn
          by_cases hi : i = d + 1
          · subst hi
            rw [hs] at hn; simp at hn
          · exact hF.inv i s' h1 (by omega) hn
    · rename_i hs
      split at h
      · simp at h
      · rename_i l hlne
        simp only [Option.bind_eq_bind] at h
        obtain ⟨⟨g, b⟩, hg, h⟩ := Option.bind_eq_some_iff.1 h
        simp only at h
        split at h
        · simp at h
        · rename_i g
          split at h
          · simp at h
          · rename_i g' hinv
            obtain ⟨t, ht, h⟩ := Option.bind_eq_some_iff.1 h
            have hfl := fillLoop_flags _ _ _ h hb hx
            simp only [Bool.or_eq_false_iff, Bool.and_eq_true] at hfl
            obtain ⟨⟨⟨-, hgb⟩, htb⟩, -, htr⟩ := hfl
            subst hgb
            have hlw : ∀ s ∈ outer ranges (d + 1), E.ty s = w := by
              intro s hs
              unfold outer at hs
              obtain ⟨r, hr, hs⟩ := List.mem_flatMap.1 hs
              rw [List.mem_reverse] at hs
              obtain ⟨x, hx, rfl⟩ := List.mem_map.1 hs
              exact hty r (List.mem_filter.1 hr).1 x ((List.take_sublist _ _).subset hx)
            obtain ⟨g1, g2⟩ := gcd_sound_partial H hA order horder f w _ hlw g hg
            obtain ⟨i1, ⟨c, i2⟩, i3⟩ := invariant_spec H g1 hinv
            have hD := divide_sound_partial H f g' st.prev t (by rw [i1, hp]) ht htb
            have hqw : E.ty t.q = w := by rw [hD.tyQ, hp]
            obtain ⟨m1, m2⟩ := hstep t.q hqw
            have hset : ((st.dims.set (d + 1) (some t.q)).take last).drop (d + 1) = (t.q :: vs).map some := by
              rw [List.take_set, ← List.cons_getElem_drop_succ (h := by simp; omega)]
              simp only [List.getElem_set_self, List.map_cons]
              congr 1
              rw [List.drop_set_of_lt (by omega)]
              exact hvs
            have hF := ih ⟨st.dims.set (d + 1) (some t.q), E.mul [st.prev, conv E w t.q], st.bad || false || t.bad, st.exact && E.isZero t.r⟩
              st' (t.q :: vs) (by simpa using hl) (by omega) (by
                intro i s h1 hs
                simp only [List.getElem?_set] at hs
                split at hs
                · split at hs
                  · simp only [Option.some.injEq] at hs
                    rw [← hs]; exact hqw
                  · simp at hs
                · exact hk i s h1 hs) hset m1 m2 h hb hx
            have hdq : st'.dims[d + 1]? = some (some t.q) := by
              refine hF.known _ _ ?_
              simp only [List.getElem?_set_self (show d + 1 < st.dims.length by omega)]
            refine ⟨by rw [hF.len]; simp, ?_, ?_, ?_, ?_, ?_⟩
            · intro i hi
              rw [hF.other i (by omega)]
              simp only
              rw [List.getElem?_set_ne (by omega)]
            · intro i s hi
              refine hF.known i s ?_
              simp only
              by_cases hc : d + 1 = i
              · subst hc
                rw [hs] at hi; simp at hi
              · rw [List.getElem?_set_ne hc]; exact hi
            · intro i h1 h2
              by_cases hi : i = d + 1
              · subst hi
                exact ⟨t.q, hdq, hqw⟩
              · exact hF.all i h1 (by omega)
            · intro i h1 h2 hn
              by_cases hi : i = d + 1
              · subst hi
                refine ⟨t.q :: vs, ?_, ?_⟩
                · -- sizes of inner dimensions are not changed
                  rw [← hset]
                  apply List.ext_getElem?
                  intro k
                  rw [List.getElem?_drop, List.getElem?_drop, List.getElem?_take, List.getElem?_take]
                  split
                  · exact hF.other _ (by omega)
                  · rfl
                · intro r hr hfull j s hj hs
                  have hmem : s.1 ∈ outer ranges (d + 1) := by
                    unfold outer
                    refine List.mem_flatMap.2 ⟨r, List.mem_filter.2 ⟨hr, by simp [hfull.1, hfull.2]⟩, ?_⟩
                    rw [List.mem_reverse]
                    refine List.mem_map.2 ⟨s, ?_, rfl⟩
                    have : (r.subs.take (d + 1))[j]? = some s := by rw [List.getElem?_take, if_pos hj]; exact hs
                    exact List.mem_of_getElem? this
                  obtain ⟨q, hq⟩ := g2 s.1 hmem
                  refine ⟨q * c, ?_⟩
                  have e0 := hD.eq
                  rw [hp] at e0
                  have hr0 := H.isZero htr
                  rw [hD.tyR, hp] at hr0
                  have e1 : eval g' ≡ eval t.q * eval st.prev [ZMOD 2 ^ w] := by
                    refine e0.trans ?_
                    simpa using hr0.add_left (eval t.q * eval st.prev)
                  have e2 : eval g' ≡ ((t.q :: vs).map eval).prod [ZMOD 2 ^ w] := by
                    refine e1.trans ?_
                    simp only [List.map_cons, List.prod_cons]
                    exact he.mul_left _
                  have e3 := hq.trans (i2.mul_left q)
                  refine e3.trans ?_
                  rw [← Int.mul_assoc]
                  exact e2.mul_left _
              · refine hF.multiple i h1 (by omega) ?_
                simp only
                rw [List.getElem?_set_ne (by omega)]; exact hn
            · intro i s h1 h2 hn hs' lp hlp
              by_cases hi : i = d + 1
              · subst hi
                rw [hdq] at hs'
                simp only [Option.some.injEq] at hs'
                rw [← hs']
                exact (hD.inv lp (i3 lp hlp)).1
              · refine hF.inv i s h1 (by omega) ?_ hs' lp hlp
                simp only
                rw [List.getElem?_set_ne (by omega)]; exact hn

/-- C83 (partial). If sizes of dimensions have been computed then the number of dimensions and known sizes are kept, all
sizes except of the first one are known, computed sizes do not depend on iterations of loops which contain accesses to the
array, and each subscript of each element, for which all subscripts are available, is a multiple of the product of sizes of
inner dimensions up to the last dimension which size is not constant. Missing: remainders which are ignored and divisions
which are made by substitution, see `fill_zero_fails`. -/
theorem fill_known_partial (H : E.Sound eval iter) (hA : Affine E) (order : List E.S → List E.S)
    (horder : ∀ l x, x ∈ order l ↔ x ∈ l) (f w : Nat) (loops : List Nat) (dims : List (Option E.S)) (ranges : List (Rng E.S))
    (hty : ∀ r ∈ ranges, ∀ s ∈ r.subs, E.ty s.1 = w) (hne : dims ≠ [])
    (hdims : ∀ (i : Nat) (s : E.S), 1 ≤ i → dims[i]? = some (some s) → E.ty s = w) (res : Filled E.S)
    (h : fill E order true f w loops dims ranges = some res) (hd : res.delin = true) (hb : res.bad = false)
    (hx : res.exact = true) :
    res.ranges = ranges ∧ res.dims.length = dims.length ∧
    (∀ (i : Nat) (s : E.S), dims[i]? = some (some s) → res.dims[i]? = some (some s)) ∧
    (∀ i, 1 ≤ i → i < dims.length → ∃ s, res.dims[i]? = some (some s)) ∧
    (∀ (i : Nat), 1 ≤ i → dims[i]? = some none → ∃ vs : List E.S,
      (res.dims.take (lastConst E dims)).drop i = vs.map some ∧
      ∀ r ∈ ranges, Full r → ∀ (j : Nat) (s : E.S × Ty), j < i → r.subs[j]? = some s →
        ∃ q, eval s.1 ≡ q * (vs.map eval).prod [ZMOD 2 ^ w]) ∧
    (∀ (i : Nat) (s : E.S), 1 ≤ i → dims[i]? = some none → res.dims[i]? = some (some s) → ∀ l ∈ loops, E.inv s l = true) := by
  -- Dimensions at the end have constant sizes.
  have hconst : ∀ i, lastConst E dims ≤ i → i < dims.length → ∃ s, dims[i]? = some (some s) := by
    intro i hi hlt
    have hsplit : dims.reverse.takeWhile (isConst E) ++ dims.reverse.dropWhile (isConst E) = dims.reverse :=
      List.takeWhile_append_dropWhile
    have hlen := congrArg List.length hsplit
    simp only [List.length_append, List.length_reverse] at hlen
    have hlc : lastConst E dims = (dims.reverse.dropWhile (isConst E)).length := rfl
    have hget : dims.reverse[dims.length - 1 - i]? = dims[i]? := by
      rw [List.getElem?_reverse (by omega)]
      congr 1
      omega
    have hin : dims.length - 1 - i < (dims.reverse.takeWhile (isConst E)).length := by omega
    have hmem : (dims.reverse.takeWhile (isConst E))[dims.length - 1 - i]? = dims[i]? := by
      rw [← hget, ← hsplit, List.getElem?_append_left hin]
      rw [hsplit]
    rw [List.getElem?_eq_getElem hin] at hmem
    have hp := List.all_eq_true.1 (List.all_takeWhile (p := isConst E) (l := dims.reverse)) _ (List.getElem_mem hin)
    rw [← hmem]
    generalize (dims.reverse.takeWhile (isConst E))[dims.length - 1 - i] = x at hp
    cases x with
    | none => simp [isConst] at hp
    | some s => exact ⟨s, rfl⟩
  have hle := lastConst_le E dims
  unfold fill at h
  have hl0 : ¬ dims.length = 0 := by simpa using hne
  simp only [if_neg hl0] at h
  split at h
  · rename_i h0
    simp only [Option.some.injEq] at h
    subst h
    refine ⟨rfl, rfl, fun _ _ h => h, fun i _ hi => hconst i (by omega) hi, ?_, ?_⟩
    · intro i _ hn
      obtain ⟨s, hs⟩ := hconst i (by omega) (List.getElem?_eq_some_iff.1 hn).1
      rw [hs] at hn; simp at hn
    · intro i s _ hn
      obtain ⟨s, hs⟩ := hconst i (by omega) (List.getElem?_eq_some_iff.1 hn).1
      rw [hs] at hn; simp at hn
  · rename_i h0
    obtain ⟨⟨st', b⟩, hst, h⟩ := Option.map_eq_some_iff.1 h
    simp only at h
    subst h
    simp only at hd hb hx
    subst hd
    have hF := fillLoop_spec H hA horder (last := lastConst E dims) hty (lastConst E dims - 1)
      ⟨dims, E.const w 1, false, true⟩ st' [] hle (by omega) hdims (by simp; omega) (H.mkConst w 1).1 (by simpa using (H.mkConst w 1).2)
      hst hb hx
    refine ⟨rfl, hF.len, hF.known, ?_, ?_, ?_⟩
    · intro i h1 h2
      by_cases hc : i ≤ lastConst E dims - 1
      · obtain ⟨s, hs, -⟩ := hF.all i h1 hc
        exact ⟨s, hs⟩
      · obtain ⟨s, hs⟩ := hconst i (by omega) h2
        exact ⟨s, hF.known i s hs⟩
    · intro i h1 hn
      by_cases hc : i ≤ lastConst E dims - 1
      · exact hF.multiple i h1 hc hn
      · obtain ⟨s, hs⟩ := hconst i (by omega) (List.getElem?_eq_some_iff.1 hn).1
        rw [hs] at hn; simp at hn
    · intro i s h1 hn
      by_cases hc : i ≤ lastConst E dims - 1
      · exact hF.inv i s h1 hc hn
      · obtain ⟨s, hs⟩ := hconst i (by omega) (List.getElem?_eq_some_iff.1 hn).1
        rw [hs] at hn; simp at hn

theorem foldl_max_le : ∀ (l : List Nat) (a : Nat), a ≤ l.foldl max a ∧ (∀ x ∈ l, x ≤ l.foldl max a) ∧
    (l.foldl max a = a ∨ l.foldl max a ∈ l) := by
  intro l
  induction l with
  | nil => intro a; simp
  | cons x l ih =>
    intro a
    obtain ⟨h1, h2, h3⟩ := ih (max a x)
    simp only [List.foldl_cons]
    refine ⟨by omega, ?_, ?_⟩
    · intro y hy
      rcases List.mem_cons.1 hy with rfl | hy
      · omega
      · exact h2 y hy
    · rcases h3 with h3 | h3
      · rcases Nat.le_total a x with h | h
        · right; rw [h3, Nat.max_eq_right h]; simp
        · left; rw [h3, Nat.max_eq_left h]
      · right; exact List.mem_cons_of_mem _ h3

/-- C83 (partial). If the number of dimensions is not known, it is the largest number of subscripts, and elements with
less subscripts are marked. Sizes of dimensions satisfy the same conditions. -/
theorem fill_unknown_partial (H : E.Sound eval iter) (hA : Affine E) (order : List E.S → List E.S)
    (horder : ∀ l x, x ∈ order l ↔ x ∈ l) (f w : Nat) (loops : List Nat) (ranges : List (Rng E.S))
    (hty : ∀ r ∈ ranges, ∀ s ∈ r.subs, E.ty s.1 = w) (res : Filled E.S)
    (h : fill E order true f w loops [] ranges = some res) (hd : res.delin = true) (hb : res.bad = false)
    (hx : res.exact = true) :
    0 < res.dims.length ∧ (∀ r ∈ ranges, r.subs.length ≤ res.dims.length) ∧
    (∃ r ∈ ranges, r.subs.length = res.dims.length) ∧
    res.ranges = ranges.map (fun r => { r with needZero := r.needZero || (r.isElement && decide (r.subs.length < res.dims.length)) }) ∧
    (∀ i, 1 ≤ i → i < res.dims.length → ∃ vs : List E.S, res.dims.drop i = vs.map some ∧
      (∀ l ∈ loops, ∀ s ∈ vs, E.inv s l = true) ∧
      ∀ r ∈ res.ranges, Full r → ∀ (j : Nat) (s : E.S × Ty), j < i → r.subs[j]? = some s →
        ∃ q, eval s.1 ≡ q * (vs.map eval).prod [ZMOD 2 ^ w]) := by
  unfold fill at h
  simp only [List.length_nil, if_true] at h
  obtain ⟨f1, f2, f3⟩ := foldl_max_le (ranges.map fun r => r.subs.length) 0
  generalize (ranges.map fun r => r.subs.length).foldl max 0 = n at *
  split at h
  · simp only [Option.some.injEq] at h
    subst h
    simp at hd
  · rename_i hn
    obtain ⟨⟨st', b⟩, hst, h⟩ := Option.map_eq_some_iff.1 h
    simp only at h
    subst h
    simp only at hd hb hx
    subst hd
    have hty' : ∀ r ∈ ranges.map (fun r => if r.isElement && decide (n > r.subs.length) then { r with needZero := true } else r),
        ∀ s ∈ r.subs, E.ty s.1 = w := by
      intro r hr
      obtain ⟨r', hr', rfl⟩ := List.mem_map.1 hr
      split <;> exact hty r' hr'
    have hF := fillLoop_spec H hA horder (last := n) hty' (n - 1) ⟨List.replicate n none, E.const w 1, false, true⟩ st' []
      (by simp) (by omega) (by
        intro i s _ hs
        simp only [List.getElem?_replicate] at hs
        split at hs <;> simp at hs) (by
        simp only [List.map_nil, List.drop_eq_nil_iff, List.length_take, List.length_replicate]
        omega) (H.mkConst w 1).1 (by simpa using (H.mkConst w 1).2) hst hb hx
    have hlen : st'.dims.length = n := by rw [hF.len]; simp
    have hnone : ∀ i, i < n → (List.replicate n (none : Option E.S))[i]? = some none := by
      intro i hi
      rw [List.getElem?_replicate, if_pos hi]
    refine ⟨by simp only [hlen]; omega, ?_, ?_, ?_, ?_⟩
    · intro r hr
      simp only [hlen]
      exact f2 _ (List.mem_map.2 ⟨r, hr, rfl⟩)
    · rcases f3 with f3 | f3
      · omega
      · obtain ⟨r, hr, e⟩ := List.mem_map.1 f3
        exact ⟨r, hr, by simp only [hlen]; exact e⟩
    · simp only [hlen]
      apply List.map_congr_left
      intro r _
      by_cases hc : (r.isElement && decide (n > r.subs.length)) = true
      · rw [if_pos hc]
        have : (r.isElement && decide (r.subs.length < n)) = true := hc
        rw [this, Bool.or_true]
      · rw [if_neg hc]
        have : (r.isElement && decide (r.subs.length < n)) = false := by simpa using hc
        rw [this, Bool.or_false]
    · intro i h1 h2
      simp only [hlen] at h2
      obtain ⟨vs, v1, v2⟩ := hF.multiple i h1 (by omega) (hnone i h2)
      have htk : st'.dims.take n = st'.dims := by rw [List.take_of_length_le (by omega)]
      rw [htk] at v1
      refine ⟨vs, v1, ?_, v2⟩
      intro l hl s hs
      obtain ⟨k, hk, rfl⟩ := List.getElem_of_mem hs
      have hkl := congrArg List.length v1
      simp only [List.length_drop, List.length_map] at hkl
      refine hF.inv (i + k) vs[k] (by omega) (by omega) (hnone _ (by omega)) ?_ l hl
      have := congrArg (fun l => l[k]?) v1
      simp only [List.getElem?_drop, List.getElem?_map, List.getElem?_eq_getElem hk] at this
      exact this

end

end Delin
end Tsar
