import Verif.Loop.Lemmas

/-!
# Reversal of canonical loops (C43, C44, C62, C63)
-/

namespace Tsar.Loop

theorem quot_eq {x s : ℤ} {n : ℕ} (hs : 0 < s) (h1 : n * s ≤ x) (h2 : x < (n + 1) * s) :
    Int.tdiv x s = n := by
  have hx : 0 ≤ x := le_trans (by positivity) h1
  rw [Int.tdiv_eq_ediv_of_nonneg hx]
  have e1 : (n : ℤ) ≤ x / s := (Int.le_ediv_iff_mul_le hs).2 h1
  have e2 : x / s < n + 1 := (Int.ediv_lt_iff_lt_mul hs).2 h2
  omega

/-- The tail of each formula of the new initial value. -/
theorem tail_eq {t : Ty} {y s v : ℤ} {n : ℕ} (g : ℤ → ℤ) (hs : 0 < s) (h1 : n * s ≤ y)
    (h2 : y < (n + 1) * s) (hy : t.lo = 0 → y ≤ t.hi)
    (hg : t.lo = 0 → 0 ≤ g (n * s) ∧ g (n * s) ≤ t.hi)
    (h : ((t.div y s).bind fun q => (t.arith (q * s)).bind fun z => t.arith (g z)) = some v) :
    v = g (n * s) := by
  obtain ⟨q, hq, h⟩ := Option.bind_eq_some_iff.1 h
  obtain ⟨z, hz, h⟩ := Option.bind_eq_some_iff.1 h
  have hns : (0 : ℤ) ≤ n * s := by positivity
  have hnn : (n : ℤ) ≤ n * s := by nlinarith
  have hq' : q = n := by
    unfold Ty.div at hq
    rw [if_neg (by omega), quot_eq hs h1 h2] at hq
    exact Ty.arith_exact hq fun h0 => ⟨by omega, by have := hy h0; omega⟩
  subst hq'
  have hz' : z = n * s := Ty.arith_exact hz fun h0 => ⟨hns, by have := hy h0; omega⟩
  subst hz'
  exact Ty.arith_exact h hg

/-- Without constants the new initial value is computed by the formulas. -/
theorem newInit_none {t : Ty} {c : Consts} {a b : ℤ} {ex : Bool} {ie : IncInfo}
    (hc : ¬ (c.fin.isSome ∧ c.step.isSome)) :
    newInit t c a b ex ie = newInit t ⟨none, none, none⟩ a b ex ie := by
  unfold newInit
  cases hf : c.fin <;> cases hst : c.step <;> simp_all

/-- New initial value of a non-empty loop which runs upwards. -/
theorem newInit_up {t : Ty} {a b s v : ℤ} {n : ℕ} {ex un asg : Bool}
    (hs : 0 < s) (hun : un = true → s = 1) (ha : t.has a) (hb : t.has b)
    (hv : newInit t ⟨none, none, none⟩ a b ex ⟨true, un, asg, s⟩ = some v)
    (h1 : a + n * s ≤ (if ex then b - 1 else b))
    (h2 : (if ex then b - 1 else b) < a + (n + 1) * s) : v = a + n * s := by
  obtain ⟨ha1, ha2⟩ := ha
  obtain ⟨hb1, hb2⟩ := hb
  have hns : (0 : ℤ) ≤ n * s := by positivity
  unfold newInit at hv
  cases un with
  | true =>
    have hs1 := hun rfl
    subst hs1
    cases ex with
    | true =>
      simp only [if_true] at hv h1 h2
      have := Ty.arith_exact hv fun h0 => ⟨by omega, by omega⟩
      omega
    | false =>
      simp only [if_true, Bool.false_eq_true, if_false, Option.some.injEq] at hv h1 h2
      omega
  | false =>
    cases ex with
    | true =>
      simp only [if_true, Bool.false_eq_true, if_false] at hv h1 h2
      obtain ⟨x, hx, hv⟩ := Option.bind_eq_some_iff.1 hv
      obtain ⟨y, hy, hv⟩ := Option.bind_eq_some_iff.1 hv
      have hx' := Ty.arith_exact hx fun h0 => ⟨by omega, by omega⟩
      subst hx'
      have hy' := Ty.arith_exact hy fun h0 => ⟨by omega, by omega⟩
      subst hy'
      exact tail_eq (fun z => a + z) hs (by linarith) (by linarith) (fun h0 => by omega)
        (fun h0 => ⟨by omega, by omega⟩) hv
    | false =>
      simp only [if_true, Bool.false_eq_true, if_false] at hv h1 h2
      obtain ⟨y, hy, hv⟩ := Option.bind_eq_some_iff.1 hv
      have hy' := Ty.arith_exact hy fun h0 => ⟨by omega, by omega⟩
      subst hy'
      exact tail_eq (fun z => a + z) hs (by linarith) (by linarith) (fun h0 => by omega)
        (fun h0 => ⟨by omega, by omega⟩) hv

/-- New initial value of a non-empty loop which runs downwards. -/
theorem newInit_down {t : Ty} {a b s v : ℤ} {n : ℕ} {ex un asg : Bool}
    (hs : 0 < s) (hun : un = true → s = 1) (ha : t.has a) (hb : t.has b)
    (hv : newInit t ⟨none, none, none⟩ a b ex ⟨false, un, asg, s⟩ = some v)
    (h1 : (if ex then b + 1 else b) ≤ a - n * s)
    (h2 : a - (n + 1) * s < (if ex then b + 1 else b)) : v = a - n * s := by
  obtain ⟨ha1, ha2⟩ := ha
  obtain ⟨hb1, hb2⟩ := hb
  have hns : (0 : ℤ) ≤ n * s := by positivity
  unfold newInit at hv
  cases un with
  | true =>
    have hs1 := hun rfl
    subst hs1
    cases ex with
    | true =>
      simp only [if_true, Bool.false_eq_true, if_false] at hv h1 h2
      have := Ty.arith_exact hv fun h0 => ⟨by omega, by omega⟩
      omega
    | false =>
      simp only [if_true, Bool.false_eq_true, if_false, Option.some.injEq] at hv h1 h2
      omega
  | false =>
    cases ex with
    | true =>
      simp only [if_true, Bool.false_eq_true, if_false] at hv h1 h2
      obtain ⟨x, hx, hv⟩ := Option.bind_eq_some_iff.1 hv
      obtain ⟨y, hy, hv⟩ := Option.bind_eq_some_iff.1 hv
      have hx' := Ty.arith_exact hx fun h0 => ⟨by omega, by omega⟩
      subst hx'
      have hy' := Ty.arith_exact hy fun h0 => ⟨by omega, by omega⟩
      subst hy'
      exact tail_eq (fun z => a - z) hs (by linarith) (by linarith) (fun h0 => by omega)
        (fun h0 => ⟨by omega, by omega⟩) hv
    | false =>
      simp only [if_true, Bool.false_eq_true, if_false] at hv h1 h2
      obtain ⟨y, hy, hv⟩ := Option.bind_eq_some_iff.1 hv
      have hy' := Ty.arith_exact hy fun h0 => ⟨by omega, by omega⟩
      subst hy'
      exact tail_eq (fun z => a - z) hs (by linarith) (by linarith) (fun h0 => by omega)
        (fun h0 => ⟨by omega, by omega⟩) hv

/-- The condition of a header as a bound. -/
theorem test_less {h : Header} (hl : h.Less) (i : ℤ) :
    h.test i ↔ i ≤ (if (parseCondition h.op).2 then h.bound - 1 else h.bound) := by
  unfold Header.Less at hl
  unfold Header.test
  cases hr : h.onRight <;> cases ho : h.op <;> simp_all [Cmp.holds, parseCondition] <;> omega

theorem test_greater {h : Header} (hl : ¬ h.Less) (i : ℤ) :
    h.test i ↔ (if (parseCondition h.op).2 then h.bound + 1 else h.bound) ≤ i := by
  unfold Header.Less at hl
  unfold Header.test
  cases hr : h.onRight <;> cases ho : h.op <;> simp_all [Cmp.holds, parseCondition] <;> omega

/-- The condition of the new header. -/
theorem test_new {h h' : Header} (ho : h'.op = (parseCondition h.op).1)
    (hr : h'.onRight = h.onRight) (i : ℤ) :
    h'.test i ↔ if h.Less then h'.bound ≤ i else i ≤ h'.bound := by
  obtain ⟨ty, init, op, onRight, bound, inc⟩ := h
  obtain ⟨ty', init', op', onRight', bound', inc'⟩ := h'
  dsimp only at ho hr
  subst ho hr
  unfold Header.test Header.Less
  cases onRight' <;> cases op <;> simp [Cmp.holds, parseCondition]

/-- The flag `Sub` and the step of the increment. -/
theorem parse_delta {h : Header} (hpos : 0 < h.stepText) :
    (parseIncrement h.inc).step = h.stepText ∧
      ((parseIncrement h.inc).sub = true ↔ 0 < h.delta) ∧
      h.delta = (if (parseIncrement h.inc).sub then h.stepText else - h.stepText) ∧
      ((parseIncrement h.inc).unary = true → h.stepText = 1) := by
  unfold Header.stepText at *
  unfold Header.delta
  cases hi : h.inc with
  | unary up => cases up <;> simp [parseIncrement]
  | compound add s => cases add <;> simp_all [parseIncrement]; omega
  | assignAdd neg s => simp_all [parseIncrement]
  | assignSub neg s => simp_all [parseIncrement]; omega

theorem edge_eq (h : Header) : h.edge =
    if (parseCondition h.op).2 then (if h.Less then h.bound - 1 else h.bound + 1)
      else h.bound := by
  unfold Header.edge
  cases h.op <;> simp [parseCondition]

/-- **C43.**  A canonical loop whose increment moves the induction variable towards the bound by a
positive step is replaced by a loop which executes the same iterations in the opposite order.

Missing for the full property: the value before the first one must be representable (it is not
for an unsigned loop from zero, `reverse_unsigned_fails`), no value of the source loop wraps
around, a loop which has no constant bounds and a step which is not unary must execute at least
one iteration (`reverse_empty_fails`), and the step text must be positive
(`reverse_negative_step_fails`). -/
theorem reverse_partial {h h' : Header} {c : Consts} {l : List ℤ} {f : ℤ}
    (hsrc : h.Source) (hinit : h.ty.has h.init) (hbound : h.ty.has h.bound)
    (hstep : h.ty.has h.stepText) (hpos : 0 < h.stepText) (hcons : h.Consistent)
    (hc : c.Describes h l) (ht : transformLoop h c = some h')
    (hrun : Runs h h.init l f) (hexact : ∀ i ∈ l, h.ty.has (i + h.delta))
    (hlow : h.ty.has (h.init - h.delta))
    (hne : l ≠ [] ∨ (c.fin.isSome ∧ c.step.isSome) ∨ (h.IsUnary ∧ h.ty.has h.edge)) :
    ∃ f', Runs h' h'.init l.reverse f' := by
  obtain ⟨hstart, hstepc, hfin⟩ := hc
  have ha : c.start.getD h.init = h.init := by
    cases hs : c.start with
    | none => rfl
    | some v => simp [hstart v hs]
  unfold transformLoop at ht
  obtain ⟨v, hv, hh⟩ := Option.map_eq_some_iff.1 ht
  rw [ha] at hv
  simp only [ha] at hh
  have hty : h'.ty = h.ty := by rw [← hh]
  have hi : h'.init = v := by rw [← hh]
  have ho : h'.op = (parseCondition h.op).1 := by rw [← hh]
  have hr : h'.onRight = h.onRight := by rw [← hh]
  have hb : h'.bound = h.init := by rw [← hh]
  have hinc : h'.inc = newIncrement h.inc := by rw [← hh]
  obtain ⟨hl, htest, hstop⟩ := hrun.form hsrc hexact
  obtain ⟨hp1, hp2, hp3, hp4⟩ := parse_delta hpos
  have hnew := test_new ho hr
  rw [hb] at hnew
  -- values of the iterations are representable
  have hin : ∀ k : ℕ, k < l.length → h.ty.has (h.init + k * h.delta) := by
    intro k hk
    cases k with
    | zero => simpa using hinit
    | succ k =>
      have hm : h.init + k * h.delta ∈
          (List.range l.length).map (fun k : ℕ => h.init + k * h.delta) :=
        List.mem_map.2 ⟨k, by simp; omega, rfl⟩
      rw [← hl] at hm
      have := hexact _ hm
      push_cast
      rw [show h.init + (↑k + 1) * h.delta = h.init + k * h.delta + h.delta by ring]
      exact this
  have hdl : (h.Less ∧ 0 < h.delta) ∨ (¬ h.Less ∧ h.delta < 0) := hcons
  -- the general case
  have main : v = h.init + l.length * h.delta - h.delta →
      ∃ f', Runs h' h'.init l.reverse f' := by
    intro hv
    refine ⟨h.init - h.delta, ?_⟩
    rw [hi, hv]
    conv => arg 3; rw [hl]
    refine runs_back (next_reversed hty hinc hpos hstep) l.length ?_ ?_ hin hlow
    · intro k hk
      rw [hnew]
      rcases hdl with ⟨h1, h2⟩ | ⟨h1, h2⟩
      · rw [if_pos h1]
        have : (0 : ℤ) ≤ k * h.delta := by positivity
        omega
      · rw [if_neg h1]
        have : (k : ℤ) * h.delta ≤ 0 := by nlinarith
        omega
    · rw [hnew]
      rcases hdl with ⟨h1, h2⟩ | ⟨h1, h2⟩
      · rw [if_pos h1]; omega
      · rw [if_neg h1]; omega
  by_cases hcc : c.fin.isSome ∧ c.step.isSome
  · -- constants
    apply main
    obtain ⟨e, he⟩ := Option.isSome_iff_exists.1 hcc.1
    obtain ⟨s, hs⟩ := Option.isSome_iff_exists.1 hcc.2
    unfold newInit at hv
    simp only [he, hs, Option.some.injEq] at hv
    rw [hfin e he, hstepc s hs, Ty.wrap_sub] at hv
    rw [← hv]
    apply Ty.wrap_of_has
    cases hn : l.length with
    | zero => simpa using hlow
    | succ n =>
      have := hin n (by omega)
      rw [show h.init + ((n + 1 : ℕ) : ℤ) * h.delta - h.delta = h.init + n * h.delta by
        push_cast; ring]
      exact this
  · rw [newInit_none hcc] at hv
    by_cases hnil : l = []
    · -- an empty loop with a unary increment
      obtain ⟨⟨up, hup⟩, hedge⟩ : h.IsUnary ∧ h.ty.has h.edge := by tauto
      have hve : v = h.edge := by
        rw [hup] at hv
        rw [edge_eq] at hedge ⊢
        have hlup : h.Less ↔ up = true := by
          simp only [Header.delta, hup] at hdl
          cases up with
          | true =>
            rcases hdl with ⟨hL, _⟩ | ⟨_, hd⟩
            · simp [hL]
            · simp at hd
          | false =>
            rcases hdl with ⟨_, hd⟩ | ⟨hL, _⟩
            · simp at hd
            · simp [hL]
        cases hex : (parseCondition h.op).2 with
        | false =>
          rw [hex] at hv
          simp only [Bool.false_eq_true, if_false]
          cases up <;>
            simpa [newInit, parseIncrement] using hv.symm
        | true =>
          rw [hex] at hv hedge
          cases up with
          | true =>
            have hL : h.Less := by simpa using hlup
            simp only [newInit, parseIncrement, if_true] at hv
            simp only [if_true, if_pos hL] at hedge ⊢
            rw [Ty.arith_of_has hedge] at hv
            simpa using hv.symm
          | false =>
            have hL : ¬ h.Less := by simpa using hlup
            simp only [newInit, parseIncrement, if_true, Bool.false_eq_true, if_false] at hv
            simp only [if_true, if_neg hL] at hedge ⊢
            rw [Ty.arith_of_has hedge] at hv
            simpa using hv.symm
      subst hnil
      refine ⟨v, ?_⟩
      rw [hi]
      refine Runs.stop ?_
      rw [hnew, hve, edge_eq]
      simp only [List.length_nil, Nat.cast_zero, zero_mul, add_zero] at hstop
      by_cases hL : h.Less
      · rw [test_less hL] at hstop
        simp only [if_pos hL]
        exact hstop
      · rw [test_greater hL] at hstop
        simp only [if_neg hL]
        exact hstop
    · -- at least one iteration
      apply main
      obtain ⟨n, hn⟩ : ∃ n, l.length = n + 1 :=
        ⟨l.length - 1, by have := List.length_pos_of_ne_nil hnil; omega⟩
      have hlast := htest n (by omega)
      rw [hn] at hstop ⊢
      push_cast at hstop ⊢
      rcases hdl with ⟨h1, h2⟩ | ⟨h1, h2⟩
      · have hsub := hp2.2 h2
        rw [hsub, if_pos rfl] at hp3
        rw [test_less h1, hp3] at hlast hstop
        rw [hp3]
        have hv' : newInit h.ty ⟨none, none, none⟩ h.init h.bound (parseCondition h.op).2
            ⟨true, (parseIncrement h.inc).unary, (parseIncrement h.inc).assign, h.stepText⟩ =
              some v := by
          rw [← hsub, ← hp1]; exact hv
        rw [newInit_up hpos hp4 hinit hbound hv' hlast (not_le.1 hstop)]
        ring
      · have hsub : (parseIncrement h.inc).sub = false := by
          cases hb : (parseIncrement h.inc).sub with
          | false => rfl
          | true => have := hp2.1 hb; omega
        rw [hsub] at hp3
        simp only [Bool.false_eq_true, if_false] at hp3
        rw [test_greater h1, hp3] at hlast hstop
        rw [hp3]
        have hv' : newInit h.ty ⟨none, none, none⟩ h.init h.bound (parseCondition h.op).2
            ⟨false, (parseIncrement h.inc).unary, (parseIncrement h.inc).assign, h.stepText⟩ =
              some v := by
          rw [← hsub, ← hp1]; exact hv
        rw [newInit_down hpos hp4 hinit hbound hv' (by linarith) (by linarith)]
        ring

end Tsar.Loop
