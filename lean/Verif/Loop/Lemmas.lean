import Verif.Loop.Spec
import Mathlib.Tactic.Ring
import Mathlib.Data.Int.ModEq

namespace Tsar.Loop

theorem Ty.arith_of_has {t : Ty} {x : ℤ} (h : t.has x) : t.arith x = some x := by
  cases t with
  | signed w => simp [Ty.arith, h]
  | unsigned w =>
    obtain ⟨h1, h2⟩ := h
    simp only [Ty.lo, Ty.hi] at h1 h2
    simp only [Ty.arith, Option.some.injEq]
    exact Int.emod_eq_of_lt h1 (by omega)

theorem Ty.arith_exact {t : Ty} {x v : ℤ} (h : t.arith x = some v)
    (hx : t.lo = 0 → 0 ≤ x ∧ x ≤ t.hi) : v = x := by
  cases t with
  | signed w =>
    simp only [Ty.arith] at h
    split at h <;> simp_all
  | unsigned w =>
    obtain ⟨h1, h2⟩ := hx rfl
    rw [Ty.arith_of_has ⟨h1, h2⟩] at h
    simpa using h.symm

theorem Ty.wrap_of_has {t : Ty} {x : ℤ} (h : t.has x) : t.wrap x = x := by
  cases t with
  | signed w =>
    obtain ⟨h1, h2⟩ := h
    simp only [Ty.lo, Ty.hi] at h1 h2
    simp only [Ty.wrap]
    have e : ((2 ^ (w + 1) : ℕ) : ℤ) = 2 * 2 ^ w := by push_cast; ring
    apply Int.bmod_eq_of_le
    · rw [e]; omega
    · rw [e]; omega
  | unsigned w =>
    obtain ⟨h1, h2⟩ := h
    simp only [Ty.lo, Ty.hi] at h1 h2
    exact Int.emod_eq_of_lt h1 (by omega)

theorem Ty.wrap_sub (t : Ty) (x y : ℤ) : t.wrap (t.wrap x - t.wrap y) = t.wrap (x - y) := by
  cases t with
  | signed w => simp [Ty.wrap]
  | unsigned w => simp [Ty.wrap, Int.sub_emod]

/-- The increment of a source loop adds `delta`. -/
theorem next_source {h : Header} (hs : h.Source) (i : ℤ) :
    h.next i = h.ty.arith (i + h.delta) := by
  unfold Header.Source at hs
  unfold Header.next Header.delta
  cases hi : h.inc with
  | unary up => cases up <;> simp [sub_eq_add_neg]
  | compound add s => cases add <;> simp [sub_eq_add_neg]
  | assignAdd neg s => simp [hi] at hs; simp [hs, stepValue]
  | assignSub neg s => simp [hi] at hs; simp [hs, stepValue, sub_eq_add_neg]

/-- The new increment subtracts `delta`. -/
theorem next_reversed {h h' : Header} (hty : h'.ty = h.ty) (hi : h'.inc = newIncrement h.inc)
    (hpos : 0 < h.stepText) (hstep : h.ty.has h.stepText) (i : ℤ) :
    h'.next i = h.ty.arith (i - h.delta) := by
  unfold Header.next
  rw [hi, hty]
  unfold Header.stepText at hpos hstep
  unfold Header.delta
  cases hinc : h.inc with
  | unary up => cases up <;> simp [newIncrement]
  | compound add s => cases add <;> simp [newIncrement]
  | assignAdd neg s =>
    simp only [hinc] at hpos hstep
    simp only [newIncrement, stepValue, if_true]
    cases ht : h.ty with
    | signed w =>
      rw [ht] at hstep
      have : (Ty.signed w).has (-s) := by
        obtain ⟨h1, h2⟩ := hstep
        simp only [Ty.has, Ty.lo, Ty.hi] at *
        omega
      rw [Ty.arith_of_has this]
      simp [sub_eq_add_neg]
    | unsigned w => simp [Ty.arith, sub_eq_add_neg]
  | assignSub neg s =>
    simp only [hinc] at hpos hstep
    simp only [newIncrement, stepValue, if_true]
    cases ht : h.ty with
    | signed w =>
      rw [ht] at hstep
      have : (Ty.signed w).has (-s) := by
        obtain ⟨h1, h2⟩ := hstep
        simp only [Ty.has, Ty.lo, Ty.hi] at *
        omega
      rw [Ty.arith_of_has this]
      simp
    | unsigned w => simp [Ty.arith]

/-- Values of an exact run. -/
theorem Runs.form {h : Header} (hs : h.Source) {i f : ℤ} {l : List ℤ} (hr : Runs h i l f)
    (hex : ∀ x ∈ l, h.ty.has (x + h.delta)) :
    l = (List.range l.length).map (fun k : ℕ => i + k * h.delta) ∧
      (∀ k : ℕ, k < l.length → h.test (i + k * h.delta)) ∧
      ¬ h.test (i + l.length * h.delta) := by
  induction hr with
  | stop hn => simpa using hn
  | @step i j f l ht hn hr ih =>
    have hj : j = i + h.delta := by
      have := hex i (by simp)
      rw [next_source hs, Ty.arith_of_has this] at hn
      simpa using hn.symm
    subst hj
    obtain ⟨h1, h2, h3⟩ := ih fun x hx => hex x (by simp [hx])
    refine ⟨?_, ?_, ?_⟩
    · conv_lhs => rw [h1]
      rw [List.length_cons, List.range_succ_eq_map, List.map_cons, List.map_map]
      simp only [Nat.cast_zero, zero_mul, add_zero, List.cons.injEq, true_and]
      apply List.map_congr_left
      intro k _
      simp only [Function.comp, Nat.cast_succ]
      ring
    · intro k hk
      cases k with
      | zero => simpa using ht
      | succ k =>
        have := h2 k (by simpa using hk)
        push_cast
        rw [show i + (↑k + 1) * h.delta = i + h.delta + k * h.delta by ring]
        exact this
    · rw [List.length_cons]
      push_cast
      rw [show i + (↑l.length + 1) * h.delta = i + h.delta + l.length * h.delta by ring]
      exact h3

/-- A header with step `-d` which passes `a + k * d` for `k < n` and stops at `a - d`. -/
theorem runs_back {h' : Header} {t : Ty} {a d : ℤ} (hn : ∀ i, h'.next i = t.arith (i - d))
    (n : ℕ) (ht : ∀ k : ℕ, k < n → h'.test (a + k * d)) (hstop : ¬ h'.test (a - d))
    (hin : ∀ k : ℕ, k < n → t.has (a + k * d)) (hlow : t.has (a - d)) :
    Runs h' (a + n * d - d) ((List.range n).map (fun k : ℕ => a + k * d)).reverse (a - d) := by
  induction n with
  | zero => simpa using Runs.stop hstop
  | succ n ih =>
    rw [List.range_succ, List.map_append, List.reverse_append]
    simp only [List.map_cons, List.map_nil, List.reverse_singleton, List.singleton_append]
    rw [show a + ((n + 1 : ℕ) : ℤ) * d - d = a + n * d by push_cast; ring]
    refine .step (j := a + n * d - d) (ht n (by omega)) ?_
      (ih (fun k hk => ht k (by omega)) fun k hk => hin k (by omega))
    rw [hn]
    apply Ty.arith_of_has
    cases n with
    | zero => simpa using hlow
    | succ n =>
      have := hin n (by omega)
      rw [show a + ((n + 1 : ℕ) : ℤ) * d - d = a + n * d by push_cast; ring]
      exact this

end Tsar.Loop
