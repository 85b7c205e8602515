import Verif.Canon.Props

/-!
# Examples of canonical loops and wrong results

Variables are numbers, an alias node is a number of a variable: `0` is the induction variable `i`, `1` is `n` which is
not changed in the loop, `2` is `a` which is changed in the loop.
-/

namespace Tsar
namespace Canon
namespace Demo

/-- Different variables are not aliases, `n` is read-only. -/
def k : Know Nat := ⟨fun a b => decide (a ≠ b), fun n => decide (n = 1)⟩

/-- All variables are read-only in the parent loop except `i`. -/
def k' : Know Nat := ⟨fun a b => decide (a ≠ b), fun n => decide (n ≠ 0)⟩

def W : World Nat Nat := ⟨fun n l => n = l, fun _ _ _ => 0⟩

def ld (x : Nat) : Tree Nat Nat := .inst ⟨.load x, [⟨0, some x, true, false⟩], none⟩ [.const 0]
def st (x : Nat) (t : Tree Nat Nat) : Tree Nat Nat := .inst ⟨.store x, [⟨1, some x, false, true⟩], none⟩ [t, .const 0]
def add (a b : Tree Nat Nat) : Tree Nat Nat := .inst ⟨.add, [], none⟩ [a, b]
def cmp (p : Pred) (a b : Tree Nat Nat) : Tree Nat Nat := .inst ⟨.cmp p, [], none⟩ [a, b]
def phi (a b : Tree Nat Nat) : Tree Nat Nat := .inst ⟨.phi, [], none⟩ [a, b]

/-- `for (i = 3, a = 0; i < n; i = i + step) a = i;` -/
def loop (step : Tree Nat Nat) : IRLoop Nat Nat :=
  ⟨[st 0 (.const 3), st 2 (.const 0)], [cmp .lt (ld 0) (ld 1)],
   [⟨0, [cmp .lt (ld 0) (ld 1)]⟩, ⟨1, [st 2 (ld 0)]⟩, ⟨2, [st 0 (add (ld 0) step)]⟩], some 2⟩

/-- Compare with constants only: it is sufficient for the examples. -/
def same : Tree Nat Nat → Tree Nat Nat → Bool
  | .const a, .const b => decide (a = b)
  | _, _ => false

theorem same_eq : ∀ a e, same a e = true → a = e := by
  intro a e h
  cases a <;> cases e <;> simp_all [same]

theorem apart : Apart W k 0 0 := ⟨rfl, rfl, fun n h => by
  intro hc
  change n = 0 at hc
  subst hc
  simp [k] at h⟩

theorem isVar : IsVar 0 0 (ld 0) := .load trivial

theorem lowered (step : Tree Nat Nat) : Lowered k (loop step) 0 0 (.const 3) false step where
  init := ⟨[], _, [st 2 (.const 0)], rfl, .store trivial, fun t ht => by
    rw [List.mem_singleton.1 ht]
    exact ⟨rfl, fun a ha _ => by rw [List.mem_singleton.1 ha]; exact ⟨2, rfl, rfl⟩⟩⟩
  inc := ⟨_, List.mem_cons_of_mem _ (List.mem_cons_of_mem _ List.mem_cons_self), _, List.mem_cons_self, _,
    .store trivial, .addL isVar⟩
  ids := show ([0, 1, 2] : List Nat).Nodup by decide

theorem accepted : checkLoop k (some k') 0 same (loop (.const 2)) =
    .yes ⟨some (.const 3), some ⟨false, .const 2⟩, some (ld 1), some .lt, true⟩ := by rfl

def s0 : Nat → Int := fun _ => 0
/-- A state after `i = x`, `a = y`. -/
def s (x y : Int) : Nat → Int := fun l => if l = 0 then x else if l = 2 then y else 0

theorem effect_st {H : List (Nat → Int)} {x : Nat} {t : Tree Nat Nat} {σ σ' : Nat → Int} {y : Int}
    (hv : Val W (· ∈ H) t y) (hx : σ' x = y) (hf : ∀ l, l ≠ x → σ' l = σ l) : Effect W H (st x t) σ σ' where
  frame := fun l hl => by
    by_cases h : l = x
    · subst h
      exact Or.inl ⟨_, List.mem_cons_self, rfl, fun n hn => by cases hn; rfl⟩
    · exact (hl (hf l h)).elim
  store := fun l accs unk v p e => by
    simp only [st, Tree.inst.injEq, Ins.mk.injEq, Opcode.store.injEq, List.cons.injEq] at e
    obtain ⟨⟨rfl, -, -⟩, rfl, -⟩ := e
    exact ⟨y, hv, hx⟩

theorem effect_cmp {H : List (Nat → Int)} {p : Pred} {a b : Tree Nat Nat} {σ : Nat → Int} :
    Effect W H (cmp p a b) σ σ where
  frame := fun l hl => (hl rfl).elim
  store := fun l accs unk v p e => by simp [cmp] at e

theorem ld_val {H : List (Nat → Int)} {x : Nat} {σ : Nat → Int} (h : σ ∈ H) : Val W (· ∈ H) (ld x) (σ x) :=
  ⟨[0], ⟨0, [], rfl, rfl, rfl⟩, σ, h, rfl⟩

/-- The first iteration: `i` is equal to `x` at the beginning, a value of the step is `d`. -/
theorem iteration (step : Tree Nat Nat) (d x y : Int) (hd : ∀ H, Val W H step d) :
    Iteration W (loop step) (s x y) [s x y, s x y, s x x] (s (x + d) x) := by
  refine ⟨[⟨0, [cmp .lt (ld 0) (ld 1)]⟩, ⟨1, [st 2 (ld 0)]⟩], ⟨2, [st 0 (add (ld 0) step)]⟩, ?_, ?_, rfl, ?_⟩
  · intro c hc
    simp only [List.mem_cons, List.not_mem_nil, or_false] at hc
    rcases hc with rfl | rfl
    · exact ⟨List.mem_cons_self, show (some 2 : Option Nat) ≠ some 0 by decide⟩
    · exact ⟨List.mem_cons_of_mem _ List.mem_cons_self, show (some 2 : Option Nat) ≠ some 1 by decide⟩
  · exact List.mem_cons_of_mem _ (List.mem_cons_of_mem _ List.mem_cons_self)
  · change Exec W [] (s x y) [cmp .lt (ld 0) (ld 1), st 2 (ld 0), st 0 (add (ld 0) step)] _ _
    refine .cons effect_cmp (.cons (σ' := s x x) (effect_st (y := x) ?_ rfl ?_) (.cons (effect_st (y := x + d) ?_ rfl ?_) .nil))
    · exact ld_val (σ := s x y) (by simp)
    · intro l hl
      simp [s, hl]
    · exact ⟨[x, d], ⟨x, [d], rfl, ld_val (σ := s x y) (by simp), d, [], rfl, hd _, rfl⟩, x, d, rfl, rfl⟩
    · intro l hl
      simp [s, hl]

theorem before : Exec W [] s0 (loop (.const 2)).preheader [s0, s 3 0] (s 3 0) :=
  .cons (σ' := s 3 0) (effect_st (y := 3) rfl rfl fun l hl => by simp [s, s0, hl])
    (.cons (effect_st (y := 0) rfl rfl fun _ _ => rfl) .nil)

theorem run2 : Run W (loop (.const 2)) (s 3 0) 2
    ([] ++ [s 3 0, s 3 0, s 3 3] ++ [s (3 + 2) 3, s (3 + 2) 3, s (3 + 2) (3 + 2)]) (s (3 + 2 + 2) (3 + 2)) :=
  .succ (.succ .zero (iteration (.const 2) 2 3 0 fun _ => rfl)) (iteration (.const 2) 2 (3 + 2) 3 fun _ => rfl)

theorem keeps2 : Keeps W k (· ∈ [] ++ [s 3 0, s 3 0, s 3 3] ++ [s (3 + 2) 3, s (3 + 2) 3, s (3 + 2) (3 + 2)]) := by
  intro n hn l hl σ τ hσ hτ
  simp only [k, decide_eq_true_eq] at hn
  change n = l at hl
  subst hl hn
  have : ∀ ω ∈ ([] ++ [s 3 0, s 3 0, s 3 3] ++ [s (3 + 2) 3, s (3 + 2) 3, s (3 + 2) (3 + 2)] : List (Nat → Int)),
      ω 1 = 0 := by
    intro ω hω
    simp only [List.nil_append, List.cons_append, List.mem_cons, List.not_mem_nil, or_false] at hω
    rcases hω with rfl | rfl | rfl | rfl | rfl | rfl <;> rfl
  rw [this σ hσ, this τ hτ]

/-- The loop `for (i = 3; i < n; i += 2)` satisfies all assumptions: `i` is `7` after two iterations. -/
example : (s (3 + 2 + 2) (3 + 2)) 0 = s 3 0 0 + (2 : Nat) * 2 :=
  (canonical_values_partial (lowered (.const 2)) apart accepted trivial trivial before run2 keeps2).2.2.2.2 2 rfl

/-- The bound of this loop is `n`, the predicate is `<`. -/
example : (some (ld 1) : Option (Tree Nat Nat)) = some (ld 1) ∧ some Pred.lt = some Pred.lt :=
  have h := canonical_stop_partial (W := W) (k := k) (ind := 0) (v := 0) rfl accepted same_eq (E := ld 1) rfl
    (.left isVar)
  ⟨h.1, (h.2 rfl).1⟩

theorem honest : (loop (.const 2)).All (Honest W) := by
  have h0 : (ld 0).All (Honest W) := ⟨Or.inl ⟨_, List.mem_cons_self, rfl, fun n hn => by cases hn; rfl⟩, trivial, trivial⟩
  have h1 : (ld 1).All (Honest W) := ⟨Or.inl ⟨_, List.mem_cons_self, rfl, fun n hn => by cases hn; rfl⟩, trivial, trivial⟩
  have hc : (cmp .lt (ld 0) (ld 1)).All (Honest W) := ⟨trivial, h0, h1, trivial⟩
  refine ⟨?_, ?_, ?_⟩
  · intro t ht
    simp only [loop, List.mem_cons, List.not_mem_nil, or_false] at ht
    rcases ht with rfl | rfl <;> exact ⟨trivial, trivial, trivial, trivial⟩
  · intro t ht
    rw [List.mem_singleton.1 ht]
    exact hc
  · intro b hb t ht
    simp only [loop, List.mem_cons, List.not_mem_nil, or_false] at hb
    rcases hb with rfl | rfl | rfl <;> rw [List.mem_singleton.1 ht]
    · exact hc
    · exact ⟨trivial, h0, trivial, trivial⟩
    · exact ⟨trivial, ⟨trivial, h0, trivial, trivial⟩, trivial, trivial⟩

theorem notPhi : (loop (.const 2)).All NotPhi := by
  have hl : ∀ x, (ld x).All NotPhi := fun x => ⟨(by simp [NotPhi]), trivial, trivial⟩
  have hc : (cmp .lt (ld 0) (ld 1)).All NotPhi := ⟨(by simp [NotPhi]), hl 0, hl 1, trivial⟩
  refine ⟨?_, ?_, ?_⟩
  · intro t ht
    simp only [loop, List.mem_cons, List.not_mem_nil, or_false] at ht
    rcases ht with rfl | rfl <;> exact ⟨(by simp [NotPhi]), trivial, trivial, trivial⟩
  · intro t ht
    rw [List.mem_singleton.1 ht]
    exact hc
  · intro b hb t ht
    simp only [loop, List.mem_cons, List.not_mem_nil, or_false] at hb
    rcases hb with rfl | rfl | rfl <;> rw [List.mem_singleton.1 ht]
    · exact hc
    · exact ⟨(by simp [NotPhi]), hl 0, trivial, trivial⟩
    · exact ⟨(by simp [NotPhi]), ⟨(by simp [NotPhi]), hl 0, trivial, trivial⟩, trivial, trivial⟩

/-- The bound `n` has one value in all states in which `n` is not changed. -/
example : Fixed W (fun σ => σ 1 = 5) (ld 1) := by
  have hkeep : ∀ c : Know Nat, c = k → Keeps W c (fun σ => σ 1 = 5) := by
    rintro _ rfl n hn l hl σ τ hσ hτ
    simp only [k, decide_eq_true_eq] at hn
    change n = l at hl
    subst hl hn
    rw [hσ, hτ]
  exact (canonical_invariant_partial accepted honest notPhi (e := ld 1) (by simp [Info.exprs])).1 _ (hkeep k rfl)

/-- It has one value in the parent loop. -/
example : ∃ c, some k' = some c ∧ (c.unreachable = k.unreachable → ∀ S, Keeps W c S → Fixed W S (ld 1)) :=
  (canonical_invariant_partial accepted honest notPhi (e := ld 1) (by simp [Info.exprs])).2 rfl

end Demo

open Demo

/-- **C101 does not hold** if the variable is the second operand of a condition: the predicate of
`for (i = 3; 10 > i; i += 2)` is `<=`, it holds for `i = 10`, however, the condition does not hold. -/
theorem reversed_condition_fails : ∃ (P : IRLoop Nat Nat) (i : Info Nat Nat) (c : Tree Nat Nat) (p : Pred),
    checkLoop k none 0 same P = .yes i ∧ findLastCmp P.header = some c ∧ IsCond 0 0 .gt (.const 10) false c ∧
    i.stop = some (.const 10) ∧ i.pred = some p ∧
    ∃ σ : Nat → Int, p.holds (σ 0) 10 ∧ ∀ x, Val W (· = σ) c x → x = 0 := by
  refine ⟨⟨[st 0 (.const 3)], [cmp .gt (.const 10) (ld 0)],
    [⟨0, [cmp .gt (.const 10) (ld 0)]⟩, ⟨1, [st 0 (add (ld 0) (.const 2))]⟩], some 1⟩,
    ⟨some (.const 3), some ⟨false, .const 2⟩, some (.const 10), some .le, false⟩, cmp .gt (.const 10) (ld 0), .le,
    by rfl, rfl, .right isVar, rfl, rfl, fun _ => 10, ?_, ?_⟩
  · change (10 : Int) ≤ 10
    omega
  · intro x hx
    simp only [Demo.cmp, Val, Vals] at hx
    obtain ⟨vs, ⟨y, r, rfl, rfl, z, r', rfl, hz, rfl⟩, a, b, e, hx⟩ := hx
    simp only [List.cons.injEq, and_true] at e
    obtain ⟨rfl, rfl⟩ := e
    obtain ⟨σ, h1, rfl⟩ := var_value isVar hz
    subst h1
    rcases hx with ⟨-, hx⟩ | ⟨rfl, -⟩
    · exact absurd hx (show ¬ ((10 : Int) > 10) by decide)
    · rfl

/-- **C101 does not hold** if the bound is computed in several blocks: the header of `for (i = 3; i < (n ? 5 : 6);
i += 2)` ends with the comparison of `n` with zero, the result of this comparison is the bound and `!=` is the
predicate. -/
theorem selected_bound_fails : ∃ (P : IRLoop Nat Nat) (i : Info Nat Nat) (b : Block Nat Nat) (E c : Tree Nat Nat),
    checkLoop k none 0 same P = .yes i ∧ b ∈ P.blocks ∧ c ∈ b.body ∧ IsCond 0 0 .lt E true c ∧
    Lowered k P 0 0 (.const 3) false (.const 2) ∧ i.stop = some (cmp .ne (ld 1) (.const 0)) ∧ i.pred = some .ne ∧
    i.stop ≠ some E := by
  refine ⟨⟨[st 0 (.const 3)], [ld 0, ld 1, cmp .ne (ld 1) (.const 0)],
    [⟨0, [ld 0, ld 1, cmp .ne (ld 1) (.const 0)]⟩, ⟨1, []⟩, ⟨2, []⟩,
     ⟨3, [phi (.const 5) (.const 6), cmp .lt (ld 0) (phi (.const 5) (.const 6))]⟩,
     ⟨4, [st 0 (add (ld 0) (.const 2))]⟩], some 4⟩,
    ⟨some (.const 3), some ⟨false, .const 2⟩, some (cmp .ne (ld 1) (.const 0)), some .ne, false⟩,
    ⟨3, [phi (.const 5) (.const 6), cmp .lt (ld 0) (phi (.const 5) (.const 6))]⟩, phi (.const 5) (.const 6),
    cmp .lt (ld 0) (phi (.const 5) (.const 6)), by rfl, by simp, by simp, .left isVar, ?_, rfl, rfl, ?_⟩
  · refine ⟨⟨[], _, [], rfl, .store trivial, fun t ht => by cases ht⟩, ?_, by decide⟩
    exact ⟨⟨4, [st 0 (add (ld 0) (.const 2))]⟩, by simp, _, List.mem_cons_self, _, .store trivial, .addL isVar⟩
  · simp [Demo.cmp, phi]

/-- **C101 and C102 do not hold** if the step is a phi-node: `for (i = 3; i < n; i += (a ? 1 : 2)) a = i;` is
accepted, the variable is changed by different values. -/
theorem selected_step_fails : ∃ (P : IRLoop Nat Nat) (i : Info Nat Nat) (E : Tree Nat Nat) (A : List (Nat → Int))
    (τ : Nat → Int),
    checkLoop k none 0 same P = .yes i ∧ i.step = some ⟨false, E⟩ ∧ Lowered k P 0 0 (.const 3) false E ∧
    Run W P (s 3 0) 2 A τ ∧ (∀ e : Int, τ 0 ≠ s 3 0 0 + (2 : Nat) * e) ∧ ¬ Fixed W (· ∈ A) E := by
  have hv : ∀ H d, d = 1 ∨ d = 2 → Val W H (phi (.const 1) (.const 2)) d := fun H d hd =>
    ⟨[1, 2], ⟨1, [2], rfl, rfl, 2, [], rfl, rfl, rfl⟩, by rcases hd with rfl | rfl <;> simp⟩
  refine ⟨loop (phi (.const 1) (.const 2)),
    ⟨some (.const 3), some ⟨false, phi (.const 1) (.const 2)⟩, some (ld 1), some .lt, false⟩,
    phi (.const 1) (.const 2), _, _, by rfl, rfl, lowered _,
    .succ (.succ .zero (iteration _ 2 3 0 fun _ => hv _ 2 (Or.inr rfl)))
      (iteration _ 1 (3 + 2) 3 fun _ => hv _ 1 (Or.inl rfl)), ?_, ?_⟩
  · intro e he
    simp only [s, if_true] at he
    omega
  · intro h
    have := h 1 2 (hv _ 1 (Or.inl rfl)) (hv _ 2 (Or.inr rfl))
    cases this

end Canon
end Tsar
