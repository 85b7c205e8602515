import Verif.Canon.Lemmas
import Mathlib.Tactic.Linarith

/-!
# Instructions of the header of a loop
-/

namespace Tsar
namespace Canon

variable {L N : Type} {k : Know N} {ind : N} {v : L}

theorem invariantOps_of_ok (root : Tree L N) (idx : List Nat) : ∀ (l : List (Tree L N)) (n : Nat) (acc : Res L N)
    (pure : Bool), acc.ok = true → (∀ t ∈ l, (invariant k ind t).ok = true) →
    (invariantOps k ind root idx n l acc pure).1.ok = true := by
  intro l
  induction l with
  | nil => intro n acc pure h _; simpa only [invariantOps] using h
  | cons t l ih =>
    intro n acc pure h ht
    simp only [invariantOps, ht t List.mem_cons_self, Bool.not_true, Bool.false_eq_true, if_false]
    exact ih _ _ _ (by simpa using h) fun s hs => ht s (List.mem_cons_of_mem _ hs)

theorem address_ok {p : Tree L N} (h : IsAddress p) : (invariant k ind p).ok = true ∧ (invariant k ind p).use = 0 ∧
    (invariant k ind p).dfn = 0 := by
  cases p with
  | const c => exact ⟨rfl, rfl, rfl⟩
  | other n => exact h.elim
  | inst i ops =>
    obtain ⟨h1, h2, h3⟩ := h
    have hops : ∀ t ∈ ops, (invariant k ind t).ok = true := fun t ht => by
      obtain ⟨c, rfl⟩ := h3 t ht
      rfl
    have hok : (invariant k ind (.inst i ops)).ok = true := by
      have := invariantOps_of_ok (k := k) (ind := ind) (.inst i ops) [] ops 0 ⟨true, 0, 0, none, false, none⟩ true
        rfl hops
      simp only [invariant, h1, h2, scanAccs, scanUnk, Bool.and_self, Bool.not_true, Bool.false_eq_true, if_false,
        this]
      split <;> simp [this]
    obtain ⟨-, -, -, h4, h5⟩ := invariant_inst hok
    have hz : ∀ l : List (Tree L N), (∀ t ∈ l, ∃ c, t = .const c) → useSum k ind l = 0 ∧ dfnSum k ind l = 0 := by
      intro l
      induction l with
      | nil => intro _; exact ⟨rfl, rfl⟩
      | cons t l ih =>
        intro hl
        obtain ⟨c, rfl⟩ := hl t List.mem_cons_self
        obtain ⟨i1, i2⟩ := ih fun s hs => hl s (List.mem_cons_of_mem _ hs)
        simp [useSum, dfnSum, invariant, i1, i2]
    obtain ⟨z1, z2⟩ := hz ops h3
    refine ⟨hok, ?_, ?_⟩
    · rw [h4, h1, z1]; rfl
    · rw [h5, h1, z2]; rfl

theorem var_result (hr : k.unreachable ind ind = false) {t : Tree L N} (h : IsVar ind v t) :
    invariant k ind t = ⟨true, 1, 0, none, false, none⟩ := by
  induction h with
  | @load p hp =>
    obtain ⟨h1, h2, h3⟩ := address_ok (k := k) (ind := ind) hp
    obtain ⟨h4, h5⟩ := invariant_self h1 h2 h3
    simp [invariant, scanAccs, hr, scanUnk, invariantOps, h1, addOperand, h2, h3, h4, h5]
  | @cast t _ ih =>
    simp [invariant, scanAccs, scanUnk, invariantOps, ih, addOperand]

theorem var_value {W : World L N} {H : (L → Int) → Prop} {t : Tree L N} (h : IsVar ind v t) {x : Int}
    (hx : Val W H t x) : ∃ σ, H σ ∧ x = σ v := by
  induction h generalizing x with
  | load _ =>
    simp only [Val] at hx
    obtain ⟨vs, -, hx⟩ := hx
    exact hx
  | cast _ ih =>
    simp only [Val, Vals] at hx
    obtain ⟨vs, ⟨y, r, rfl, hy, rfl⟩, hx⟩ := hx
    simp only [List.cons.injEq, and_true] at hx
    subst hx
    exact ih hy

/-- The opcode of the increment. -/
def stepOp (L : Type) (neg : Bool) : Opcode L := if neg then .sub else .add

theorem next_result (hr : k.unreachable ind ind = false) {neg : Bool} {E s : Tree L N} (h : IsNext ind v neg E s)
    (hok : (invariant k ind s).ok = true) (hu : (invariant k ind s).use ≤ 1) (hd : (invariant k ind s).dfn = 0) :
    (invariant k ind s).expr = some E ∧ (invariant k ind s).self = false ∧
    (∃ ops, (invariant k ind s).user = some (.inst ⟨stepOp L neg, [], none⟩ ops)) ∧
    (invariant k ind E).ok = true ∧ (invariant k ind E).use = 0 := by
  have hmain : ∀ (op : Opcode L) (t : Tree L N), IsVar ind v t → ∀ l, (l = [t, E] ∨ l = [E, t]) →
      (invariant k ind (.inst ⟨op, [], none⟩ l)).ok = true → (invariant k ind (.inst ⟨op, [], none⟩ l)).use ≤ 1 →
      (invariant k ind (.inst ⟨op, [], none⟩ l)).dfn = 0 →
      (invariant k ind (.inst ⟨op, [], none⟩ l)).expr = some E ∧
      (invariant k ind (.inst ⟨op, [], none⟩ l)).self = false ∧
      (invariant k ind (.inst ⟨op, [], none⟩ l)).user = some (.inst ⟨op, [], none⟩ l) ∧
      (invariant k ind E).ok = true ∧ (invariant k ind E).use = 0 := by
    intro op t ht l hl hok hu hd
    have hv := var_result (k := k) hr ht
    obtain ⟨-, -, h3, h4, h5⟩ := invariant_inst hok
    have hE : (invariant k ind E).ok = true := h3 E (by rcases hl with rfl | rfl <;> simp)
    rw [h4] at hu
    rw [h5] at hd
    have hEu : (invariant k ind E).use = 0 ∧ (invariant k ind E).dfn = 0 := by
      rcases hl with rfl | rfl <;> simp [useSum, dfnSum, hv] at hu hd <;> omega
    obtain ⟨he, hself⟩ := invariant_self hE hEu.1 hEu.2
    rcases hl with rfl | rfl <;>
      simp [invariant, scanAccs, scanUnk, invariantOps, hv, addOperand, hE, hEu.1, hEu.2, he, hself]
  induction h with
  | @addL t _ ht =>
    obtain ⟨h1, h2, h3, h4, h5⟩ := hmain .add _ ht _ (Or.inl rfl) hok hu hd
    exact ⟨h1, h2, ⟨_, h3⟩, h4, h5⟩
  | addR ht =>
    obtain ⟨h1, h2, h3, h4, h5⟩ := hmain .add _ ht _ (Or.inr rfl) hok hu hd
    exact ⟨h1, h2, ⟨_, h3⟩, h4, h5⟩
  | sub ht =>
    obtain ⟨h1, h2, h3, h4, h5⟩ := hmain .sub _ ht _ (Or.inl rfl) hok hu hd
    exact ⟨h1, h2, ⟨_, h3⟩, h4, h5⟩
  | @cast neg E t _ ih =>
    obtain ⟨-, -, h3, h4, h5⟩ := invariant_inst hok
    have hto := h3 t List.mem_cons_self
    have e1 : (invariant k ind t).use ≤ 1 := by rw [h4] at hu; simp [useSum, scanAccs] at hu; exact hu
    have e2 : (invariant k ind t).dfn = 0 := by rw [h5] at hd; simp [dfnSum, scanAccs] at hd; exact hd
    obtain ⟨i1, i2, ⟨ops, i3⟩, i4, i5⟩ := ih hto e1 e2 hmain
    have hne : (invariant k ind t).use ≠ 0 := fun h0 => by
      have := (invariant_self hto h0 e2).2
      rw [i2] at this
      cases this
    refine ⟨?_, ?_, ⟨ops, ?_⟩, i4, i5⟩ <;>
      simp [invariant, scanAccs, scanUnk, invariantOps, hto, addOperand, i1, i2, i3, hne]

theorem next_value {W : World L N} {H : (L → Int) → Prop} {neg : Bool} {E s : Tree L N} (h : IsNext ind v neg E s)
    {x : Int} (hx : Val W H s x) : ∃ σ e, H σ ∧ Val W H E e ∧ x = σ v + (if neg then -e else e) := by
  induction h generalizing x with
  | addL ht =>
    simp only [Val, Vals] at hx
    obtain ⟨vs, ⟨y, r, rfl, hy, z, r', rfl, hz, rfl⟩, a, b, e, rfl⟩ := hx
    simp only [List.cons.injEq, and_true] at e
    obtain ⟨rfl, rfl⟩ := e
    obtain ⟨σ, h1, rfl⟩ := var_value ht hy
    exact ⟨σ, z, h1, hz, by simp⟩
  | addR ht =>
    simp only [Val, Vals] at hx
    obtain ⟨vs, ⟨y, r, rfl, hy, z, r', rfl, hz, rfl⟩, a, b, e, rfl⟩ := hx
    simp only [List.cons.injEq, and_true] at e
    obtain ⟨rfl, rfl⟩ := e
    obtain ⟨σ, h1, rfl⟩ := var_value ht hz
    exact ⟨σ, y, h1, hy, by simp [Int.add_comm]⟩
  | sub ht =>
    simp only [Val, Vals] at hx
    obtain ⟨vs, ⟨y, r, rfl, hy, z, r', rfl, hz, rfl⟩, a, b, e, rfl⟩ := hx
    simp only [List.cons.injEq, and_true] at e
    obtain ⟨rfl, rfl⟩ := e
    obtain ⟨σ, h1, rfl⟩ := var_value ht hy
    exact ⟨σ, z, h1, hz, by simp [Int.sub_eq_add_neg]⟩
  | cast _ ih =>
    simp only [Val, Vals] at hx
    obtain ⟨vs, ⟨y, r, rfl, hy, rfl⟩, hx⟩ := hx
    simp only [List.cons.injEq, and_true] at hx
    subst hx
    exact ih hy

/-- The result for an assignment to the induction variable. -/
theorem assign_result (hr : k.unreachable ind ind = false) {s a : Tree L N} (h : IsAssign ind v s a)
    (hok : (invariant k ind a).ok = true) : (invariant k ind s).ok = true ∧
    (invariant k ind a).use = (invariant k ind s).use ∧ (invariant k ind a).dfn = 1 + (invariant k ind s).dfn ∧
    (∀ e, (invariant k ind s).expr = some e → (invariant k ind a).expr = some (if (invariant k ind s).self then s else e) ∧
      ((invariant k ind s).self = false → (invariant k ind a).user = (invariant k ind s).user)) := by
  cases h with
  | @store p hp =>
    obtain ⟨h1, h2, h3⟩ := address_ok (k := k) (ind := ind) hp
    obtain ⟨h4, h5⟩ := invariant_self h1 h2 h3
    obtain ⟨-, -, i3, i4, i5⟩ := invariant_inst hok
    have hs := i3 s List.mem_cons_self
    refine ⟨hs, ?_, ?_, fun e he => ?_⟩
    · rw [i4]; simp [useSum, scanAccs, hr, h2]
    · rw [i5]; simp [dfnSum, scanAccs, hr, h3]
    · cases hself : (invariant k ind s).self <;>
        simp [invariant, scanAccs, hr, scanUnk, invariantOps, hs, h1, addOperand, h2, h3, h4, h5, he, hself]

/-- The result for a condition. -/
theorem cond_result (hr : k.unreachable ind ind = false) {p : Pred} {E c : Tree L N} {left : Bool}
    (h : IsCond ind v p E left c) (hok : (invariant k ind c).ok = true) (hu : (invariant k ind c).use ≤ 1)
    (hd : (invariant k ind c).dfn = 0) : (invariant k ind c).expr = some E := by
  have hmain : ∀ (t : Tree L N), IsVar ind v t → ∀ l, (l = [t, E] ∨ l = [E, t]) →
      (invariant k ind (.inst ⟨.cmp p, [], none⟩ l)).ok = true →
      (invariant k ind (.inst ⟨.cmp p, [], none⟩ l)).use ≤ 1 →
      (invariant k ind (.inst ⟨.cmp p, [], none⟩ l)).dfn = 0 →
      (invariant k ind (.inst ⟨.cmp p, [], none⟩ l)).expr = some E := by
    intro t ht l hl hok hu hd
    have hv := var_result (k := k) hr ht
    obtain ⟨-, -, h3, h4, h5⟩ := invariant_inst hok
    have hE : (invariant k ind E).ok = true := h3 E (by rcases hl with rfl | rfl <;> simp)
    rw [h4] at hu
    rw [h5] at hd
    have hEu : (invariant k ind E).use = 0 ∧ (invariant k ind E).dfn = 0 := by
      rcases hl with rfl | rfl <;> simp [useSum, dfnSum, hv] at hu hd <;> omega
    obtain ⟨he, hself⟩ := invariant_self hE hEu.1 hEu.2
    rcases hl with rfl | rfl <;>
      simp [invariant, scanAccs, scanUnk, invariantOps, hv, addOperand, hE, hEu.1, hEu.2, he, hself]
  cases h with
  | left ht => exact hmain _ ht _ (Or.inl rfl) hok hu hd
  | right ht => exact hmain _ ht _ (Or.inr rfl) hok hu hd

end Canon
end Tsar
