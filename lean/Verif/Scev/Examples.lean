import Verif.Scev.Props

/-!
# A concrete language of symbolic expressions

A small instance of the contract of LLVM. It is used to show that hypotheses of theorems are satisfiable and that
properties do not hold in general.
-/

namespace Tsar
namespace Scev

/-- Expressions with types. -/
inductive X where
  | c (w : Nat) (v : Int)
  | x (w : Nat) (i : Nat)
  | add (a b : X)
  | mul (a b : X)
  | udiv (a b : X)
  | ar (a b : X) (l : Nat)
  | sext (w : Nat) (e : X)
  deriving DecidableEq, Repr

namespace X

def ty : X → Nat
  | c w _ | x w _ | sext w _ => w
  | add a _ | mul a _ | udiv a _ | ar a _ _ => a.ty

/-- A value in an environment. -/
def eval (ρ iter : Nat → Int) : X → Int
  | c _ v => v
  | x _ i => ρ i
  | add a b => a.eval ρ iter + b.eval ρ iter
  | mul a b => a.eval ρ iter * b.eval ρ iter
  | udiv a b => (a.eval ρ iter % 2 ^ a.ty) / (b.eval ρ iter % 2 ^ b.ty)
  | ar a b l => a.eval ρ iter + iter l * b.eval ρ iter
  | sext _ e => Int.bmod (e.eval ρ iter) (2 ^ e.ty)

def inv : X → Nat → Bool
  | c _ _, _ | x _ _, _ => true
  | add a b, k | mul a b, k | udiv a b, k => a.inv k && b.inv k
  | ar a b l, k => a.inv k && b.inv k && decide (l ≠ k)
  | sext _ e, k => e.inv k

def view : X → View X
  | c _ v => .const v
  | x _ _ => .unknown
  | add a b => if a.ty = b.ty then .add [a, b] else .other
  | mul a b => if a.ty = b.ty then .mul [a, b] else .other
  | udiv _ _ => .other
  | ar a b l => if a.ty = b.ty ∧ a.inv l = true ∧ b.inv l = true then .addRec [a, b] l else .other
  | sext _ e => .sext e

/-- Addition with simplification. -/
def mkAdd : X → X → X
  | c w 0, b => if b.ty = w then b else add (c w 0) b
  | a, c w 0 => if a.ty = w then a else add a (c w 0)
  | c w u, c w' v => if w = w' then c w (u + v) else add (c w u) (c w' v)
  | a, b => add a b

/-- Multiplication with simplification. -/
def mkMul : X → X → X
  | c w 0, b => if b.ty = w then c w 0 else mul (c w 0) b
  | a, c w 0 => if a.ty = w then c w 0 else mul a (c w 0)
  | c w 1, b => if b.ty = w then b else mul (c w 1) b
  | a, c w 1 => if a.ty = w then a else mul a (c w 1)
  | c w u, c w' v => if w = w' then c w (u * v) else mul (c w u) (c w' v)
  | a, b => mul a b

def mkUdiv : X → X → X
  | c w u, c w' v => c w ((u % 2 ^ w) / (v % 2 ^ w'))
  | a, b => udiv a b

def mkAr (a b : X) (l : Nat) : X :=
  match b with
  | c w 0 => if a.ty = w then a else ar a (c w 0) l
  | b => ar a b l

def addList : List X → X
  | [] => c 0 0
  | [a] => a
  | a :: l => mkAdd a (addList l)

def mulList : List X → X
  | [] => c 0 0
  | [a] => a
  | a :: l => mkMul a (mulList l)

def subst : X → X → X → X
  | c w v, _, _ => c w v
  | x w i, y, v => if x w i = y then v else x w i
  | add a b, y, v => mkAdd (a.subst y v) (b.subst y v)
  | mul a b, y, v => mkMul (a.subst y v) (b.subst y v)
  | udiv a b, y, v => mkUdiv (a.subst y v) (b.subst y v)
  | ar a b l, y, v => ar (a.subst y v) (b.subst y v) l
  | sext w e, y, v => sext w (e.subst y v)

def size : X → Nat
  | c _ _ | x _ _ => 1
  | add a b | mul a b | udiv a b | ar a b _ => a.size + b.size + 1
  | sext _ e => e.size + 1

def step : X → X
  | ar _ b _ => b
  | e => e

end X

/-- The language as an instance. Casts are not simplified. -/
abbrev exSe : Se where
  S := X
  dec := inferInstance
  view := X.view
  ty := X.ty
  const w v := .c w v
  add := X.addList
  mul := X.mulList
  addRec := X.mkAr
  trunc e _ := e
  zext e _ := e
  sext e w := .sext w e
  minus a b := X.mkAdd a (X.mkMul (.c b.ty (-1)) b)
  subst := X.subst
  inv := X.inv
  step := X.step
  size := X.size

namespace X

theorem mkAdd_ty {a b : X} (h : a.ty = b.ty) : (mkAdd a b).ty = a.ty := by
  unfold mkAdd
  split <;> (try split) <;> simp_all [ty]

theorem mkAdd_eval (ρ iter : Nat → Int) (a b : X) :
    (mkAdd a b).eval ρ iter = a.eval ρ iter + b.eval ρ iter := by
  unfold mkAdd
  split <;> (try split) <;> simp_all [eval]

theorem mkAdd_inv {a b : X} {k : Nat} (ha : a.inv k = true) (hb : b.inv k = true) : (mkAdd a b).inv k = true := by
  unfold mkAdd
  split <;> (try split) <;> simp_all [inv]

theorem mkMul_ty {a b : X} (h : a.ty = b.ty) : (mkMul a b).ty = a.ty := by
  unfold mkMul
  split <;> (try split) <;> simp_all [ty]

theorem mkMul_eval (ρ iter : Nat → Int) (a b : X) :
    (mkMul a b).eval ρ iter = a.eval ρ iter * b.eval ρ iter := by
  unfold mkMul
  split <;> (try split) <;> simp_all [eval]

theorem mkMul_inv {a b : X} {k : Nat} (ha : a.inv k = true) (hb : b.inv k = true) : (mkMul a b).inv k = true := by
  unfold mkMul
  split <;> (try split) <;> simp_all [inv]

theorem addList_spec (ρ iter : Nat → Int) {w : Nat} : ∀ {l : List X}, l ≠ [] → (∀ o ∈ l, o.ty = w) →
    (addList l).ty = w ∧ (addList l).eval ρ iter = (l.map (eval ρ iter)).sum := by
  intro l
  induction l with
  | nil => intro h; exact absurd rfl h
  | cons a l ih =>
    intro _ hw
    cases l with
    | nil => exact ⟨hw a (by simp), by simp [addList]⟩
    | cons b l =>
      obtain ⟨h1, h2⟩ := ih (by simp) fun o ho => hw o (List.mem_cons_of_mem _ ho)
      have ha := hw a (by simp)
      refine ⟨?_, ?_⟩
      · simp only [addList]
        rw [mkAdd_ty (by rw [h1, ha]), ha]
      · simp only [addList, mkAdd_eval, h2]
        simp

theorem mulList_spec (ρ iter : Nat → Int) {w : Nat} : ∀ {l : List X}, l ≠ [] → (∀ o ∈ l, o.ty = w) →
    (mulList l).ty = w ∧ (mulList l).eval ρ iter = (l.map (eval ρ iter)).prod := by
  intro l
  induction l with
  | nil => intro h; exact absurd rfl h
  | cons a l ih =>
    intro _ hw
    cases l with
    | nil => exact ⟨hw a (by simp), by simp [mulList]⟩
    | cons b l =>
      obtain ⟨h1, h2⟩ := ih (by simp) fun o ho => hw o (List.mem_cons_of_mem _ ho)
      have ha := hw a (by simp)
      refine ⟨?_, ?_⟩
      · simp only [mulList]
        rw [mkMul_ty (by rw [h1, ha]), ha]
      · simp only [mulList, mkMul_eval, h2]
        simp

theorem addList_inv {k : Nat} : ∀ {l : List X}, (∀ o ∈ l, o.inv k = true) → (addList l).inv k = true := by
  intro l
  induction l with
  | nil => intro _; rfl
  | cons a l ih =>
    intro h
    cases l with
    | nil => exact h a (by simp)
    | cons b l => exact mkAdd_inv (h a (by simp)) (ih fun o ho => h o (List.mem_cons_of_mem _ ho))

theorem mulList_inv {k : Nat} : ∀ {l : List X}, (∀ o ∈ l, o.inv k = true) → (mulList l).inv k = true := by
  intro l
  induction l with
  | nil => intro _; rfl
  | cons a l ih =>
    intro h
    cases l with
    | nil => exact h a (by simp)
    | cons b l => exact mkMul_inv (h a (by simp)) (ih fun o ho => h o (List.mem_cons_of_mem _ ho))

theorem view_add {s : X} {l : List X} (h : s.view = .add l) : ∃ a b, s = add a b ∧ a.ty = b.ty ∧ l = [a, b] := by
  cases s <;> simp [view] at h
  rename_i a b
  split at h
  · rename_i e
    simp only [View.add.injEq] at h
    exact ⟨a, b, rfl, e, h.symm⟩
  all_goals (try split at h) <;> simp at h

theorem view_mul {s : X} {l : List X} (h : s.view = .mul l) : ∃ a b, s = mul a b ∧ a.ty = b.ty ∧ l = [a, b] := by
  cases s <;> simp [view] at h
  · split at h <;> simp at h
  · rename_i a b
    split at h
    · rename_i e
      simp only [View.mul.injEq] at h
      exact ⟨a, b, rfl, e, h.symm⟩
    · simp at h
  · split at h <;> simp at h

theorem view_addRec {s : X} {l : List X} {k : Nat} (h : s.view = .addRec l k) : ∃ a b, s = ar a b k ∧ a.ty = b.ty ∧
    a.inv k = true ∧ b.inv k = true ∧ l = [a, b] := by
  cases s <;> simp [view] at h
  · split at h <;> simp at h
  · split at h <;> simp at h
  · rename_i a b k'
    split at h
    · rename_i e
      simp only [View.addRec.injEq] at h
      obtain ⟨rfl, rfl⟩ := h
      exact ⟨a, b, rfl, e.1, e.2.1, e.2.2, rfl⟩
    · simp at h

theorem view_const {s : X} {v : Int} (h : s.view = .const v) : ∃ w, s = c w v := by
  cases s <;> simp [view] at h
  · subst h; exact ⟨_, rfl⟩
  all_goals split at h <;> simp at h

theorem mkAr_eval (ρ iter : Nat → Int) (a b : X) (l : Nat) :
    (mkAr a b l).eval ρ iter = a.eval ρ iter + iter l * b.eval ρ iter := by
  unfold mkAr
  split <;> (try split) <;> simp [eval]

theorem subst_inv {y v : X} {k : Nat} (hv : v.inv k = true) : ∀ {a : X}, a.inv k = true → (a.subst y v).inv k = true := by
  intro a
  induction a with
  | c w u => intro _; rfl
  | x w i => intro _; simp only [subst]; split <;> simp [hv, inv]
  | add a b iha ihb =>
    intro h
    simp only [inv, Bool.and_eq_true] at h
    exact mkAdd_inv (iha h.1) (ihb h.2)
  | mul a b iha ihb =>
    intro h
    simp only [inv, Bool.and_eq_true] at h
    exact mkMul_inv (iha h.1) (ihb h.2)
  | udiv a b iha ihb =>
    intro h
    simp only [inv, Bool.and_eq_true] at h
    simp only [subst]
    have h1 := iha h.1
    have h2 := ihb h.2
    unfold mkUdiv
    split
    · rfl
    · simp [inv, h1, h2]
  | ar a b l iha ihb =>
    intro h
    simp only [inv, Bool.and_eq_true] at h
    simp only [subst, inv, Bool.and_eq_true]
    exact ⟨⟨iha h.1.1, ihb h.1.2⟩, h.2⟩
  | sext w e ih => intro h; exact ih h

end X

open X in
theorem exSound (ρ iter : Nat → Int) : exSe.Sound (X.eval ρ iter) iter where
  const := by
    intro s v h
    obtain ⟨w, rfl⟩ := view_const h
    exact Int.ModEq.refl _
  add := by
    intro s l h
    obtain ⟨a, b, rfl, e, rfl⟩ := view_add h
    refine ⟨?_, by simp, ?_⟩
    · intro o ho
      rcases List.mem_cons.1 ho with rfl | ho
      · rfl
      · rw [List.mem_singleton.1 ho]; exact e.symm
    · simp [eval]
  mul := by
    intro s l h
    obtain ⟨a, b, rfl, e, rfl⟩ := view_mul h
    refine ⟨?_, by simp, ?_⟩
    · intro o ho
      rcases List.mem_cons.1 ho with rfl | ho
      · rfl
      · rw [List.mem_singleton.1 ho]; exact e.symm
    · simp [eval]
  addRec := by
    intro s a b l h
    obtain ⟨a', b', rfl, e, ia, ib, e'⟩ := view_addRec h
    simp only [List.cons.injEq, and_true] at e'
    obtain ⟨rfl, rfl⟩ := e'
    exact ⟨rfl, e.symm, rfl, ia, ib, Int.ModEq.refl _⟩
  mkConst := fun w v => ⟨rfl, Int.ModEq.refl _⟩
  mkAdd := by
    intro w l hne hw
    obtain ⟨h1, h2⟩ := addList_spec ρ iter hne hw
    exact ⟨h1, by show _ % _ = _ % _; rw [← h2]⟩
  mkMul := by
    intro w l hne hw
    obtain ⟨h1, h2⟩ := mulList_spec ρ iter hne hw
    exact ⟨h1, by show _ % _ = _ % _; rw [← h2]⟩
  mkAddRec := by
    intro w a b l ha hb _ _
    refine ⟨?_, ?_⟩
    · show (mkAr a b l).ty = w
      unfold mkAr
      split <;> (try split) <;> simpa [ty] using ha
    · show (mkAr a b l).eval ρ iter ≡ _ [ZMOD 2 ^ w]
      rw [mkAr_eval]
  mkMinus := by
    intro w a b ha hb
    have hm : (mkMul (c b.ty (-1)) b).ty = b.ty := mkMul_ty rfl
    refine ⟨?_, ?_⟩
    · show (mkAdd a (mkMul (c b.ty (-1)) b)).ty = w
      rw [mkAdd_ty]
      · exact ha
      · rw [hm]; exact ha.trans hb.symm
    · show (mkAdd a (mkMul (c b.ty (-1)) b)).eval ρ iter ≡ _ [ZMOD 2 ^ w]
      rw [mkAdd_eval, mkMul_eval]
      simp only [eval]
      rw [show a.eval ρ iter + -1 * b.eval ρ iter = a.eval ρ iter - b.eval ρ iter by ring]
  invAdd := by
    intro s l k h hi
    obtain ⟨a, b, rfl, -, rfl⟩ := view_add h
    have hi : (a.inv k && b.inv k) = true := hi
    simp only [Bool.and_eq_true] at hi
    intro o ho
    rcases List.mem_cons.1 ho with rfl | ho
    · exact hi.1
    · rw [List.mem_singleton.1 ho]; exact hi.2
  invMul := by
    intro s l k h hi
    obtain ⟨a, b, rfl, -, rfl⟩ := view_mul h
    have hi : (a.inv k && b.inv k) = true := hi
    simp only [Bool.and_eq_true] at hi
    intro o ho
    rcases List.mem_cons.1 ho with rfl | ho
    · exact hi.1
    · rw [List.mem_singleton.1 ho]; exact hi.2
  invAddRec := by
    intro s a b l k h hi
    obtain ⟨a', b', rfl, -, -, -, e'⟩ := view_addRec h
    simp only [List.cons.injEq, and_true] at e'
    obtain ⟨rfl, rfl⟩ := e'
    have hi : (a.inv k && b.inv k && decide (l ≠ k)) = true := hi
    simp only [Bool.and_eq_true] at hi
    exact hi.1
  invMkConst := fun _ _ _ => rfl
  invMkAdd := fun _ _ h => addList_inv h
  invMkMul := fun _ _ h => mulList_inv h
  invMkAddRec := by
    intro s a b c' d l k h hi h1 h2
    obtain ⟨a', b', rfl, -, -, -, -⟩ := view_addRec h
    have hi : (a'.inv k && b'.inv k && decide (l ≠ k)) = true := hi
    simp only [Bool.and_eq_true] at hi
    show (mkAr c' d l).inv k = true
    have h1 : c'.inv k = true := h1
    have h2 : d.inv k = true := h2
    unfold mkAr
    split <;> (try split) <;> simp_all [inv]
  invMkMinus := by
    intro a b k ha hb
    have ha : a.inv k = true := ha
    have hb : b.inv k = true := hb
    exact mkAdd_inv ha (mkMul_inv rfl hb)
  invSubst := by
    intro a b c' k ha hc
    exact subst_inv hc ha

theorem exAffine : Affine exSe := by
  intro s l k h
  obtain ⟨a, b, -, -, -, -, rfl⟩ := X.view_addRec h
  exact ⟨a, b, rfl⟩

/-! ## Cases which satisfy hypotheses -/

private abbrev x : X := .x 8 0
private abbrev y : X := .x 8 1

/-- 6*x*y + 4 divided by 2 -/
example : (exSe.divide true 9 (X.add (.mul (.c 8 6) (.mul x y)) (.c 8 4)) (.c 8 2)).map (fun t => (t.q, t.r, t.bad)) =
    some (X.add (.mul (.c 8 3) (.mul x y)) (.c 8 2), X.c 8 0, false) ∧ Atom exSe (X.c 8 2) := by
  refine ⟨by decide +kernel, by decide +kernel, ?_⟩
  intro l h
  cases h

/-- x*y + 3 divided by x*y -/
example : (exSe.divide true 9 (X.mul (.mul x y) (.c 8 3)) (X.mul x y)).map (fun t => (t.q, t.r, t.bad)) =
    some (X.c 8 3, X.c 8 0, false) := by decide +kernel

/-- y*(5 + {x,+,4}) is transformed to {y*(5+x),+,y*4} -/
example : exSe.addRecOf 9 (X.mul y (.add (.c 8 5) (.ar x (.c 8 4) 0))) =
    some (X.ar (.mul y (.add (.c 8 5) x)) (.mul y (.c 8 4)) 0, true) := by decide +kernel

/-- The common divisor of x*y, {x,+,y*x} and 0 is x. -/
example : exSe.gcd id 9 true [X.mul x y, .ar x (.mul y x) 0, .c 8 0] = some (some x, false) := by decide +kernel

/-! ## Properties which do not hold -/

/-- C39: it is not true that a division is always correct: (x+1)*(x+2) divided by x is 0 and the remainder is 2. -/
theorem divide_fails : ¬ ∀ (E : Se) (eval : E.S → Int) (iter : Nat → Int), E.Sound eval iter → ∀ (f : Nat) (n d : E.S)
    (t : Res E.S), E.ty n = E.ty d → E.divide true f n d = some t →
    eval n ≡ eval t.q * eval d + eval t.r [ZMOD 2 ^ E.ty d] := by
  intro h
  have := h exSe (X.eval (fun _ => 1) fun _ => 0) (fun _ => 0) (exSound _ _) 9 (X.mul (.add x (.c 8 1)) (.add x (.c 8 2))) x
    ⟨X.c 8 0, X.c 8 2, true, true⟩ rfl (by rfl)
  revert this
  decide +kernel

/-- C39: a quotient which is obtained by substitution may be wrong: (x/2)*y divided by x is 0 without a remainder. -/
theorem divide_subst_fails : ¬ ∀ (E : Se) (eval : E.S → Int) (iter : Nat → Int), E.Sound eval iter → ∀ (f : Nat)
    (n d : E.S) (t : Res E.S), E.ty n = E.ty d → E.divide true f n d = some t → E.isZero t.r = true →
    eval n ≡ eval t.q * eval d [ZMOD 2 ^ E.ty d] := by
  intro h
  have := h exSe (X.eval (fun i => if i = 0 then 2 else 1) fun _ => 0) (fun _ => 0) (exSound _ _) 9
    (X.mul (.udiv x (.c 8 2)) y) x ⟨X.c 8 0, X.c 8 0, true, true⟩ rfl (by rfl) (by rfl)
  revert this
  decide +kernel

/-- C39: a result of an unsafe division is marked as safe although a type cast has been ignored:
sext({2,+,4})*y divided by 2 is {1,+,2}*y. -/
theorem divide_unsafe_fails : ¬ ∀ (E : Se) (eval : E.S → Int) (iter : Nat → Int), E.Sound eval iter → ∀ (f : Nat)
    (n d : E.S) (t : Res E.S), E.ty n = E.ty d → E.divide false f n d = some t → t.bad = false → t.safe = true →
    eval n ≡ eval t.q * eval d + eval t.r [ZMOD 2 ^ E.ty d] := by
  intro h
  have := h exSe (X.eval (fun _ => 1) fun _ => 64) (fun _ => 64) (exSound _ _) 9
    (X.mul (.sext 16 (.ar (.c 8 2) (.c 8 4) 0)) (.x 16 1)) (X.c 16 2)
    ⟨X.mul (.ar (.c 16 1) (.c 16 2) 0) (.x 16 1), X.c 16 0, true, false⟩ rfl (by rfl) rfl rfl
  revert this
  decide +kernel

/-- C40: it is not true that all expressions are multiples of the found divisor: x is found for x and (x/2)*y. -/
theorem gcd_fails : ¬ ∀ (E : Se) (eval : E.S → Int) (iter : Nat → Int), E.Sound eval iter → Affine E → ∀ (f w : Nat)
    (l : List E.S) (g : E.S) (b : Bool), (∀ s ∈ l, E.ty s = w) → E.gcd id f true l = some (some g, b) →
    ∀ s ∈ l, ∃ q, eval s ≡ q * eval g [ZMOD 2 ^ w] := by
  intro h
  obtain ⟨q, hq⟩ := h exSe (X.eval (fun i => if i = 0 then 4 else 1) fun _ => 0) (fun _ => 0) (exSound _ _) exAffine 9 8
    [x, X.mul (.udiv x (.c 8 2)) y] x true (by
      intro s hs
      rcases List.mem_cons.1 hs with rfl | hs
      · rfl
      · rw [List.mem_singleton.1 hs]; rfl) (by rfl) (X.mul (.udiv x (.c 8 2)) y) (by simp)
  have hq : 2 % 2 ^ 8 = (q * 4) % 2 ^ 8 := hq
  omega

end Scev
end Tsar
