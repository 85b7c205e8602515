import Verif.Inline.Sem
/-!
# Executable checks of behaviors

* `allE`, `allX`, ...: all behaviors of a program satisfy a predicate;
* `oneE`, `oneX`, ...: a behavior of a program.

They are used to examine concrete programs and are not part of the model.
-/
namespace Tsar.Inline

/-- Values of arguments. -/
def vals : List Expr → Option (List Val)
  | [] => some []
  | .val v :: es => (vals es).map (v :: ·)
  | _ :: _ => none

theorem vals_map (vs : List Val) : vals (vs.map .val) = some vs := by
  induction vs with
  | nil => rfl
  | cons v vs ih => simp [vals, ih]

theorem vals_some {es : List Expr} {vs : List Val} (h : vals es = some vs) : es = vs.map .val := by
  induction es generalizing vs with
  | nil => cases h; rfl
  | cons e es ih =>
    cases e <;> simp only [vals] at h <;> try cases h
    cases hv : vals es with
    | none => rw [hv] at h; cases h
    | some ws =>
      rw [hv] at h
      cases h
      rw [ih hv]
      rfl

/-! ## All behaviors -/

/-- A check of all results of a call. -/
abbrev AllC := Name → List Val → Glob → (List Ev → CRes → Bool) → Bool

def AllC.Sound (A : AllC) (C : Calls) : Prop :=
  ∀ f vs g t r k, C f vs g t r → A f vs g k = true → k t r = true

section
variable (A : AllC)

/-- Steps of an expression which operands are known. -/
def allHead : Expr → St → (List Ev → SRes → Bool) → Bool
  | .var x, σ, k => k [] (.ok (.val (get σ x)) σ)
  | .assign x (.val v), σ, k => k [] (.ok (.val v) (set σ x v))
  | .bin o (.val a) (.val b), σ, k => k [] (.ok (.val (o.sem a b)) σ)
  | .land (.val v) b, σ, k => k [] (choose σ v (.bin .ne b (.val (some 0))) (.val (some 0)))
  | .lor (.val v) b, σ, k => k [] (choose σ v (.val (some 1)) (.bin .ne b (.val (some 0))))
  | .comma (.val _) b, σ, k => k [] (.ok b σ)
  | .cond (.val v) a b, σ, k => k [] (choose σ v a b)
  | .elvis (.val v) b, σ, k => k [] (choose σ v (.val v) b)
  | .size _, σ, k => k [] (.ok (.val (some 4)) σ)
  | .call _ f as, σ, k =>
    match vals as with
    | none => true
    | some vs =>
      match find σ.l f with
      | some _ => k [] (.halt .err)
      | none => A f vs σ.g fun t cr => k t (cr.step σ.l)
  | _, _, _ => true

mutual

def allStep : Expr → St → (List Ev → SRes → Bool) → Bool
  | .val v, σ, k => allHead A (.val v) σ k
  | .var x, σ, k => allHead A (.var x) σ k
  | .assign x e, σ, k => allHead A (.assign x e) σ k && allStep e σ fun t r => k t (r.plug (.assign x))
  | .bin o l r, σ, k => allHead A (.bin o l r) σ k && (allStep l σ (fun t q => k t (q.plug (.binL o r))) &&
      allStep r σ fun t q => k t (q.plug (.binR o l)))
  | .land l r, σ, k => allHead A (.land l r) σ k && allStep l σ fun t q => k t (q.plug (.land r))
  | .lor l r, σ, k => allHead A (.lor l r) σ k && allStep l σ fun t q => k t (q.plug (.lor r))
  | .comma l r, σ, k => allHead A (.comma l r) σ k && allStep l σ fun t q => k t (q.plug (.comma r))
  | .cond c a b, σ, k => allHead A (.cond c a b) σ k && allStep c σ fun t q => k t (q.plug (.cond a b))
  | .elvis c e, σ, k => allHead A (.elvis c e) σ k && allStep c σ fun t q => k t (q.plug (.elvis e))
  | .size e, σ, k => allHead A (.size e) σ k
  | .call m f as, σ, k => allHead A (.call m f as) σ k && allArgs m f [] as σ k

def allArgs (m : Bool) (f : Name) (pre : List Expr) : List Expr → St → (List Ev → SRes → Bool) → Bool
  | [], _, _ => true
  | e :: es, σ, k => allStep e σ (fun t q => k t (q.plug (.arg m f pre es))) &&
      allArgs m f (pre ++ [e]) es σ k

end

def allSteps : Nat → Expr → St → (List Ev → SRes → Bool) → Bool
  | 0, _, _, _ => false
  | n + 1, e, σ, k => k [] (.ok e σ) && (k [] (.halt .cut) && allStep A e σ fun t r =>
      match r with
      | .halt h => k t (.halt h)
      | .ok e₁ σ₁ => allSteps n e₁ σ₁ fun t₂ r => k (t ++ t₂) r)

def allE (n : Nat) (e : Expr) (σ : St) (k : List Ev → ERes → Bool) : Bool :=
  allSteps A n e σ fun t r =>
    match r with
    | .halt h => k t (.halt h)
    | .ok (.val v) σ => k t (.val v σ)
    | .ok _ _ => true

def allD (n : Nat) : List Init → St → (List Ev → Out → Bool) → Bool
  | [], σ, k => k [] (.norm σ)
  | (x, none) :: ds, σ, k => allD n ds ⟨σ.g, (x, .auto none) :: σ.l⟩ k
  | (x, some e) :: ds, σ, k => allE A n e σ fun t r =>
    match r with
    | .halt h => k t (.halt h)
    | .val v σ₁ => allD n ds ⟨σ₁.g, (x, .auto v) :: σ₁.l⟩ fun t₂ r => k (t ++ t₂) r

/-- A condition. -/
def allC (n : Nat) (c : Expr) (σ : St) (k : List Ev → Out → Bool) (a b : List Ev → St → Bool) : Bool :=
  allE A n c σ fun t r =>
    match r with
    | .halt h => k t (.halt h)
    | .val v σ₁ =>
      match truth v with
      | none => k t (.halt .err)
      | some true => a t σ₁
      | some false => b t σ₁

mutual

def allX : Nat → Stmt → St → (List Ev → Out → Bool) → Bool
  | 0, _, _, _ => false
  | n + 1, s, σ, k => k [] (.halt .cut) &&
    match s with
    | .skip => k [] (.norm σ)
    | .bad => k [] (.halt .err)
    | .expr e => allE A n e σ fun t r =>
      match r with
      | .halt h => k t (.halt h)
      | .val _ σ₁ => k t (.norm σ₁)
    | .decl ds => allD A n ds σ k
    | .static x o => k [] (.norm ⟨σ.g, (x, .alias o) :: σ.l⟩)
    | .ift c a => allX n (.ifte c a .skip) σ k
    | .ifte c a b => allC A n c σ k
        (fun t σ₁ => allX n a σ₁ fun t₂ r => k (t ++ t₂) r)
        (fun t σ₁ => allX n b σ₁ fun t₂ r => k (t ++ t₂) r)
    | .loop c b => allC A n c σ k
        (fun t σ₁ => allX n b σ₁ fun t₂ r =>
          match r with
          | .norm σ₂ => allX n (.loop c b) σ₂ fun t₃ r => k (t ++ (t₂ ++ t₃)) r
          | .brk σ₂ => k (t ++ t₂) (.norm σ₂)
          | r => k (t ++ t₂) r)
        (fun t σ₁ => k t (.norm σ₁))
    | .doloop b c => allX n b σ fun t₂ r =>
      match r with
      | .norm σ₂ => allX n (.loop c b) σ₂ fun t₃ r => k (t₂ ++ t₃) r
      | .brk σ₂ => k t₂ (.norm σ₂)
      | r => k t₂ r
    | .for i c inc b => allX n (.block [i, .loop c (.block [b, .expr inc])]) σ k
    | .block ss => allXB n ss σ.l.length ss σ fun t r => k t (r.bot σ.l.length)
    | .ret none => k [] (.ret none σ)
    | .ret (some e) => allE A n e σ fun t r =>
      match r with
      | .halt h => k t (.halt h)
      | .val v σ₁ => k t (.ret v σ₁)
    | .brk => k [] (.brk σ)
    | .goto l => k [] (.jump l σ)
    | .label _ s => allX n s σ k

def allXL : Nat → List Stmt → St → (List Ev → Out → Bool) → Bool
  | 0, _, _, _ => false
  | _ + 1, [], σ, k => k [] (.norm σ)
  | n + 1, s :: ss, σ, k => allX n s σ fun t r =>
    match r with
    | .norm σ₁ => allXL n ss σ₁ fun t₂ r => k (t ++ t₂) r
    | .jump l σ₁ =>
      match skipTo l ss with
      | none => k t (.jump l σ₁)
      | some (xs, ss₁) => allXL n ss₁ (pushUndef σ₁ xs) fun t₂ r => k (t ++ t₂) r
    | r => k t r

def allXB : Nat → List Stmt → Nat → List Stmt → St → (List Ev → Out → Bool) → Bool
  | 0, _, _, _, _, _ => false
  | n + 1, ss, d, sf, σ, k => allXL n sf σ fun t r =>
    match r with
    | .jump l σ₁ =>
      match skipTo l ss with
      | none => k t (.jump l σ₁)
      | some (xs, ss₁) => allXB n ss d ss₁ ⟨σ₁.g, bot (d + xs.length) σ₁.l⟩ fun t₂ r => k (t ++ t₂) r
    | r => k t r

end

end

/-- Results of a call of depth at most `d`. -/
def allCalls (P : Prog) (A : AllC) (n : Nat) : Nat → AllC
  | 0 => fun _ _ _ _ => false
  | d + 1 => fun f vs g k => k [] (.halt .cut) &&
    match P f with
    | none => A f vs g k
    | some F =>
      if F.params.length = vs.length then
        allX (allCalls P A n d) n (.block F.body) ⟨g, frame F.params vs⟩ fun t r => k t r.call
      else k [] (.halt .err)

section
variable {A : AllC} {C : Calls}

theorem allHead_sound (hA : A.Sound C) {e : Expr} {σ : St} {t : List Ev} {r : SRes} (h : Head C e σ t r)
    {k : List Ev → SRes → Bool} (hk : allHead A e σ k = true) : k t r = true := by
  unfold Head at h
  split at h
  all_goals try exact h.elim
  all_goals try (obtain ⟨rfl, rfl⟩ := h; exact hk)
  obtain ⟨vs, rfl, h⟩ := h
  simp only [allHead, vals_map] at hk
  split at h
  · rename_i hf
    rw [hf] at hk
    obtain ⟨rfl, rfl⟩ := h
    exact hk
  · rename_i hf
    rw [hf] at hk
    obtain ⟨cr, h, rfl⟩ := h
    exact hA _ _ _ _ _ _ h hk

theorem allStep_head {e : Expr} {σ : St} {k : List Ev → SRes → Bool} (h : allStep A e σ k = true) :
    allHead A e σ k = true := by
  cases e <;> simp only [allStep, Bool.and_eq_true] at h
  all_goals first
    | exact h
    | exact h.1

theorem allArgs_mem {m : Bool} {f : Name} : ∀ (pre pre₁ : List Expr) {e : Expr} {post : List Expr} {σ : St}
    {k : List Ev → SRes → Bool}, allArgs A m f pre (pre₁ ++ e :: post) σ k = true →
    allStep A e σ (fun t q => k t (q.plug (.arg m f (pre ++ pre₁) post))) = true
  | pre, [], e, post, σ, k, h => by
    simp only [List.nil_append, allArgs, Bool.and_eq_true] at h
    simpa using h.1
  | pre, a :: pre₁, e, post, σ, k, h => by
    simp only [List.cons_append, allArgs, Bool.and_eq_true] at h
    have := allArgs_mem (pre ++ [a]) pre₁ h.2
    simpa using this

theorem allStep_hole {F : Hole} {e : Expr} {σ : St} {k : List Ev → SRes → Bool}
    (h : allStep A (F.plug e) σ k = true) : allStep A e σ (fun t q => k t (q.plug F)) = true := by
  cases F <;> simp only [Hole.plug, allStep, Bool.and_eq_true] at h
  case binL => exact h.2.1
  case binR => exact h.2.2
  case arg m f pre post => simpa using allArgs_mem [] pre h.2
  all_goals exact h.2

theorem allStep_sound (hA : A.Sound C) {e : Expr} {σ : St} {t : List Ev} {r : SRes} (h : Step C e σ t r) :
    ∀ {k : List Ev → SRes → Bool}, allStep A e σ k = true → k t r = true := by
  induction h with
  | head h => intro k hk; exact allHead_sound hA h (allStep_head hk)
  | hole F he h hr ih =>
    intro k hk
    subst he hr
    exact ih (allStep_hole hk)

theorem allSteps_sound (hA : A.Sound C) {e : Expr} {σ : St} {t : List Ev} {r : SRes} (h : Steps C e σ t r) :
    ∀ {n : Nat} {k : List Ev → SRes → Bool}, allSteps A n e σ k = true → k t r = true := by
  induction h with
  | refl e σ =>
    intro n k hk
    cases n with
    | zero => cases hk
    | succ n => simp only [allSteps, Bool.and_eq_true] at hk; exact hk.1
  | cut e σ =>
    intro n k hk
    cases n with
    | zero => cases hk
    | succ n => simp only [allSteps, Bool.and_eq_true] at hk; exact hk.2.1
  | halt hs =>
    intro n k hk
    cases n with
    | zero => cases hk
    | succ n =>
      simp only [allSteps, Bool.and_eq_true] at hk
      have := allStep_sound hA hs hk.2.2
      exact this
  | step h hs ih =>
    intro n k hk
    cases n with
    | zero => cases hk
    | succ n =>
      simp only [allSteps, Bool.and_eq_true] at hk
      have := allStep_sound hA h hk.2.2
      exact ih this

theorem allE_sound (hA : A.Sound C) {e : Expr} {σ : St} {t : List Ev} {r : ERes} (h : Eval C e σ t r)
    {n : Nat} {k : List Ev → ERes → Bool} (hk : allE A n e σ k = true) : k t r = true := by
  cases h with
  | val h => exact allSteps_sound hA h hk
  | halt h => exact allSteps_sound hA h hk

theorem allD_sound (hA : A.Sound C) {ds : List Init} {σ : St} {t : List Ev} {r : Out} (h : ExecD C ds σ t r)
    {n : Nat} : ∀ {k : List Ev → Out → Bool}, allD A n ds σ k = true → k t r = true := by
  induction h with
  | nil σ => intro k hk; exact hk
  | none h ih => intro k hk; exact ih hk
  | some he h ih =>
    intro k hk
    have := allE_sound hA he hk
    exact ih this
  | halt he => intro k hk; exact allE_sound hA he hk

theorem allC_val (hA : A.Sound C) {c : Expr} {σ σ₁ : St} {t : List Ev} {v : Val} {b : Bool}
    (h : Eval C c σ t (.val v σ₁)) (hv : truth v = some b) {n : Nat} {k : List Ev → Out → Bool}
    {x y : List Ev → St → Bool} (hk : allC A n c σ k x y = true) : (if b then x else y) t σ₁ = true := by
  have := allE_sound hA h hk
  simp only [hv] at this
  cases b <;> exact this

theorem allC_none (hA : A.Sound C) {c : Expr} {σ σ₁ : St} {t : List Ev} {v : Val}
    (h : Eval C c σ t (.val v σ₁)) (hv : truth v = none) {n : Nat} {k : List Ev → Out → Bool}
    {x y : List Ev → St → Bool} (hk : allC A n c σ k x y = true) : k t (.halt .err) = true := by
  have := allE_sound hA h hk
  simp only [hv] at this
  exact this

theorem allC_halt (hA : A.Sound C) {c : Expr} {σ : St} {t : List Ev} {q : Halt}
    (h : Eval C c σ t (.halt q)) {n : Nat} {k : List Ev → Out → Bool}
    {x y : List Ev → St → Bool} (hk : allC A n c σ k x y = true) : k t (.halt q) = true :=
  allE_sound hA h hk

mutual

theorem allX_sound (hA : A.Sound C) : ∀ {s σ t r}, Exec C s σ t r → ∀ {n : Nat} {k : List Ev → Out → Bool},
    allX A n s σ k = true → k t r = true
  | _, _, _, _, _, 0, _, hk => by simp [allX] at hk
  | _, _, _, _, .cut _ _, n + 1, k, hk => by simp only [allX, Bool.and_eq_true] at hk; exact hk.1
  | _, _, _, _, .skip _, n + 1, k, hk => by simp only [allX, Bool.and_eq_true] at hk; exact hk.2
  | _, _, _, _, .bad _, n + 1, k, hk => by simp only [allX, Bool.and_eq_true] at hk; exact hk.2
  | _, _, _, _, .expr h, n + 1, k, hk => by
    simp only [allX, Bool.and_eq_true] at hk; exact allE_sound hA h hk.2
  | _, _, _, _, .exprH h, n + 1, k, hk => by
    simp only [allX, Bool.and_eq_true] at hk; exact allE_sound hA h hk.2
  | _, _, _, _, .decl h, n + 1, k, hk => by
    simp only [allX, Bool.and_eq_true] at hk; exact allD_sound hA h hk.2
  | _, _, _, _, .static _ _ _, n + 1, k, hk => by
    simp only [allX, Bool.and_eq_true] at hk; exact hk.2
  | _, _, _, _, .ift h, n + 1, k, hk => by
    simp only [allX, Bool.and_eq_true] at hk; exact allX_sound hA h hk.2
  | _, _, _, _, .ifteT hc hv h, n + 1, k, hk => by
    simp only [allX, Bool.and_eq_true] at hk
    exact allX_sound hA h (allC_val hA hc hv hk.2)
  | _, _, _, _, .ifteF hc hv h, n + 1, k, hk => by
    simp only [allX, Bool.and_eq_true] at hk
    exact allX_sound hA h (allC_val hA hc hv hk.2)
  | _, _, _, _, .ifteU hc hv, n + 1, k, hk => by
    simp only [allX, Bool.and_eq_true] at hk; exact allC_none hA hc hv hk.2
  | _, _, _, _, .ifteH hc, n + 1, k, hk => by
    simp only [allX, Bool.and_eq_true] at hk; exact allC_halt hA hc hk.2
  | _, _, _, _, .loopF hc hv, n + 1, k, hk => by
    simp only [allX, Bool.and_eq_true] at hk; exact allC_val hA hc hv hk.2
  | _, _, _, _, .loopU hc hv, n + 1, k, hk => by
    simp only [allX, Bool.and_eq_true] at hk; exact allC_none hA hc hv hk.2
  | _, _, _, _, .loopH hc, n + 1, k, hk => by
    simp only [allX, Bool.and_eq_true] at hk; exact allC_halt hA hc hk.2
  | _, _, _, _, .loopN hc hv hb h, n + 1, k, hk => by
    simp only [allX, Bool.and_eq_true] at hk
    have := allX_sound hA hb (allC_val hA hc hv hk.2)
    exact allX_sound hA h this
  | _, _, _, _, .loopB hc hv hb, n + 1, k, hk => by
    simp only [allX, Bool.and_eq_true] at hk
    exact allX_sound hA hb (allC_val hA hc hv hk.2)
  | _, _, _, _, .loopA (r := r) hc hv hb hn hb', n + 1, k, hk => by
    simp only [allX, Bool.and_eq_true] at hk
    have := allX_sound hA hb (allC_val hA hc hv hk.2)
    cases r with
    | norm σ => exact absurd rfl (hn σ)
    | brk σ => exact absurd rfl (hb' σ)
    | _ => exact this
  | _, _, _, _, .doN hb h, n + 1, k, hk => by
    simp only [allX, Bool.and_eq_true] at hk
    have := allX_sound hA hb hk.2
    exact allX_sound hA h this
  | _, _, _, _, .doB hb, n + 1, k, hk => by
    simp only [allX, Bool.and_eq_true] at hk
    exact allX_sound hA hb hk.2
  | _, _, _, _, .doA (r := r) hb hn hb', n + 1, k, hk => by
    simp only [allX, Bool.and_eq_true] at hk
    have := allX_sound hA hb hk.2
    cases r with
    | norm σ => exact absurd rfl (hn σ)
    | brk σ => exact absurd rfl (hb' σ)
    | _ => exact this
  | _, _, _, _, .for h, n + 1, k, hk => by
    simp only [allX, Bool.and_eq_true] at hk; exact allX_sound hA h hk.2
  | _, _, _, _, .block h, n + 1, k, hk => by
    simp only [allX, Bool.and_eq_true] at hk; exact allXB_sound hA h hk.2
  | _, _, _, _, .retN _, n + 1, k, hk => by simp only [allX, Bool.and_eq_true] at hk; exact hk.2
  | _, _, _, _, .ret h, n + 1, k, hk => by
    simp only [allX, Bool.and_eq_true] at hk; exact allE_sound hA h hk.2
  | _, _, _, _, .retH h, n + 1, k, hk => by
    simp only [allX, Bool.and_eq_true] at hk; exact allE_sound hA h hk.2
  | _, _, _, _, .brk _, n + 1, k, hk => by simp only [allX, Bool.and_eq_true] at hk; exact hk.2
  | _, _, _, _, .goto _ _, n + 1, k, hk => by simp only [allX, Bool.and_eq_true] at hk; exact hk.2
  | _, _, _, _, .label h, n + 1, k, hk => by
    simp only [allX, Bool.and_eq_true] at hk; exact allX_sound hA h hk.2

theorem allXL_sound (hA : A.Sound C) : ∀ {ss σ t r}, ExecL C ss σ t r →
    ∀ {n : Nat} {k : List Ev → Out → Bool}, allXL A n ss σ k = true → k t r = true
  | _, _, _, _, _, 0, _, hk => by simp [allXL] at hk
  | _, _, _, _, .nil _, n + 1, k, hk => by simpa only [allXL] using hk
  | _, _, _, _, .cons h hs, n + 1, k, hk => by
    simp only [allXL] at hk
    have := allX_sound hA h hk
    exact allXL_sound hA hs this
  | _, _, _, _, .stop (r := r) h hn hj, n + 1, k, hk => by
    simp only [allXL] at hk
    have := allX_sound hA h hk
    cases r with
    | norm σ => exact absurd rfl (hn σ)
    | jump l σ =>
      simp only [hj l σ rfl] at this
      exact this
    | _ => exact this
  | _, _, _, _, .jump h hj hs, n + 1, k, hk => by
    simp only [allXL] at hk
    have := allX_sound hA h hk
    simp only [hj] at this
    exact allXL_sound hA hs this

theorem allXB_sound (hA : A.Sound C) : ∀ {ss d sf σ t r}, ExecB C ss d sf σ t r →
    ∀ {n : Nat} {k : List Ev → Out → Bool}, allXB A n ss d sf σ k = true → k t r = true
  | _, _, _, _, _, _, _, 0, _, hk => by simp [allXB] at hk
  | _, _, _, _, _, _, .fin (r := r) h hj, n + 1, k, hk => by
    simp only [allXB] at hk
    have := allXL_sound hA h hk
    cases r with
    | jump l σ =>
      simp only [hj l σ rfl] at this
      exact this
    | _ => exact this
  | _, _, _, _, _, _, .back h hj hb, n + 1, k, hk => by
    simp only [allXB] at hk
    have := allXL_sound hA h hk
    simp only [hj] at this
    exact allXB_sound hA hb this

end

end

theorem allCalls_sound {P : Prog} {A : AllC} {X : Calls} (hA : A.Sound X) {n : Nat} :
    ∀ (m d : Nat), (allCalls P A n d).Sound (calls P X m)
  | _, 0 => by intro f vs g t r k _ hk; cases hk
  | 0, d + 1 => by
    rintro f vs g t r k ⟨rfl, rfl⟩ hk
    simp only [allCalls, Bool.and_eq_true] at hk
    exact hk.1
  | m + 1, d + 1 => by
    intro f vs g t r k h hk
    simp only [allCalls, Bool.and_eq_true] at hk
    rcases h with ⟨rfl, rfl⟩ | h
    · exact hk.1
    · have hk := hk.2
      cases hF : P f with
      | none =>
        rw [hF] at h hk
        exact hA _ _ _ _ _ _ h hk
      | some F =>
        rw [hF] at h hk
        simp only at h hk
        split at h
        · rename_i hl
          rw [if_pos hl] at hk
          obtain ⟨r, h, rfl⟩ := h
          exact allX_sound (allCalls_sound hA m d) h hk
        · rename_i hl
          rw [if_neg hl] at hk
          obtain ⟨rfl, rfl⟩ := h
          exact hk

theorem Runs.all {P : Prog} {A : AllC} {X : Calls} (hA : A.Sound X) {n d : Nat} {f : Name} {vs : List Val}
    {g : Glob} {k : List Ev → CRes → Bool} (hk : allCalls P A n d f vs g k = true) {t : List Ev} {r : CRes}
    (h : Runs P X f vs g t r) : k t r = true := by
  obtain ⟨m, h⟩ := h
  exact allCalls_sound hA m d _ _ _ _ _ _ h hk

/-! ## External functions -/

/-- Each external function is called without effect on variables and returns the given value. -/
def Ext (v : Name → List Val → Val) : Calls := fun f vs g t r => t = [(f, vs)] ∧ r = .ret (v f vs) g

def allExt (v : Name → List Val → Val) : AllC := fun f vs g k => k [(f, vs)] (.ret (v f vs) g)

theorem allExt_sound (v : Name → List Val → Val) : (allExt v).Sound (Ext v) := by
  rintro f vs g t r k ⟨rfl, rfl⟩ hk
  exact hk

/-! ## A behavior -/

/-- A result of a call. -/
abbrev OneC := Name → List Val → Glob → Option (List Ev × CRes)

def OneC.Sound (A : OneC) (C : Calls) : Prop := ∀ f vs g t r, A f vs g = some (t, r) → C f vs g t r

section
variable (A : OneC)

def oneHead : Expr → St → Option (List Ev × SRes)
  | .var x, σ => some ([], .ok (.val (get σ x)) σ)
  | .assign x (.val v), σ => some ([], .ok (.val v) (set σ x v))
  | .bin o (.val a) (.val b), σ => some ([], .ok (.val (o.sem a b)) σ)
  | .land (.val v) b, σ => some ([], choose σ v (.bin .ne b (.val (some 0))) (.val (some 0)))
  | .lor (.val v) b, σ => some ([], choose σ v (.val (some 1)) (.bin .ne b (.val (some 0))))
  | .comma (.val _) b, σ => some ([], .ok b σ)
  | .cond (.val v) a b, σ => some ([], choose σ v a b)
  | .elvis (.val v) b, σ => some ([], choose σ v (.val v) b)
  | .size _, σ => some ([], .ok (.val (some 4)) σ)
  | .call _ f as, σ =>
    match vals as with
    | none => none
    | some vs =>
      match find σ.l f with
      | some _ => some ([], .halt .err)
      | none => (A f vs σ.g).map fun p => (p.1, p.2.step σ.l)
  | _, _ => none

def inHole (F : Hole) (p : Option (List Ev × SRes)) : Option (List Ev × SRes) :=
  p.map fun p => (p.1, p.2.plug F)

mutual

/-- The leftmost step. -/
def oneStep : Expr → St → Option (List Ev × SRes)
  | .val v, σ => oneHead A (.val v) σ
  | .var x, σ => oneHead A (.var x) σ
  | .assign x e, σ => oneHead A (.assign x e) σ <|> inHole (.assign x) (oneStep e σ)
  | .bin o l r, σ => oneHead A (.bin o l r) σ <|> (inHole (.binL o r) (oneStep l σ) <|>
      inHole (.binR o l) (oneStep r σ))
  | .land l r, σ => oneHead A (.land l r) σ <|> inHole (.land r) (oneStep l σ)
  | .lor l r, σ => oneHead A (.lor l r) σ <|> inHole (.lor r) (oneStep l σ)
  | .comma l r, σ => oneHead A (.comma l r) σ <|> inHole (.comma r) (oneStep l σ)
  | .cond c a b, σ => oneHead A (.cond c a b) σ <|> inHole (.cond a b) (oneStep c σ)
  | .elvis c e, σ => oneHead A (.elvis c e) σ <|> inHole (.elvis e) (oneStep c σ)
  | .size e, σ => oneHead A (.size e) σ
  | .call m f as, σ => oneHead A (.call m f as) σ <|> oneArgs m f [] as σ

def oneArgs (m : Bool) (f : Name) (pre : List Expr) : List Expr → St → Option (List Ev × SRes)
  | [], _ => none
  | e :: es, σ => inHole (.arg m f pre es) (oneStep e σ) <|> oneArgs m f (pre ++ [e]) es σ

end

def oneE : Nat → Expr → St → Option (List Ev × ERes)
  | _, .val v, σ => some ([], .val v σ)
  | 0, _, _ => none
  | n + 1, e, σ =>
    match oneStep A e σ with
    | none => none
    | some (t, .halt h) => some (t, .halt h)
    | some (t, .ok e₁ σ₁) => (oneE n e₁ σ₁).map fun p => (t ++ p.1, p.2)

def oneD (n : Nat) : List Init → St → Option (List Ev × Out)
  | [], σ => some ([], .norm σ)
  | (x, none) :: ds, σ => oneD n ds ⟨σ.g, (x, .auto none) :: σ.l⟩
  | (x, some e) :: ds, σ =>
    match oneE A n e σ with
    | none => none
    | some (t, .halt h) => some (t, .halt h)
    | some (t, .val v σ₁) => (oneD n ds ⟨σ₁.g, (x, .auto v) :: σ₁.l⟩).map fun p => (t ++ p.1, p.2)

/-- A condition. -/
def oneC (n : Nat) (c : Expr) (σ : St) (a b : List Ev → St → Option (List Ev × Out)) :
    Option (List Ev × Out) :=
  match oneE A n c σ with
  | none => none
  | some (t, .halt h) => some (t, .halt h)
  | some (t, .val v σ₁) =>
    match truth v with
    | none => some (t, .halt .err)
    | some true => a t σ₁
    | some false => b t σ₁

def after₁ (t : List Ev) (p : Option (List Ev × Out)) : Option (List Ev × Out) :=
  p.map fun p => (t ++ p.1, p.2)

mutual

def oneX : Nat → Stmt → St → Option (List Ev × Out)
  | 0, _, _ => none
  | n + 1, s, σ =>
    match s with
    | .skip => some ([], .norm σ)
    | .bad => some ([], .halt .err)
    | .expr e =>
      match oneE A n e σ with
      | none => none
      | some (t, .halt h) => some (t, .halt h)
      | some (t, .val _ σ₁) => some (t, .norm σ₁)
    | .decl ds => oneD A n ds σ
    | .static x o => some ([], .norm ⟨σ.g, (x, .alias o) :: σ.l⟩)
    | .ift c a => oneX n (.ifte c a .skip) σ
    | .ifte c a b => oneC A n c σ (fun t σ₁ => after₁ t (oneX n a σ₁)) (fun t σ₁ => after₁ t (oneX n b σ₁))
    | .loop c b => oneC A n c σ
        (fun t σ₁ =>
          match oneX n b σ₁ with
          | none => none
          | some (t₂, .norm σ₂) => after₁ t (after₁ t₂ (oneX n (.loop c b) σ₂))
          | some (t₂, .brk σ₂) => some (t ++ t₂, .norm σ₂)
          | some (t₂, r) => some (t ++ t₂, r))
        (fun t σ₁ => some (t, .norm σ₁))
    | .doloop b c =>
      match oneX n b σ with
      | none => none
      | some (t₂, .norm σ₂) => after₁ t₂ (oneX n (.loop c b) σ₂)
      | some (t₂, .brk σ₂) => some (t₂, .norm σ₂)
      | some (t₂, r) => some (t₂, r)
    | .for i c inc b => oneX n (.block [i, .loop c (.block [b, .expr inc])]) σ
    | .block ss => (oneXB n ss σ.l.length ss σ).map fun p => (p.1, p.2.bot σ.l.length)
    | .ret none => some ([], .ret none σ)
    | .ret (some e) =>
      match oneE A n e σ with
      | none => none
      | some (t, .halt h) => some (t, .halt h)
      | some (t, .val v σ₁) => some (t, .ret v σ₁)
    | .brk => some ([], .brk σ)
    | .goto l => some ([], .jump l σ)
    | .label _ s => oneX n s σ

def oneXL : Nat → List Stmt → St → Option (List Ev × Out)
  | 0, _, _ => none
  | _ + 1, [], σ => some ([], .norm σ)
  | n + 1, s :: ss, σ =>
    match oneX n s σ with
    | none => none
    | some (t, .norm σ₁) => after₁ t (oneXL n ss σ₁)
    | some (t, .jump l σ₁) =>
      match skipTo l ss with
      | none => some (t, .jump l σ₁)
      | some (xs, ss₁) => after₁ t (oneXL n ss₁ (pushUndef σ₁ xs))
    | some (t, r) => some (t, r)

def oneXB : Nat → List Stmt → Nat → List Stmt → St → Option (List Ev × Out)
  | 0, _, _, _, _ => none
  | n + 1, ss, d, sf, σ =>
    match oneXL n sf σ with
    | none => none
    | some (t, .jump l σ₁) =>
      match skipTo l ss with
      | none => some (t, .jump l σ₁)
      | some (xs, ss₁) => after₁ t (oneXB n ss d ss₁ ⟨σ₁.g, bot (d + xs.length) σ₁.l⟩)
    | some (t, r) => some (t, r)

end

end

def oneCalls (P : Prog) (A : OneC) (n : Nat) : Nat → OneC
  | 0 => fun _ _ _ => none
  | d + 1 => fun f vs g =>
    match P f with
    | none => A f vs g
    | some F =>
      if F.params.length = vs.length then
        (oneX (oneCalls P A n d) n (.block F.body) ⟨g, frame F.params vs⟩).map fun p => (p.1, p.2.call)
      else some ([], .halt .err)

section
variable {A : OneC} {C : Calls}

theorem oneHead_sound (hA : A.Sound C) {e : Expr} {σ : St} {t : List Ev} {r : SRes}
    (h : oneHead A e σ = some (t, r)) : Head C e σ t r := by
  unfold oneHead at h
  split at h
  all_goals try (cases h; exact ⟨rfl, rfl⟩)
  · rename_i mk f as
    split at h
    · cases h
    · rename_i vs hv
      refine ⟨vs, vals_some hv, ?_⟩
      split at h
      · rename_i hf
        cases h
        rw [hf]
        exact ⟨rfl, rfl⟩
      · rename_i hf
        rw [hf]
        cases hc : A f vs σ.g with
        | none => rw [hc] at h; cases h
        | some p =>
          rw [hc] at h
          obtain ⟨t₁, cr⟩ := p
          cases h
          exact ⟨cr, hA _ _ _ _ _ hc, rfl⟩
  · cases h

theorem inHole_sound {F : Hole} {e : Expr} {σ : St} {p : Option (List Ev × SRes)} {t : List Ev} {r : SRes}
    (h : inHole F p = some (t, r)) (hp : ∀ t r, p = some (t, r) → Step C e σ t r) :
    Step C (F.plug e) σ t r := by
  cases p with
  | none => cases h
  | some q =>
    obtain ⟨t₁, q⟩ := q
    cases h
    exact .hole F rfl (hp _ _ rfl) rfl

theorem orElse_some {α : Type} {a b : Option α} {x : α} (h : (a <|> b) = some x) : a = some x ∨ b = some x := by
  cases a with
  | none => exact .inr (by simpa using h)
  | some y => exact .inl (by simpa using h)

mutual

theorem oneStep_sound (hA : A.Sound C) : ∀ (e : Expr) {σ : St} {t : List Ev} {r : SRes},
    oneStep A e σ = some (t, r) → Step C e σ t r
  | .val v, σ, t, r, h => by simp only [oneStep] at h; exact .head (oneHead_sound hA h)
  | .var x, σ, t, r, h => by simp only [oneStep] at h; exact .head (oneHead_sound hA h)
  | .assign x e, σ, t, r, h => by
    simp only [oneStep] at h
    rcases orElse_some h with h | h
    · exact .head (oneHead_sound hA h)
    · exact inHole_sound (F := .assign x) h fun t r h => oneStep_sound hA e h
  | .bin o a b, σ, t, r, h => by
    simp only [oneStep] at h
    rcases orElse_some h with h | h
    · exact .head (oneHead_sound hA h)
    · rcases orElse_some h with h | h
      · exact inHole_sound (F := .binL o b) h fun t r h => oneStep_sound hA a h
      · exact inHole_sound (F := .binR o a) h fun t r h => oneStep_sound hA b h
  | .land a b, σ, t, r, h => by
    simp only [oneStep] at h
    rcases orElse_some h with h | h
    · exact .head (oneHead_sound hA h)
    · exact inHole_sound (F := .land b) h fun t r h => oneStep_sound hA a h
  | .lor a b, σ, t, r, h => by
    simp only [oneStep] at h
    rcases orElse_some h with h | h
    · exact .head (oneHead_sound hA h)
    · exact inHole_sound (F := .lor b) h fun t r h => oneStep_sound hA a h
  | .comma a b, σ, t, r, h => by
    simp only [oneStep] at h
    rcases orElse_some h with h | h
    · exact .head (oneHead_sound hA h)
    · exact inHole_sound (F := .comma b) h fun t r h => oneStep_sound hA a h
  | .cond c a b, σ, t, r, h => by
    simp only [oneStep] at h
    rcases orElse_some h with h | h
    · exact .head (oneHead_sound hA h)
    · exact inHole_sound (F := .cond a b) h fun t r h => oneStep_sound hA c h
  | .elvis a b, σ, t, r, h => by
    simp only [oneStep] at h
    rcases orElse_some h with h | h
    · exact .head (oneHead_sound hA h)
    · exact inHole_sound (F := .elvis b) h fun t r h => oneStep_sound hA a h
  | .size e, σ, t, r, h => by simp only [oneStep] at h; exact .head (oneHead_sound hA h)
  | .call m f as, σ, t, r, h => by
    simp only [oneStep] at h
    rcases orElse_some h with h | h
    · exact .head (oneHead_sound hA h)
    · simpa using oneArgs_sound hA as [] h

theorem oneArgs_sound (hA : A.Sound C) {m : Bool} {f : Name} : ∀ (es pre : List Expr) {σ : St} {t : List Ev}
    {r : SRes}, oneArgs A m f pre es σ = some (t, r) → Step C (.call m f (pre ++ es)) σ t r
  | [], _, _, _, _, h => by simp [oneArgs] at h
  | e :: es, pre, σ, t, r, h => by
    simp only [oneArgs] at h
    rcases orElse_some h with h | h
    · exact inHole_sound (F := .arg m f pre es) h fun t r h => oneStep_sound hA e h
    · simpa using oneArgs_sound hA es (pre ++ [e]) h

end

theorem oneE_sound (hA : A.Sound C) : ∀ (n : Nat) {e : Expr} {σ : St} {t : List Ev} {r : ERes},
    oneE A n e σ = some (t, r) → Eval C e σ t r := by
  intro n
  induction n with
  | zero =>
    intro e σ t r h
    cases e <;> simp only [oneE] at h <;> cases h
    exact .val (.refl _ _)
  | succ n ih =>
    intro e σ t r h
    have key : ∀ {e : Expr}, (match oneStep A e σ with
        | none => none
        | some (t, .halt h) => some (t, .halt h)
        | some (t, .ok e₁ σ₁) => (oneE A n e₁ σ₁).map fun p => (t ++ p.1, p.2)) = some (t, r) →
        Eval C e σ t r := by
      intro e h
      split at h
      · cases h
      · rename_i hs
        cases h
        exact .halt (.halt (oneStep_sound hA _ hs))
      · rename_i t₁ e₁ σ₁ hs
        cases he : oneE A n e₁ σ₁ with
        | none => rw [he] at h; cases h
        | some p =>
          rw [he] at h
          obtain ⟨t₂, q⟩ := p
          cases h
          have h₁ := oneStep_sound hA _ hs
          cases ih he with
          | val h₂ => exact .val (.step h₁ h₂)
          | halt h₂ => exact .halt (.step h₁ h₂)
    cases e
    case val v => simp only [oneE] at h; cases h; exact .val (.refl _ _)
    all_goals exact key (by simpa only [oneE] using h)

theorem after₁_some {t t₁ : List Ev} {p : Option (List Ev × Out)} {r : Out} (h : after₁ t p = some (t₁, r)) :
    ∃ t₂, p = some (t₂, r) ∧ t₁ = t ++ t₂ := by
  cases p with
  | none => cases h
  | some q => obtain ⟨t₂, q⟩ := q; cases h; exact ⟨_, rfl, rfl⟩

theorem oneD_sound (hA : A.Sound C) {n : Nat} : ∀ (ds : List Init) {σ : St} {t : List Ev} {r : Out},
    oneD A n ds σ = some (t, r) → ExecD C ds σ t r
  | [], σ, t, r, h => by cases h; exact .nil _
  | (x, none) :: ds, σ, t, r, h => .none (oneD_sound hA ds h)
  | (x, some e) :: ds, σ, t, r, h => by
    simp only [oneD] at h
    split at h
    · cases h
    · rename_i he
      cases h
      exact .halt (oneE_sound hA n he)
    · rename_i he
      obtain ⟨t₂, h', rfl⟩ := after₁_some h
      exact .some (oneE_sound hA n he) (oneD_sound hA ds h')

theorem oneC_sound (hA : A.Sound C) {n : Nat} {c : Expr} {σ : St} {x y : List Ev → St → Option (List Ev × Out)}
    {t : List Ev} {r : Out} (h : oneC A n c σ x y = some (t, r)) :
    (∃ q, r = .halt q ∧ Eval C c σ t (.halt q)) ∨
    (∃ v σ₁, r = .halt .err ∧ truth v = none ∧ Eval C c σ t (.val v σ₁)) ∨
    (∃ v σ₁ t₁, truth v = some true ∧ Eval C c σ t₁ (.val v σ₁) ∧ x t₁ σ₁ = some (t, r)) ∨
    ∃ v σ₁ t₁, truth v = some false ∧ Eval C c σ t₁ (.val v σ₁) ∧ y t₁ σ₁ = some (t, r) := by
  unfold oneC at h
  split at h
  · cases h
  · rename_i he
    cases h
    exact .inl ⟨_, rfl, oneE_sound hA n he⟩
  · rename_i v σ₁ he
    split at h
    · rename_i hv
      cases h
      exact .inr (.inl ⟨v, σ₁, rfl, hv, oneE_sound hA n he⟩)
    · rename_i hv
      exact .inr (.inr (.inl ⟨v, σ₁, _, hv, oneE_sound hA n he, h⟩))
    · rename_i hv
      exact .inr (.inr (.inr ⟨v, σ₁, _, hv, oneE_sound hA n he, h⟩))

mutual

theorem oneX_sound (hA : A.Sound C) : ∀ (n : Nat) {s : Stmt} {σ : St} {t : List Ev} {r : Out},
    oneX A n s σ = some (t, r) → Exec C s σ t r
  | 0, _, _, _, _, h => by simp [oneX] at h
  | n + 1, .skip, σ, t, r, h => by simp only [oneX] at h; cases h; exact .skip _
  | n + 1, .bad, σ, t, r, h => by simp only [oneX] at h; cases h; exact .bad _
  | n + 1, .expr e, σ, t, r, h => by
    simp only [oneX] at h
    split at h
    · cases h
    · rename_i he; cases h; exact .exprH (oneE_sound hA n he)
    · rename_i he; cases h; exact .expr (oneE_sound hA n he)
  | n + 1, .decl ds, σ, t, r, h => by simp only [oneX] at h; exact .decl (oneD_sound hA ds h)
  | n + 1, .static x o, σ, t, r, h => by simp only [oneX] at h; cases h; exact .static _ _ _
  | n + 1, .ift c a, σ, t, r, h => by simp only [oneX] at h; exact .ift (oneX_sound hA n h)
  | n + 1, .ifte c a b, σ, t, r, h => by
    simp only [oneX] at h
    rcases oneC_sound hA h with ⟨q, rfl, h'⟩ | ⟨v, σ₁, rfl, hv, h'⟩ | ⟨v, σ₁, t₁, hv, hc, h⟩ | ⟨v, σ₁, t₁, hv, hc, h⟩
    · exact .ifteH h'
    · exact .ifteU h' hv
    · obtain ⟨t₂, h', rfl⟩ := after₁_some h
      exact .ifteT hc hv (oneX_sound hA n h')
    · obtain ⟨t₂, h', rfl⟩ := after₁_some h
      exact .ifteF hc hv (oneX_sound hA n h')
  | n + 1, .loop c b, σ, t, r, h => by
    simp only [oneX] at h
    rcases oneC_sound hA h with ⟨q, rfl, h'⟩ | ⟨v, σ₁, rfl, hv, h'⟩ | ⟨v, σ₁, t₁, hv, hc, h⟩ | ⟨v, σ₁, t₁, hv, hc, h⟩
    · exact .loopH h'
    · exact .loopU h' hv
    · split at h
      · cases h
      · rename_i hb
        obtain ⟨t₂, h', rfl⟩ := after₁_some h
        obtain ⟨t₃, h'', rfl⟩ := after₁_some h'
        exact .loopN hc hv (oneX_sound hA n hb) (oneX_sound hA n h'')
      · rename_i hb
        cases h
        exact .loopB hc hv (oneX_sound hA n hb)
      · rename_i hb' hb'' hb
        cases h
        refine .loopA hc hv (oneX_sound hA n hb) (fun σ he => ?_) (fun σ he => ?_)
        · exact hb' _ he
        · exact hb'' _ he
    · cases h
      exact .loopF hc hv
  | n + 1, .doloop b c, σ, t, r, h => by
    simp only [oneX] at h
    split at h
    · cases h
    · rename_i hb
      obtain ⟨t₂, h', rfl⟩ := after₁_some h
      exact .doN (oneX_sound hA n hb) (oneX_sound hA n h')
    · rename_i hb
      cases h
      exact .doB (oneX_sound hA n hb)
    · rename_i hb' hb'' hb
      cases h
      refine .doA (oneX_sound hA n hb) (fun σ he => ?_) (fun σ he => ?_)
      · exact hb' _ he
      · exact hb'' _ he
  | n + 1, .for i c inc b, σ, t, r, h => by simp only [oneX] at h; exact .for (oneX_sound hA n h)
  | n + 1, .block ss, σ, t, r, h => by
    simp only [oneX] at h
    cases hb : oneXB A n ss σ.l.length ss σ with
    | none => rw [hb] at h; cases h
    | some p =>
      rw [hb] at h
      obtain ⟨t₁, q⟩ := p
      cases h
      exact .block (oneXB_sound hA n hb)
  | n + 1, .ret none, σ, t, r, h => by simp only [oneX] at h; cases h; exact .retN _
  | n + 1, .ret (some e), σ, t, r, h => by
    simp only [oneX] at h
    split at h
    · cases h
    · rename_i he; cases h; exact .retH (oneE_sound hA n he)
    · rename_i he; cases h; exact .ret (oneE_sound hA n he)
  | n + 1, .brk, σ, t, r, h => by simp only [oneX] at h; cases h; exact .brk _
  | n + 1, .goto l, σ, t, r, h => by simp only [oneX] at h; cases h; exact .goto _ _
  | n + 1, .label l s, σ, t, r, h => by simp only [oneX] at h; exact .label (oneX_sound hA n h)

theorem oneXL_sound (hA : A.Sound C) : ∀ (n : Nat) {ss : List Stmt} {σ : St} {t : List Ev} {r : Out},
    oneXL A n ss σ = some (t, r) → ExecL C ss σ t r
  | 0, _, _, _, _, h => by simp [oneXL] at h
  | n + 1, [], σ, t, r, h => by simp only [oneXL] at h; cases h; exact .nil _
  | n + 1, s :: ss, σ, t, r, h => by
    simp only [oneXL] at h
    split at h
    · cases h
    · rename_i hb
      obtain ⟨t₂, h', rfl⟩ := after₁_some h
      exact .cons (oneX_sound hA n hb) (oneXL_sound hA n h')
    · rename_i hb
      split at h
      · rename_i hj
        cases h
        exact .stop (oneX_sound hA n hb) (by simp) (fun l σ he => by cases he; exact hj)
      · rename_i hj
        obtain ⟨t₂, h', rfl⟩ := after₁_some h
        exact .jump (oneX_sound hA n hb) hj (oneXL_sound hA n h')
    · rename_i hb' hb'' hb
      cases h
      refine .stop (oneX_sound hA n hb) (fun σ he => ?_) (fun l σ he => ?_)
      · exact (hb' _ he).elim
      · exact (hb'' _ _ he).elim

theorem oneXB_sound (hA : A.Sound C) : ∀ (n : Nat) {ss sf : List Stmt} {d : Nat} {σ : St} {t : List Ev} {r : Out},
    oneXB A n ss d sf σ = some (t, r) → ExecB C ss d sf σ t r
  | 0, _, _, _, _, _, _, h => by simp [oneXB] at h
  | n + 1, ss, sf, d, σ, t, r, h => by
    simp only [oneXB] at h
    split at h
    · cases h
    · rename_i hb
      split at h
      · rename_i hj
        cases h
        exact .fin (oneXL_sound hA n hb) (fun l σ he => by cases he; exact hj)
      · rename_i hj
        obtain ⟨t₂, h', rfl⟩ := after₁_some h
        exact .back (oneXL_sound hA n hb) hj (oneXB_sound hA n h')
    · rename_i hb' hb
      cases h
      exact .fin (oneXL_sound hA n hb) (fun l σ he => (hb' _ _ he).elim)

end

end

theorem oneCalls_sound {P : Prog} {A : OneC} {X : Calls} (hA : A.Sound X) {n : Nat} :
    ∀ (d : Nat), (oneCalls P A n d).Sound (calls P X d)
  | 0 => by intro f vs g t r h; cases h
  | d + 1 => by
    intro f vs g t r h
    simp only [oneCalls] at h
    refine .inr ?_
    cases hF : P f with
    | none => rw [hF] at h; exact hA _ _ _ _ _ h
    | some F =>
      rw [hF] at h
      simp only at h ⊢
      split at h
      · rename_i hl
        rw [if_pos hl]
        cases hx : oneX (oneCalls P A n d) n (.block F.body) ⟨g, frame F.params vs⟩ with
        | none => rw [hx] at h; cases h
        | some p =>
          rw [hx] at h
          obtain ⟨t₁, q⟩ := p
          cases h
          exact ⟨q, oneX_sound (oneCalls_sound hA d) n hx, rfl⟩
      · rename_i hl
        rw [if_neg hl]
        cases h
        exact ⟨rfl, rfl⟩

def oneExt (v : Name → List Val → Val) : OneC := fun f vs g => some ([(f, vs)], .ret (v f vs) g)

theorem oneExt_sound (v : Name → List Val → Val) : (oneExt v).Sound (Ext v) := by
  intro f vs g t r h
  cases h
  exact ⟨rfl, rfl⟩

/-- A behavior of the first program is not a behavior of the second one. -/
theorem differ {P Q : Prog} (v : Name → List Val → Val) {n d : Nat} {f : Name} {vs : List Val} {g : Glob}
    (k : List Ev → CRes → Bool)
    (hP : ((oneCalls P (oneExt v) n d f vs g).map fun p => k p.1 p.2) = some false)
    (hQ : allCalls Q (allExt v) n d f vs g k = true) :
    ∃ t r, Runs P (Ext v) f vs g t r ∧ ¬ Runs Q (Ext v) f vs g t r := by
  cases h : oneCalls P (oneExt v) n d f vs g with
  | none => rw [h] at hP; cases hP
  | some p =>
    rw [h] at hP
    obtain ⟨t, r⟩ := p
    refine ⟨t, r, ⟨d, oneCalls_sound (oneExt_sound v) d _ _ _ _ _ h⟩, fun hr => ?_⟩
    have := hr.all (allExt_sound v) hQ
    simp only [Option.map_some, Option.some.injEq] at hP
    rw [this] at hP
    cases hP

end Tsar.Inline
