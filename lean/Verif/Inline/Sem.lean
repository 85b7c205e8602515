import Verif.Inline.Lang
/-!
# Properties of executions: composition of steps, monotonicity and limits of calls
-/
namespace Tsar.Inline

theorem Steps.trans {C : Calls} {e σ t₁ e₁ σ₁ t₂ r} (h₁ : Steps C e σ t₁ (.ok e₁ σ₁))
    (h₂ : Steps C e₁ σ₁ t₂ r) : Steps C e σ (t₁ ++ t₂) r := by
  generalize hq : SRes.ok e₁ σ₁ = q at h₁
  induction h₁ with
  | refl e σ => cases hq; simpa using h₂
  | cut => cases hq
  | halt => cases hq
  | step h _ ih => rw [List.append_assoc]; exact .step h (ih hq)

theorem Steps.hole {C : Calls} {e σ t r} (F : Hole) (h : Steps C e σ t r) :
    Steps C (F.plug e) σ t (r.plug F) := by
  induction h with
  | refl e σ => exact .refl _ _
  | cut => exact .cut _ _
  | halt hs => exact .halt (.hole F rfl hs rfl)
  | step h _ ih => exact .step (.hole F rfl h rfl) ih

theorem Steps.one {C : Calls} {e σ t r} (h : Step C e σ t r) : Steps C e σ t r := by
  cases r with
  | ok e₁ σ₁ => simpa using Steps.step h (.refl _ _)
  | halt k => exact .halt h

/-! ## Monotonicity -/

section Mono
variable {C D : Calls} (hCD : ∀ f vs g t r, C f vs g t r → D f vs g t r)
include hCD

theorem Head.mono {e σ t r} (h : Head C e σ t r) : Head D e σ t r := by
  unfold Head at h ⊢
  split at h <;> try exact h
  obtain ⟨vs, h₁, h₂⟩ := h
  refine ⟨vs, h₁, ?_⟩
  split at h₂
  · simpa [*] using h₂
  · obtain ⟨cr, h₃, h₄⟩ := h₂
    simp only [*]
    exact ⟨cr, hCD _ _ _ _ _ h₃, rfl⟩

theorem Step.mono {e σ t r} (h : Step C e σ t r) : Step D e σ t r := by
  induction h with
  | head h => exact .head (Head.mono hCD h)
  | hole F he _ hr ih => exact .hole F he ih hr

theorem Steps.mono {e σ t r} (h : Steps C e σ t r) : Steps D e σ t r := by
  induction h with
  | refl => exact .refl _ _
  | cut => exact .cut _ _
  | halt h => exact .halt (Step.mono hCD h)
  | step h _ ih => exact .step (Step.mono hCD h) ih

theorem Eval.mono {e σ t r} (h : Eval C e σ t r) : Eval D e σ t r := by
  cases h with
  | val h => exact .val (Steps.mono hCD h)
  | halt h => exact .halt (Steps.mono hCD h)

theorem ExecD.mono {ds σ t r} (h : ExecD C ds σ t r) : ExecD D ds σ t r := by
  induction h with
  | nil => exact .nil _
  | none _ ih => exact .none ih
  | some he _ ih => exact .some (Eval.mono hCD he) ih
  | halt he => exact .halt (Eval.mono hCD he)

mutual

theorem Exec.mono : ∀ {s σ t r}, Exec C s σ t r → Exec D s σ t r
  | _, _, _, _, .cut s σ => .cut s σ
  | _, _, _, _, .skip σ => .skip σ
  | _, _, _, _, .bad σ => .bad σ
  | _, _, _, _, .expr h => .expr (Eval.mono hCD h)
  | _, _, _, _, .exprH h => .exprH (Eval.mono hCD h)
  | _, _, _, _, .decl h => .decl (ExecD.mono hCD h)
  | _, _, _, _, .static x o σ => .static x o σ
  | _, _, _, _, .ift h => .ift (Exec.mono h)
  | _, _, _, _, .ifteT hc hv h => .ifteT (Eval.mono hCD hc) hv (Exec.mono h)
  | _, _, _, _, .ifteF hc hv h => .ifteF (Eval.mono hCD hc) hv (Exec.mono h)
  | _, _, _, _, .ifteU hc hv => .ifteU (Eval.mono hCD hc) hv
  | _, _, _, _, .ifteH hc => .ifteH (Eval.mono hCD hc)
  | _, _, _, _, .loopF hc hv => .loopF (Eval.mono hCD hc) hv
  | _, _, _, _, .loopU hc hv => .loopU (Eval.mono hCD hc) hv
  | _, _, _, _, .loopH hc => .loopH (Eval.mono hCD hc)
  | _, _, _, _, .loopN hc hv hb h => .loopN (Eval.mono hCD hc) hv (Exec.mono hb) (Exec.mono h)
  | _, _, _, _, .loopB hc hv hb => .loopB (Eval.mono hCD hc) hv (Exec.mono hb)
  | _, _, _, _, .loopA hc hv hb hn hk => .loopA (Eval.mono hCD hc) hv (Exec.mono hb) hn hk
  | _, _, _, _, .doN hb h => .doN (Exec.mono hb) (Exec.mono h)
  | _, _, _, _, .doB hb => .doB (Exec.mono hb)
  | _, _, _, _, .doA hb hn hk => .doA (Exec.mono hb) hn hk
  | _, _, _, _, .for h => .for (Exec.mono h)
  | _, _, _, _, .block h => .block (ExecB.mono h)
  | _, _, _, _, .retN σ => .retN σ
  | _, _, _, _, .ret h => .ret (Eval.mono hCD h)
  | _, _, _, _, .retH h => .retH (Eval.mono hCD h)
  | _, _, _, _, .brk σ => .brk σ
  | _, _, _, _, .goto l σ => .goto l σ
  | _, _, _, _, .label h => .label (Exec.mono h)

theorem ExecL.mono : ∀ {s σ t r}, ExecL C s σ t r → ExecL D s σ t r
  | _, _, _, _, .nil σ => .nil σ
  | _, _, _, _, .cons h hs => .cons (Exec.mono h) (ExecL.mono hs)
  | _, _, _, _, .stop h hn hj => .stop (Exec.mono h) hn hj
  | _, _, _, _, .jump h hj hs => .jump (Exec.mono h) hj (ExecL.mono hs)

theorem ExecB.mono : ∀ {ss n sf σ t r}, ExecB C ss n sf σ t r → ExecB D ss n sf σ t r
  | _, _, _, _, _, _, .fin h hj => .fin (ExecL.mono h) hj
  | _, _, _, _, _, _, .back h hj hb => .back (ExecL.mono h) hj (ExecB.mono hb)

end

end Mono

theorem calls_succ {P : Prog} {X : Calls} (n : Nat) : ∀ f vs g t r, calls P X n f vs g t r →
    calls P X (n + 1) f vs g t r := by
  induction n with
  | zero => intro f vs g t r h; exact .inl h
  | succ n ih =>
    intro f vs g t r h
    rcases h with h | h
    · exact .inl h
    · refine .inr ?_
      cases hP : P f with
      | none => simpa [hP] using h
      | some F =>
        simp only [hP] at h ⊢
        split
        · rename_i hl
          rw [if_pos hl] at h
          obtain ⟨r, h₁, h₂⟩ := h
          exact ⟨r, Exec.mono ih h₁, h₂⟩
        · rename_i hl
          rwa [if_neg hl] at h

theorem calls_mono {P : Prog} {X : Calls} {n m : Nat} (hnm : n ≤ m) : ∀ f vs g t r,
    calls P X n f vs g t r → calls P X m f vs g t r := by
  induction hnm with
  | refl => intro f vs g t r h; exact h
  | step _ ih => intro f vs g t r h; exact calls_succ _ _ _ _ _ _ (ih _ _ _ _ _ h)

/-! ## Limits -/

section Limit
variable {C : Nat → Calls} (hC : ∀ n m, n ≤ m → ∀ f vs g t r, C n f vs g t r → C m f vs g t r)

/-- Calls of any depth. -/
def lim (C : Nat → Calls) : Calls := fun f vs g t r => ∃ n, C n f vs g t r

include hC

theorem Head.lim {e σ t r} (h : Head (lim C) e σ t r) : ∃ n, Head (C n) e σ t r := by
  unfold Head at h
  split at h <;> first | exact False.elim h | exact ⟨0, by unfold Head; exact h⟩ | skip
  obtain ⟨vs, h₁, h₂⟩ := h
  split at h₂
  · rename_i hf
    exact ⟨0, vs, h₁, by simp only [hf]; exact h₂⟩
  · rename_i hf
    obtain ⟨cr, ⟨n, h₃⟩, h₄⟩ := h₂
    exact ⟨n, vs, h₁, by simp only [hf]; exact ⟨cr, h₃, h₄⟩⟩

theorem Step.lim {e σ t r} (h : Step (lim C) e σ t r) : ∃ n, Step (C n) e σ t r := by
  induction h with
  | head h => obtain ⟨n, h⟩ := Head.lim hC h; exact ⟨n, .head h⟩
  | hole F he _ hr ih => obtain ⟨n, h⟩ := ih; exact ⟨n, .hole F he h hr⟩

theorem Steps.lim {e σ t r} (h : Steps (lim C) e σ t r) : ∃ n, Steps (C n) e σ t r := by
  induction h with
  | refl => exact ⟨0, .refl _ _⟩
  | cut => exact ⟨0, .cut _ _⟩
  | halt h => obtain ⟨n, h⟩ := Step.lim hC h; exact ⟨n, .halt h⟩
  | step h _ ih =>
    obtain ⟨n, h⟩ := Step.lim hC h
    obtain ⟨m, ih⟩ := ih
    exact ⟨max n m, .step (Step.mono (hC _ _ (Nat.le_max_left _ _)) h)
      (Steps.mono (hC _ _ (Nat.le_max_right _ _)) ih)⟩

theorem Eval.lim {e σ t r} (h : Eval (lim C) e σ t r) : ∃ n, Eval (C n) e σ t r := by
  cases h with
  | val h => obtain ⟨n, h⟩ := Steps.lim hC h; exact ⟨n, .val h⟩
  | halt h => obtain ⟨n, h⟩ := Steps.lim hC h; exact ⟨n, .halt h⟩

theorem ExecD.lim {ds σ t r} (h : ExecD (lim C) ds σ t r) : ∃ n, ExecD (C n) ds σ t r := by
  induction h with
  | nil => exact ⟨0, .nil _⟩
  | none _ ih => obtain ⟨n, h⟩ := ih; exact ⟨n, .none h⟩
  | some he _ ih =>
    obtain ⟨n, h⟩ := Eval.lim hC he
    obtain ⟨m, ih⟩ := ih
    exact ⟨max n m, .some (Eval.mono (hC _ _ (Nat.le_max_left _ _)) h)
      (ExecD.mono (hC _ _ (Nat.le_max_right _ _)) ih)⟩
  | halt he => obtain ⟨n, h⟩ := Eval.lim hC he; exact ⟨n, .halt h⟩

/-- Common depth of two executions. -/
theorem both {A B : Calls → Prop} (hA : ∀ C D : Calls, (∀ f vs g t r, C f vs g t r → D f vs g t r) → A C → A D)
    (hB : ∀ C D : Calls, (∀ f vs g t r, C f vs g t r → D f vs g t r) → B C → B D)
    (h₁ : ∃ n, A (C n)) (h₂ : ∃ n, B (C n)) : ∃ n, A (C n) ∧ B (C n) := by
  obtain ⟨n, h₁⟩ := h₁
  obtain ⟨m, h₂⟩ := h₂
  exact ⟨max n m, hA _ _ (hC _ _ (Nat.le_max_left _ _)) h₁, hB _ _ (hC _ _ (Nat.le_max_right _ _)) h₂⟩

mutual

theorem Exec.lim : ∀ {s σ t r}, Exec (lim C) s σ t r → ∃ n, Exec (C n) s σ t r
  | _, _, _, _, .cut s σ => ⟨0, .cut s σ⟩
  | _, _, _, _, .skip σ => ⟨0, .skip σ⟩
  | _, _, _, _, .bad σ => ⟨0, .bad σ⟩
  | _, _, _, _, .expr h => (Eval.lim hC h).imp fun _ h => .expr h
  | _, _, _, _, .exprH h => (Eval.lim hC h).imp fun _ h => .exprH h
  | _, _, _, _, .decl h => (ExecD.lim hC h).imp fun _ h => .decl h
  | _, _, _, _, .static x o σ => ⟨0, .static x o σ⟩
  | _, _, _, _, .ift h => (Exec.lim h).imp fun _ h => .ift h
  | _, _, _, _, .ifteT hc hv h =>
    (both hC (fun _ _ hh => Eval.mono hh) (fun _ _ hh => Exec.mono hh) (Eval.lim hC hc) (Exec.lim h)).imp
      fun _ h => .ifteT h.1 hv h.2
  | _, _, _, _, .ifteF hc hv h =>
    (both hC (fun _ _ hh => Eval.mono hh) (fun _ _ hh => Exec.mono hh) (Eval.lim hC hc) (Exec.lim h)).imp
      fun _ h => .ifteF h.1 hv h.2
  | _, _, _, _, .ifteU hc hv => (Eval.lim hC hc).imp fun _ h => .ifteU h hv
  | _, _, _, _, .ifteH hc => (Eval.lim hC hc).imp fun _ h => .ifteH h
  | _, _, _, _, .loopF hc hv => (Eval.lim hC hc).imp fun _ h => .loopF h hv
  | _, _, _, _, .loopU hc hv => (Eval.lim hC hc).imp fun _ h => .loopU h hv
  | _, _, _, _, .loopH hc => (Eval.lim hC hc).imp fun _ h => .loopH h
  | _, _, _, _, .loopN hc hv hb h => by
    obtain ⟨n, h₁, h₂⟩ := both hC (fun _ _ hh => Exec.mono hh) (fun _ _ hh => Exec.mono hh)
      (Exec.lim hb) (Exec.lim h)
    obtain ⟨m, h₀⟩ := Eval.lim hC hc
    exact ⟨max n m, .loopN (Eval.mono (hC _ _ (Nat.le_max_right _ _)) h₀) hv
      (Exec.mono (hC _ _ (Nat.le_max_left _ _)) h₁) (Exec.mono (hC _ _ (Nat.le_max_left _ _)) h₂)⟩
  | _, _, _, _, .loopB hc hv hb =>
    (both hC (fun _ _ hh => Eval.mono hh) (fun _ _ hh => Exec.mono hh) (Eval.lim hC hc) (Exec.lim hb)).imp
      fun _ h => .loopB h.1 hv h.2
  | _, _, _, _, .loopA hc hv hb hn hk =>
    (both hC (fun _ _ hh => Eval.mono hh) (fun _ _ hh => Exec.mono hh) (Eval.lim hC hc) (Exec.lim hb)).imp
      fun _ h => .loopA h.1 hv h.2 hn hk
  | _, _, _, _, .doN hb h =>
    (both hC (fun _ _ hh => Exec.mono hh) (fun _ _ hh => Exec.mono hh) (Exec.lim hb) (Exec.lim h)).imp
      fun _ h => .doN h.1 h.2
  | _, _, _, _, .doB hb => (Exec.lim hb).imp fun _ h => .doB h
  | _, _, _, _, .doA hb hn hk => (Exec.lim hb).imp fun _ h => .doA h hn hk
  | _, _, _, _, .for h => (Exec.lim h).imp fun _ h => .for h
  | _, _, _, _, .block h => (ExecB.lim h).imp fun _ h => .block h
  | _, _, _, _, .retN σ => ⟨0, .retN σ⟩
  | _, _, _, _, .ret h => (Eval.lim hC h).imp fun _ h => .ret h
  | _, _, _, _, .retH h => (Eval.lim hC h).imp fun _ h => .retH h
  | _, _, _, _, .brk σ => ⟨0, .brk σ⟩
  | _, _, _, _, .goto l σ => ⟨0, .goto l σ⟩
  | _, _, _, _, .label h => (Exec.lim h).imp fun _ h => .label h

theorem ExecL.lim : ∀ {s σ t r}, ExecL (lim C) s σ t r → ∃ n, ExecL (C n) s σ t r
  | _, _, _, _, .nil σ => ⟨0, .nil σ⟩
  | _, _, _, _, .cons h hs =>
    (both hC (fun _ _ hh => Exec.mono hh) (fun _ _ hh => ExecL.mono hh) (Exec.lim h) (ExecL.lim hs)).imp
      fun _ h => .cons h.1 h.2
  | _, _, _, _, .stop h hn hj => (Exec.lim h).imp fun _ h => .stop h hn hj
  | _, _, _, _, .jump h hj hs =>
    (both hC (fun _ _ hh => Exec.mono hh) (fun _ _ hh => ExecL.mono hh) (Exec.lim h) (ExecL.lim hs)).imp
      fun _ h => .jump h.1 hj h.2

theorem ExecB.lim : ∀ {ss n sf σ t r}, ExecB (lim C) ss n sf σ t r → ∃ k, ExecB (C k) ss n sf σ t r
  | _, _, _, _, _, _, .fin h hj => (ExecL.lim h).imp fun _ h => .fin h hj
  | _, _, _, _, _, _, .back h hj hb =>
    (both hC (fun _ _ hh => ExecL.mono hh) (fun _ _ hh => ExecB.mono hh) (ExecL.lim h) (ExecB.lim hb)).imp
      fun _ h => .back h.1 hj h.2

end

end Limit

/-- A body of a function may be executed to execute a call. -/
theorem Runs.of_body {P : Prog} {X : Calls} {f F vs g t r} (hF : P f = some F)
    (hl : F.params.length = vs.length)
    (h : Exec (Runs P X) (.block F.body) ⟨g, frame F.params vs⟩ t r) :
    Runs P X f vs g t r.call := by
  obtain ⟨n, h⟩ := Exec.lim (C := calls P X) (fun n m h => calls_mono h) h
  refine ⟨n + 1, .inr ?_⟩
  simp only [hF, hl, if_true]
  exact ⟨r, h, rfl⟩

end Tsar.Inline
