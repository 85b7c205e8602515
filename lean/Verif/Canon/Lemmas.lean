import Verif.Canon.Spec

/-!
# Lemmas about `isLoopInvariantMemory`
-/

namespace Tsar
namespace Canon

variable {L N : Type} {k : Know N} {ind : N}

/-- Sum of reads. -/
def useSum (k : Know N) (ind : N) : List (Tree L N) → Nat
  | [] => 0
  | t :: l => (invariant k ind t).use + useSum k ind l

/-- Sum of writes. -/
def dfnSum (k : Know N) (ind : N) : List (Tree L N) → Nat
  | [] => 0
  | t :: l => (invariant k ind t).dfn + dfnSum k ind l

@[simp] theorem addOperand_ok (root t : Tree L N) (idx : List Nat) (i : Nat) (acc r : Res L N) :
    (addOperand root t idx i acc r).ok = acc.ok := by
  unfold addOperand
  dsimp only
  split
  · rfl
  · split
    · rfl
    · split <;> rfl

@[simp] theorem addOperand_use (root t : Tree L N) (idx : List Nat) (i : Nat) (acc r : Res L N) :
    (addOperand root t idx i acc r).use = acc.use + r.use := by
  unfold addOperand
  dsimp only
  split
  · rfl
  · split
    · rfl
    · split <;> rfl

@[simp] theorem addOperand_dfn (root t : Tree L N) (idx : List Nat) (i : Nat) (acc r : Res L N) :
    (addOperand root t idx i acc r).dfn = acc.dfn + r.dfn := by
  unfold addOperand
  dsimp only
  split
  · rfl
  · split
    · rfl
    · split <;> rfl

/-- What is known if all operands are invariant. -/
theorem invariantOps_ok (root : Tree L N) (idx : List Nat) : ∀ (l : List (Tree L N)) (n : Nat) (acc : Res L N)
    (pure : Bool), (invariantOps k ind root idx n l acc pure).1.ok = true →
    acc.ok = true ∧ (∀ t ∈ l, (invariant k ind t).ok = true) ∧
    (invariantOps k ind root idx n l acc pure).1.use = acc.use + useSum k ind l ∧
    (invariantOps k ind root idx n l acc pure).1.dfn = acc.dfn + dfnSum k ind l ∧
    ((invariantOps k ind root idx n l acc pure).2 = true ↔ pure = true ∧ useSum k ind l = 0 ∧ dfnSum k ind l = 0) := by
  intro l
  induction l with
  | nil =>
    intro n acc pure h
    simp only [invariantOps] at h ⊢
    exact ⟨h, fun t ht => (by cases ht), by simp [useSum], by simp [dfnSum], by simp [useSum, dfnSum]⟩
  | cons t l ih =>
    intro n acc pure h
    simp only [invariantOps] at h ⊢
    split at h
    · simp at h
    · rename_i hr
      have hr : (invariant k ind t).ok = true := by simpa using hr
      simp only [hr, Bool.not_true, Bool.false_eq_true, if_false]
      obtain ⟨h1, h2, h3, h4, h5⟩ := ih _ _ _ h
      refine ⟨by simpa using h1, fun s hs => ?_, ?_, ?_, ?_⟩
      · rcases List.mem_cons.1 hs with rfl | hs
        · exact hr
        · exact h2 s hs
      · rw [h3, addOperand_use, useSum, Nat.add_assoc]
      · rw [h4, addOperand_dfn, dfnSum, Nat.add_assoc]
      · rw [h5]
        simp only [Bool.and_eq_true, decide_eq_true_eq, useSum, dfnSum]
        constructor
        · rintro ⟨⟨⟨h6, h7⟩, h8⟩, h9, h10⟩
          exact ⟨h6, by omega, by omega⟩
        · rintro ⟨h6, h7, h8⟩
          exact ⟨⟨⟨h6, by omega⟩, by omega⟩, by omega, by omega⟩

/-- What is known if an instruction is invariant. -/
theorem invariant_inst {i : Ins L N} {ops : List (Tree L N)} (h : (invariant k ind (.inst i ops)).ok = true) :
    (scanAccs k ind i.accs).1 = true ∧ scanUnk k i.unk = true ∧ (∀ t ∈ ops, (invariant k ind t).ok = true) ∧
    (invariant k ind (.inst i ops)).use = (scanAccs k ind i.accs).2.1 + useSum k ind ops ∧
    (invariant k ind (.inst i ops)).dfn = (scanAccs k ind i.accs).2.2.1 + dfnSum k ind ops := by
  simp only [invariant] at h ⊢
  split at h
  · simp at h
  · rename_i hs
    have hs : ((scanAccs k ind i.accs).1 && scanUnk k i.unk) = true := by simpa using hs
    have hs' := hs
    simp only [Bool.and_eq_true] at hs'
    simp only [hs, Bool.not_true, Bool.false_eq_true, if_false]
    have hok : (invariantOps k ind (.inst i ops) (scanAccs k ind i.accs).2.2.2 0 ops
        ⟨true, (scanAccs k ind i.accs).2.1, (scanAccs k ind i.accs).2.2.1, none, false, none⟩ true).1.ok = true := by
      split at h
      · exact h
      · rename_i hr; simpa using hr
    obtain ⟨-, h2, h3, h4, -⟩ := invariantOps_ok _ _ _ _ _ _ hok
    simp only [hok, Bool.not_true, Bool.false_eq_true, if_false]
    refine ⟨hs'.1, hs'.2, h2, ?_, ?_⟩
    · split
      · exact h3
      · exact h3
    · split
      · exact h4
      · exact h4

theorem useSum_zero {l : List (Tree L N)} (h : useSum k ind l = 0) : ∀ t ∈ l, (invariant k ind t).use = 0 := by
  induction l with
  | nil => intro t ht; cases ht
  | cons s l ih =>
    intro t ht
    simp only [useSum] at h
    rcases List.mem_cons.1 ht with rfl | ht
    · omega
    · exact ih (by omega) t ht

theorem dfnSum_zero {l : List (Tree L N)} (h : dfnSum k ind l = 0) : ∀ t ∈ l, (invariant k ind t).dfn = 0 := by
  induction l with
  | nil => intro t ht; cases ht
  | cons s l ih =>
    intro t ht
    simp only [dfnSum] at h
    rcases List.mem_cons.1 ht with rfl | ht
    · omega
    · exact ih (by omega) t ht

/-- Reads of an invariant instruction which does not read the induction variable. -/
theorem scanAccs_fixed {accs : List (Acc N)} (h : (scanAccs k ind accs).1 = true) (hu : (scanAccs k ind accs).2.1 = 0)
    {a : Acc N} (ha : a ∈ accs) (hr : a.r = true) : ∃ n, a.node = some n ∧ k.fixed n = true := by
  induction accs with
  | nil => cases ha
  | cons b l ih =>
    cases hb : b.node with
    | none => simp [scanAccs, hb] at h
    | some n =>
      simp only [scanAccs, hb] at h hu
      split at h
      · rename_i hn
        simp only [hn, if_true] at hu
        rcases List.mem_cons.1 ha with rfl | ha
        · rw [hr] at hu; simp at hu
        · exact ih h (by omega) ha
      · rename_i hn
        rw [if_neg hn] at hu
        split at h
        · rename_i hf
          rw [if_pos hf] at hu
          rcases List.mem_cons.1 ha with rfl | ha
          · exact ⟨n, hb, hf⟩
          · exact ih h hu ha
        · simp at h

/-- A cell which is read by such an instruction is not changed. -/
theorem mayRead_fixed {W : World L N} {S : (L → Int) → Prop} (hk : Keeps W k S) {i : Ins L N}
    (h : (scanAccs k ind i.accs).1 = true) (hu : (scanAccs k ind i.accs).2.1 = 0) (hq : scanUnk k i.unk = true)
    {l : L} (hl : MayRead W i l) {σ τ : L → Int} (hσ : S σ) (hτ : S τ) : σ l = τ l := by
  rcases hl with ⟨a, ha, hr, hn⟩ | ⟨u, hu', hn⟩
  · obtain ⟨n, h1, h2⟩ := scanAccs_fixed h hu ha hr
    exact hk n h2 l (hn n h1) σ τ hσ hτ
  · rw [hu'] at hq
    unfold scanUnk at hq
    cases hd : u.node with
    | none => simp [hd] at hq
    | some n =>
      simp only [hd, Bool.and_eq_true] at hq
      exact hk n hq.2 l (hn n hd) σ τ hσ hτ

mutual

/-- An invariant expression without phi-nodes which does not read the induction variable has one value. -/
theorem invariant_fixed {W : World L N} {S : (L → Int) → Prop} (hk : Keeps W k S) :
    ∀ t : Tree L N, (invariant k ind t).ok = true → (invariant k ind t).use = 0 → t.All (Honest W) →
      t.All NotPhi → Fixed W S t
  | .const v, _, _, _, _ => by
    intro x y hx hy
    simp only [Val] at hx hy
    rw [hx, hy]
  | .other _, h, _, _, _ => by simp [invariant] at h
  | .inst i ops, h, hu, hh, hp => by
    obtain ⟨h1, h2, h3, h4, -⟩ := invariant_inst h
    rw [h4] at hu
    simp only [Tree.All] at hh hp
    have hops := invariantOps_fixed hk ops h3 (useSum_zero (by omega)) hh.2 hp.2
    intro x y hx hy
    simp only [Val] at hx hy
    obtain ⟨vs, hvs, hx⟩ := hx
    obtain ⟨ws, hws, hy⟩ := hy
    have := hops vs ws hvs hws
    subst this
    have hread : ∀ l, MayRead W i l → ∀ σ τ, S σ → S τ → σ l = τ l := fun l hl σ τ hσ hτ =>
      mayRead_fixed hk h1 (by omega) h2 hl hσ hτ
    have hho := hh.1
    have hph := hp.1
    unfold NotPhi at hph
    unfold Honest at hho
    cases hop : i.op with
    | add =>
      rw [hop] at hx hy
      obtain ⟨a, b, e, rfl⟩ := hx
      obtain ⟨a', b', e', rfl⟩ := hy
      rw [e] at e'
      simp only [List.cons.injEq, and_true] at e'
      rw [e'.1, e'.2]
    | sub =>
      rw [hop] at hx hy
      obtain ⟨a, b, e, rfl⟩ := hx
      obtain ⟨a', b', e', rfl⟩ := hy
      rw [e] at e'
      simp only [List.cons.injEq, and_true] at e'
      rw [e'.1, e'.2]
    | cast =>
      rw [hop] at hx hy
      simp only at hx hy
      rw [hx] at hy
      simpa using hy
    | phi => exact (hph hop).elim
    | cmp p =>
      rw [hop] at hx hy
      obtain ⟨a, b, e, hx⟩ := hx
      obtain ⟨a', b', e', hy⟩ := hy
      rw [e] at e'
      simp only [List.cons.injEq, and_true] at e'
      rw [← e'.1, ← e'.2] at hy
      rcases hx with ⟨rfl, hx⟩ | ⟨rfl, hx⟩ <;> rcases hy with ⟨rfl, hy⟩ | ⟨rfl, hy⟩
      · rfl
      · exact (hy hx).elim
      · exact (hx hy).elim
      · rfl
    | load l =>
      rw [hop] at hx hy hho
      obtain ⟨σ, hσ, rfl⟩ := hx
      obtain ⟨τ, hτ, rfl⟩ := hy
      exact hread l hho σ τ hσ hτ
    | store l => rw [hop] at hx; exact hx.elim
    | other id =>
      rw [hop] at hx hy hho
      obtain ⟨σ, hσ, rfl⟩ := hx
      obtain ⟨τ, hτ, rfl⟩ := hy
      exact hho σ τ vs fun l hl => hread l hl σ τ hσ hτ

/-- The same for operands. -/
theorem invariantOps_fixed {W : World L N} {S : (L → Int) → Prop} (hk : Keeps W k S) :
    ∀ l : List (Tree L N), (∀ t ∈ l, (invariant k ind t).ok = true) → (∀ t ∈ l, (invariant k ind t).use = 0) →
      AllOps (Honest W) l → AllOps NotPhi l → ∀ vs ws, Vals W S l vs → Vals W S l ws → vs = ws
  | [], _, _, _, _ => by
    intro vs ws h1 h2
    simp only [Vals] at h1 h2
    rw [h1, h2]
  | t :: l, ho, hu, hh, hp => by
    intro vs ws h1 h2
    simp only [Vals] at h1 h2
    simp only [AllOps] at hh hp
    obtain ⟨v, r, rfl, hv, hr⟩ := h1
    obtain ⟨v', r', rfl, hv', hr'⟩ := h2
    rw [invariant_fixed hk t (ho t List.mem_cons_self) (hu t List.mem_cons_self) hh.1 hp.1 v v' hv hv',
      invariantOps_fixed hk l (fun s hs => ho s (List.mem_cons_of_mem _ hs))
        (fun s hs => hu s (List.mem_cons_of_mem _ hs)) hh.2 hp.2 r r' hr hr']

end

/-! ## The found operand -/

mutual

/-- A value is an operand of an expression at any depth or the expression. -/
def Sub (e : Tree L N) : Tree L N → Prop
  | .inst i ops => e = .inst i ops ∨ SubOps e ops
  | .const v => e = .const v
  | .other n => e = .other n

/-- The same for a list of operands. -/
def SubOps (e : Tree L N) : List (Tree L N) → Prop
  | [] => False
  | t :: l => Sub e t ∨ SubOps e l

end

theorem Sub.refl (t : Tree L N) : Sub t t := by
  cases t <;> simp [Sub]

theorem subOps_mem {e t : Tree L N} {l : List (Tree L N)} (ht : t ∈ l) (h : Sub e t) : SubOps e l := by
  induction l with
  | nil => cases ht
  | cons s l ih =>
    simp only [SubOps]
    rcases List.mem_cons.1 ht with rfl | ht
    · exact Or.inl h
    · exact Or.inr (ih ht)

mutual

theorem Tree.All.sub {Q : Ins L N → Prop} {e : Tree L N} : ∀ {t : Tree L N}, t.All Q → Sub e t → e.All Q
  | .inst i ops, h, hs => by
    simp only [Sub] at hs
    rcases hs with rfl | hs
    · exact h
    · simp only [Tree.All] at h
      exact AllOps.sub h.2 hs
  | .const v, _, hs => by
    simp only [Sub] at hs
    subst hs
    simp [Tree.All]
  | .other v, _, hs => by
    simp only [Sub] at hs
    subst hs
    simp [Tree.All]

theorem AllOps.sub {Q : Ins L N → Prop} {e : Tree L N} : ∀ {l : List (Tree L N)}, AllOps Q l → SubOps e l → e.All Q
  | [], _, hs => by simp [SubOps] at hs
  | t :: l, h, hs => by
    simp only [AllOps] at h
    simp only [SubOps] at hs
    rcases hs with hs | hs
    · exact Tree.All.sub h.1 hs
    · exact AllOps.sub h.2 hs

end

mutual

theorem sub_ok {e : Tree L N} : ∀ {t : Tree L N}, (invariant k ind t).ok = true → Sub e t → (invariant k ind e).ok = true
  | .inst i ops, h, hs => by
    simp only [Sub] at hs
    rcases hs with rfl | hs
    · exact h
    · exact subOps_ok (invariant_inst h).2.2.1 hs
  | .const v, _, hs => by
    simp only [Sub] at hs
    subst hs
    simp [invariant]
  | .other v, h, _ => by simp [invariant] at h

theorem subOps_ok {e : Tree L N} : ∀ {l : List (Tree L N)}, (∀ t ∈ l, (invariant k ind t).ok = true) → SubOps e l →
    (invariant k ind e).ok = true
  | [], _, hs => by simp [SubOps] at hs
  | t :: l, h, hs => by
    simp only [SubOps] at hs
    rcases hs with hs | hs
    · exact sub_ok (h t List.mem_cons_self) hs
    · exact subOps_ok (fun s hs => h s (List.mem_cons_of_mem _ hs)) hs

end

/-- The found operand does not access the induction variable. -/
def Good (k : Know N) (ind : N) (t : Tree L N) (r : Res L N) : Prop :=
  ∀ e, r.expr = some e → Sub e t ∧ (invariant k ind e).use = 0 ∧ (invariant k ind e).dfn = 0 ∧
    (r.self = true → e = t)

theorem addOperand_good {root t : Tree L N} {idx : List Nat} {i : Nat} {acc r : Res L N} {ops : List (Tree L N)}
    (ht : t ∈ ops) (hacc : ∀ e, acc.expr = some e → SubOps e ops ∧ (invariant k ind e).use = 0 ∧
      (invariant k ind e).dfn = 0) (hr : Good k ind t r) :
    ∀ e, (addOperand root t idx i acc r).expr = some e → SubOps e ops ∧ (invariant k ind e).use = 0 ∧
      (invariant k ind e).dfn = 0 := by
  intro e he
  unfold addOperand at he
  dsimp only at he
  cases hre : r.expr with
  | none => rw [hre] at he; exact hacc e he
  | some e' =>
    obtain ⟨h1, h2, h3, h4⟩ := hr e' hre
    rw [hre] at he
    dsimp only at he
    split at he
    · cases he
      exact ⟨subOps_mem ht h1, h2, h3⟩
    · rename_i hself
      split at he
      · cases he
        have := h4 (by simpa using hself)
        subst this
        exact ⟨subOps_mem ht h1, h2, h3⟩
      · exact hacc e he

mutual

theorem invariant_good : ∀ t : Tree L N, (invariant k ind t).ok = true → Good k ind t (invariant k ind t)
  | .const v, _ => by
    intro e he
    simp only [invariant, Option.some.injEq] at he
    subst he
    exact ⟨Sub.refl _, rfl, rfl, fun _ => rfl⟩
  | .other _, h => by simp [invariant] at h
  | .inst i ops, h => by
    obtain ⟨h1, h2, h3, h4, h5⟩ := invariant_inst h
    intro e he
    have hops := invariantOps_good (.inst i ops) (scanAccs k ind i.accs).2.2.2 ops ops (fun t ht => ht) h3 0
      ⟨true, (scanAccs k ind i.accs).2.1, (scanAccs k ind i.accs).2.2.1, none, false, none⟩ true
      (fun e he => (by cases he)) rfl
    have hall : ((scanAccs k ind i.accs).1 && scanUnk k i.unk) = true := by rw [h1, h2]; rfl
    have h0 := h
    simp only [invariant, hall, Bool.not_true, Bool.false_eq_true, if_false] at he h0 ⊢
    have hok : (invariantOps k ind (.inst i ops) (scanAccs k ind i.accs).2.2.2 0 ops
        ⟨true, (scanAccs k ind i.accs).2.1, (scanAccs k ind i.accs).2.2.1, none, false, none⟩ true).1.ok = true := by
      split at h0
      · exact h0
      · rename_i hr; simpa using hr
    simp only [hok, Bool.not_true, Bool.false_eq_true, if_false] at he ⊢
    obtain ⟨-, -, -, -, h10⟩ := invariantOps_ok _ _ _ _ _ _ hok
    split at he
    · rename_i hc
      simp only [Bool.and_eq_true, decide_eq_true_eq] at hc
      simp only [Option.some.injEq] at he
      subst he
      obtain ⟨-, h11, h12⟩ := h10.1 hc.1.1
      exact ⟨Sub.refl _, by rw [h4]; omega, by rw [h5]; omega, fun _ => rfl⟩
    · rename_i hc
      rw [if_neg hc]
      obtain ⟨h6, h7, h8⟩ := hops.1 e he
      refine ⟨by simp only [Sub]; exact Or.inr h6, h7, h8, fun hs => ?_⟩
      rw [hops.2] at hs
      cases hs

theorem invariantOps_good (root : Tree L N) (idx : List Nat) (ops : List (Tree L N)) :
    ∀ l : List (Tree L N), (∀ t ∈ l, t ∈ ops) → (∀ t ∈ l, (invariant k ind t).ok = true) → ∀ (n : Nat)
    (acc : Res L N) (pure : Bool), (∀ e, acc.expr = some e → SubOps e ops ∧ (invariant k ind e).use = 0 ∧
      (invariant k ind e).dfn = 0) → acc.self = false →
    (∀ e, (invariantOps k ind root idx n l acc pure).1.expr = some e → SubOps e ops ∧ (invariant k ind e).use = 0 ∧
      (invariant k ind e).dfn = 0) ∧ (invariantOps k ind root idx n l acc pure).1.self = false
  | [], _, _, _, _, _, h, hs => by
    simp only [invariantOps]
    exact ⟨h, hs⟩
  | t :: l, hm, ho, n, acc, pure, h, hs => by
    have hr := ho t List.mem_cons_self
    simp only [invariantOps, hr, Bool.not_true, Bool.false_eq_true, if_false]
    refine invariantOps_good root idx ops l (fun s hs => hm s (List.mem_cons_of_mem _ hs))
      (fun s hs => ho s (List.mem_cons_of_mem _ hs)) _ _ _
      (addOperand_good (hm t List.mem_cons_self) h (invariant_good t hr)) ?_
    unfold addOperand
    dsimp only
    split
    · exact hs
    · split
      · exact hs
      · split <;> exact hs

end

/-- An expression which does not access the induction variable is found as a whole. -/
theorem invariant_self {t : Tree L N} (h : (invariant k ind t).ok = true) (hu : (invariant k ind t).use = 0)
    (hd : (invariant k ind t).dfn = 0) : (invariant k ind t).expr = some t ∧ (invariant k ind t).self = true := by
  cases t with
  | const v => exact ⟨rfl, rfl⟩
  | other n => simp [invariant] at h
  | inst i ops =>
    obtain ⟨h1, h2, h3, h4, h5⟩ := invariant_inst h
    rw [h4] at hu
    rw [h5] at hd
    have hall : ((scanAccs k ind i.accs).1 && scanUnk k i.unk) = true := by rw [h1, h2]; rfl
    have h0 := h
    simp only [invariant, hall, Bool.not_true, Bool.false_eq_true, if_false] at h0 ⊢
    have hok : (invariantOps k ind (.inst i ops) (scanAccs k ind i.accs).2.2.2 0 ops
        ⟨true, (scanAccs k ind i.accs).2.1, (scanAccs k ind i.accs).2.2.1, none, false, none⟩ true).1.ok = true := by
      split at h0
      · exact h0
      · rename_i hr; simpa using hr
    simp only [hok, Bool.not_true, Bool.false_eq_true, if_false]
    obtain ⟨-, -, -, -, h10⟩ := invariantOps_ok _ _ _ _ _ _ hok
    have hp := h10.2 ⟨rfl, by omega, by omega⟩
    rw [if_pos (by rw [hp]; simp; omega)]
    exact ⟨rfl, rfl⟩

end Canon
end Tsar
