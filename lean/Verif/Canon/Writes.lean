import Verif.Canon.Shape

/-!
# Writes to the induction variable
-/

namespace Tsar
namespace Canon

variable {L N : Type} {k : Know N} {ind : N} {v : L} {W : World L N}

/-! ## Writes to the induction variable -/

/-- May an access to unknown memory write to the node? -/
def writesUnk (k : Know N) (ind : N) (u : Unk N) : Bool :=
  u.w &&
    match u.node with
    | none => true
    | some n => !k.unreachable ind n

/-- A number of writes of an instruction. -/
def cnt (k : Know N) (ind : N) (t : Tree L N) : Nat :=
  t.accs.countP (writesNode k ind) +
    match t.unk with
    | none => 0
    | some u => if writesUnk k ind u then 1 else 0

theorem mayWrite_cnt (ha : Apart W k ind v) {t : Tree L N} (h : MayWrite W t v) : 0 < cnt k ind t := by
  unfold cnt
  rcases h with ⟨a, h1, h2, h3⟩ | ⟨u, h1, h2, h3⟩
  · have : writesNode k ind a = true := by
      unfold writesNode
      rw [h2]
      cases hn : a.node with
      | none => rfl
      | some n =>
        cases hu : k.unreachable ind n with
        | false => simp [hu]
        | true => exact (ha.apart n hu (h3 n hn)).elim
    have := List.countP_pos_iff.2 ⟨a, h1, this⟩
    omega
  · have : writesUnk k ind u = true := by
      unfold writesUnk
      rw [h2]
      cases hn : u.node with
      | none => rfl
      | some n =>
        cases hu : k.unreachable ind n with
        | false => simp [hu]
        | true => exact (ha.apart n hu (h3 n hn)).elim
    rw [h1]
    simp only [this, if_true]
    omega

/-- The function which is applied to each access in `countIns`. -/
def countAcc (k : Know N) (ind : N) (t : Tree L N) (s : Nat × Option (Tree L N)) (a : Acc N) :
    Nat × Option (Tree L N) :=
  if !a.w then s
  else
    match a.node with
    | none => (s.1 + 1, s.2)
    | some n => if !k.unreachable ind n then (s.1 + 1, some t) else s

theorem countAcc_spec (t : Tree L N) (s : Nat × Option (Tree L N)) (a : Acc N) :
    (countAcc k ind t s a).1 = s.1 + (if writesNode k ind a then 1 else 0) ∧
    ((countAcc k ind t s a).2 = s.2 ∨ (countAcc k ind t s a).2 = some t ∧ writesNode k ind a = true) := by
  unfold countAcc writesNode
  cases hw : a.w with
  | false => simp
  | true =>
    cases hn : a.node with
    | none => simp
    | some n => cases hu : k.unreachable ind n <;> simp [hu]

theorem countAccs_spec (t : Tree L N) : ∀ (l : List (Acc N)) (s : Nat × Option (Tree L N)),
    (l.foldl (countAcc k ind t) s).1 = s.1 + l.countP (writesNode k ind) ∧
    ((l.foldl (countAcc k ind t) s).2 = s.2 ∨
      (l.foldl (countAcc k ind t) s).2 = some t ∧ 0 < l.countP (writesNode k ind)) := by
  intro l
  induction l with
  | nil => intro s; simp
  | cons a l ih =>
    intro s
    obtain ⟨h1, h2⟩ := countAcc_spec (k := k) (ind := ind) t s a
    obtain ⟨h3, h4⟩ := ih (countAcc k ind t s a)
    simp only [List.foldl_cons, List.countP_cons]
    refine ⟨by rw [h3, h1]; omega, ?_⟩
    rcases h4 with h4 | ⟨h4, h5⟩
    · rcases h2 with h2 | ⟨h2, h6⟩
      · exact Or.inl (by rw [h4, h2])
      · exact Or.inr ⟨by rw [h4, h2], by rw [h6]; simp⟩
    · exact Or.inr ⟨h4, by omega⟩

theorem countIns_spec (t : Tree L N) (s : Nat × Option (Tree L N)) :
    (countIns k ind t s).1 = s.1 + cnt k ind t ∧
    ((countIns k ind t s).2 = s.2 ∨ (countIns k ind t s).2 = some t ∧ 0 < cnt k ind t) := by
  obtain ⟨h1, h2⟩ := countAccs_spec (k := k) (ind := ind) t t.accs s
  change (match t.unk with
    | none => t.accs.foldl (countAcc k ind t) s
    | some u =>
      if !u.w then t.accs.foldl (countAcc k ind t) s
      else
        match u.node with
        | none => ((t.accs.foldl (countAcc k ind t) s).1 + 1, (t.accs.foldl (countAcc k ind t) s).2)
        | some n => if !k.unreachable ind n then
            ((t.accs.foldl (countAcc k ind t) s).1 + 1, (t.accs.foldl (countAcc k ind t) s).2)
          else t.accs.foldl (countAcc k ind t) s).1 = s.1 + cnt k ind t ∧ (_ ∨ _)
  have h2' : (t.accs.foldl (countAcc k ind t) s).2 = s.2 ∨
      (t.accs.foldl (countAcc k ind t) s).2 = some t ∧ 0 < cnt k ind t := by
    rcases h2 with h2 | ⟨h2, h3⟩
    · exact Or.inl h2
    · refine Or.inr ⟨h2, ?_⟩
      unfold cnt
      omega
  unfold cnt countIns at *
  change _ ∧ ((match t.unk with
    | none => t.accs.foldl (countAcc k ind t) s
    | some u =>
      if !u.w then t.accs.foldl (countAcc k ind t) s
      else
        match u.node with
        | none => ((t.accs.foldl (countAcc k ind t) s).1 + 1, (t.accs.foldl (countAcc k ind t) s).2)
        | some n => if !k.unreachable ind n then
            ((t.accs.foldl (countAcc k ind t) s).1 + 1, (t.accs.foldl (countAcc k ind t) s).2)
          else t.accs.foldl (countAcc k ind t) s).2 = s.2 ∨ (match t.unk with
    | none => t.accs.foldl (countAcc k ind t) s
    | some u =>
      if !u.w then t.accs.foldl (countAcc k ind t) s
      else
        match u.node with
        | none => ((t.accs.foldl (countAcc k ind t) s).1 + 1, (t.accs.foldl (countAcc k ind t) s).2)
        | some n => if !k.unreachable ind n then
            ((t.accs.foldl (countAcc k ind t) s).1 + 1, (t.accs.foldl (countAcc k ind t) s).2)
          else t.accs.foldl (countAcc k ind t) s).2 = some t ∧ _)
  generalize t.accs.foldl (countAcc k ind t) s = q at *
  cases hu : t.unk with
  | none => simp only [hu] at h2' ⊢; exact ⟨by rw [h1]; omega, h2'⟩
  | some u =>
    simp only [hu] at h2' ⊢
    unfold writesUnk at *
    cases hw : u.w with
    | false => simp only [hw] at h2' ⊢; simpa [h1] using h2'
    | true =>
      cases hn : u.node with
      | none =>
        simp only [hw, hn] at h2' ⊢
        simp [h1] at h2' ⊢
        exact ⟨by omega, h2'⟩
      | some n =>
        cases hr : k.unreachable ind n with
        | false =>
          simp only [hw, hn, hr] at h2' ⊢
          simp [h1] at h2' ⊢
          exact ⟨by omega, h2'⟩
        | true =>
          simp only [hw, hn, hr] at h2' ⊢
          simpa [h1] using h2'

/-- A number of writes in a block. -/
def cntSum (k : Know N) (ind : N) : List (Tree L N) → Nat
  | [] => 0
  | t :: l => cnt k ind t + cntSum k ind l

theorem cntSum_zero {l : List (Tree L N)} (h : cntSum k ind l = 0) : ∀ t ∈ l, cnt k ind t = 0 := by
  induction l with
  | nil => intro t ht; cases ht
  | cons s l ih =>
    intro t ht
    simp only [cntSum] at h
    rcases List.mem_cons.1 ht with rfl | ht
    · omega
    · exact ih (by omega) t ht

theorem countBlock_spec : ∀ (l : List (Tree L N)) (s : Nat × Option (Tree L N)),
    (l.foldl (fun s t => countIns k ind t s) s).1 = s.1 + cntSum k ind l ∧
    ((l.foldl (fun s t => countIns k ind t s) s).2 = s.2 ∨
      ∃ t ∈ l, (l.foldl (fun s t => countIns k ind t s) s).2 = some t ∧ 0 < cnt k ind t) := by
  intro l
  induction l with
  | nil => intro s; simp [cntSum]
  | cons t l ih =>
    intro s
    obtain ⟨h1, h2⟩ := countIns_spec (k := k) (ind := ind) t s
    obtain ⟨h3, h4⟩ := ih (countIns k ind t s)
    simp only [List.foldl_cons, cntSum]
    refine ⟨by rw [h3, h1]; omega, ?_⟩
    rcases h4 with h4 | ⟨u, hu, h4, h5⟩
    · rcases h2 with h2 | ⟨h2, h6⟩
      · exact Or.inl (by rw [h4, h2])
      · exact Or.inr ⟨t, List.mem_cons_self, by rw [h4, h2], h6⟩
    · exact Or.inr ⟨u, List.mem_cons_of_mem _ hu, h4, h5⟩

/-- If the search is successful then the variable is changed once, in the latch. -/
theorem findIncrement_spec {latch : Option Nat} : ∀ (l : List (Block L N)) (inc r : Option (Tree L N)),
    findIncrement k ind latch l inc = some r →
    (∀ b ∈ l, latch ≠ some b.id → cntSum k ind b.body = 0) ∧ (∀ b ∈ l, cntSum k ind b.body ≤ 1) ∧
    (r = inc ∨ ∃ b ∈ l, ∃ t ∈ b.body, r = some t ∧ 0 < cnt k ind t) := by
  intro l
  induction l with
  | nil =>
    intro inc r h
    simp only [findIncrement, Option.some.injEq] at h
    exact ⟨fun b hb => (by cases hb), fun b hb => (by cases hb), Or.inl h.symm⟩
  | cons b l ih =>
    intro inc r h
    obtain ⟨h1, h2⟩ := countBlock_spec (k := k) (ind := ind) b.body (0, inc)
    simp only [findIncrement] at h
    generalize hs : b.body.foldl (fun s t => countIns k ind t s) (0, inc) = s at h h1 h2
    simp only [Nat.zero_add] at h1
    have hlast : ∀ r, (r = s.2 ∨ ∃ b ∈ l, ∃ t ∈ b.body, r = some t ∧ 0 < cnt k ind t) →
        (r = inc ∨ ∃ c ∈ b :: l, ∃ t ∈ c.body, r = some t ∧ 0 < cnt k ind t) := by
      intro r hr
      rcases hr with rfl | ⟨c, hc, t, ht, h5⟩
      · rcases h2 with h2 | ⟨t, ht, h5⟩
        · exact Or.inl h2
        · exact Or.inr ⟨b, List.mem_cons_self, t, ht, h5⟩
      · exact Or.inr ⟨c, List.mem_cons_of_mem _ hc, t, ht, h5⟩
    split at h
    · rename_i h0
      obtain ⟨i1, i2, i3⟩ := ih _ _ h
      refine ⟨fun c hc hl => ?_, fun c hc => ?_, hlast r i3⟩
      · rcases List.mem_cons.1 hc with rfl | hc
        · omega
        · exact i1 c hc hl
      · rcases List.mem_cons.1 hc with rfl | hc
        · omega
        · exact i2 c hc
    · rename_i h0
      split at h
      · cases h
      · rename_i hcond
        simp only [Bool.or_eq_true, decide_eq_true_eq, not_or, ne_eq, Decidable.not_not] at hcond
        obtain ⟨i1, i2, i3⟩ := ih _ _ h
        refine ⟨fun c hc hl => ?_, fun c hc => ?_, hlast r i3⟩
        · rcases List.mem_cons.1 hc with rfl | hc
          · exact (hl hcond.1.1).elim
          · exact i1 c hc hl
        · rcases List.mem_cons.1 hc with rfl | hc
          · omega
          · exact i2 c hc

theorem assign_cnt (hr : k.unreachable ind ind = false) {s a : Tree L N} (h : IsAssign ind v s a) :
    cnt k ind a = 1 := by
  cases h with
  | store hp => simp [cnt, Tree.accs, Tree.unk, writesNode, hr, List.countP_cons]

/-- A block with one write is split by the instruction which writes. -/
theorem cntSum_split {l : List (Tree L N)} (h : cntSum k ind l ≤ 1) {t : Tree L N} (ht : t ∈ l)
    (hc : 0 < cnt k ind t) : ∃ pre post, l = pre ++ t :: post ∧ cntSum k ind pre = 0 ∧ cntSum k ind post = 0 ∧
      ∀ u ∈ l, 0 < cnt k ind u → u = t := by
  induction l with
  | nil => cases ht
  | cons s l ih =>
    simp only [cntSum] at h
    by_cases h0 : cnt k ind s = 0
    · have ht' : t ∈ l := by
        rcases List.mem_cons.1 ht with rfl | ht
        · omega
        · exact ht
      obtain ⟨pre, post, h1, h2, h3, h4⟩ := ih (by omega) ht'
      refine ⟨s :: pre, post, by rw [h1]; rfl, by simp only [cntSum]; omega, h3, fun u hu hcu => ?_⟩
      rcases List.mem_cons.1 hu with rfl | hu
      · omega
      · exact h4 u hu hcu
    · have hz := cntSum_zero (k := k) (ind := ind) (l := l) (by omega)
      have hts : t = s := by
        rcases List.mem_cons.1 ht with rfl | ht
        · rfl
        · have := hz t ht; omega
      subst hts
      refine ⟨[], l, rfl, rfl, by omega, fun u hu hcu => ?_⟩
      rcases List.mem_cons.1 hu with rfl | hu
      · rfl
      · have := hz u hu; omega

/-! ## Execution -/

theorem exec_append {H : List (L → Int)} {σ : L → Int} {a b : List (Tree L N)} {H' : List (L → Int)} {τ : L → Int}
    (h : Exec W H σ (a ++ b) H' τ) : ∃ H₁ ρ, Exec W H σ a H₁ ρ ∧ Exec W H₁ ρ b H' τ := by
  induction a generalizing H σ with
  | nil => exact ⟨H, σ, .nil, h⟩
  | cons t a ih =>
    cases h with
    | cons h1 h2 =>
      obtain ⟨H₁, ρ, h3, h4⟩ := ih h2
      exact ⟨H₁, ρ, .cons h1 h3, h4⟩

/-- Instructions without writes keep the variable. -/
theorem exec_keeps (ha : Apart W k ind v) {H : List (L → Int)} {σ : L → Int} {l : List (Tree L N)}
    {H' : List (L → Int)} {τ : L → Int} (h : Exec W H σ l H' τ) (hl : ∀ t ∈ l, cnt k ind t = 0) :
    τ v = σ v ∧ (∀ ρ ∈ H', ρ ∈ H ∨ ρ v = σ v) ∧ (∀ ρ ∈ H, ρ ∈ H') := by
  induction h with
  | nil => exact ⟨rfl, fun ρ hρ => Or.inl hρ, fun ρ hρ => hρ⟩
  | @cons H σ t σ' l H' τ h1 h2 ih =>
    obtain ⟨i1, i2, i3⟩ := ih fun s hs => hl s (List.mem_cons_of_mem _ hs)
    have h0 : σ' v = σ v := by
      by_contra hne
      have := mayWrite_cnt ha (h1.frame v hne)
      have := hl t List.mem_cons_self
      omega
    refine ⟨by rw [i1, h0], fun ρ hρ => ?_, fun ρ hρ => i3 ρ (List.mem_append_left _ hρ)⟩
    rcases i2 ρ hρ with h | h
    · rcases List.mem_append.1 h with h | h
      · exact Or.inl h
      · rw [List.mem_singleton.1 h]
        exact Or.inr rfl
    · exact Or.inr (by rw [h, h0])

theorem exec_mono {H : List (L → Int)} {σ : L → Int} {l : List (Tree L N)}
    {H' : List (L → Int)} {τ : L → Int} (h : Exec W H σ l H' τ) : ∀ ρ ∈ H, ρ ∈ H' := by
  induction h with
  | nil => exact fun ρ hρ => hρ
  | cons _ _ ih => exact fun ρ hρ => ih ρ (List.mem_append_left _ hρ)

mutual

theorem Val.mono {H H' : (L → Int) → Prop} (hH : ∀ σ, H σ → H' σ) : ∀ {t : Tree L N} {x : Int}, Val W H t x → Val W H' t x
  | .const _, _, h => by simpa only [Val] using h
  | .other _, _, _ => by simp only [Val]
  | .inst i ops, x, h => by
    simp only [Val] at h ⊢
    obtain ⟨vs, h1, h2⟩ := h
    refine ⟨vs, Vals.mono hH h1, ?_⟩
    cases hop : i.op <;> rw [hop] at h2 <;> try exact h2
    · obtain ⟨σ, h3, h4⟩ := h2
      exact ⟨σ, hH σ h3, h4⟩
    · obtain ⟨σ, h3, h4⟩ := h2
      exact ⟨σ, hH σ h3, h4⟩

theorem Vals.mono {H H' : (L → Int) → Prop} (hH : ∀ σ, H σ → H' σ) : ∀ {l : List (Tree L N)} {vs : List Int},
    Vals W H l vs → Vals W H' l vs
  | [], _, h => by simpa only [Vals] using h
  | t :: l, vs, h => by
    simp only [Vals] at h ⊢
    obtain ⟨w, r, h1, h2, h3⟩ := h
    exact ⟨w, r, h1, Val.mono hH h2, Vals.mono hH h3⟩

end

/-- An assignment stores the value. -/
theorem exec_assign {s a : Tree L N} (h : IsAssign ind v s a) {H : List (L → Int)} {σ : L → Int} {l : List (Tree L N)}
    {H' : List (L → Int)} {τ : L → Int} (he : Exec W H σ (a :: l) H' τ) :
    ∃ x σ', Val W (· ∈ H ++ [σ]) s x ∧ σ' v = x ∧ Exec W (H ++ [σ]) σ' l H' τ := by
  cases h with
  | store hp =>
    cases he with
    | cons h1 h2 =>
      obtain ⟨x, h3, h4⟩ := h1.store _ _ _ _ _ rfl
      exact ⟨x, _, h3, h4, h2⟩

/-! ## Results of `checkLoop` -/

theorem checkLoop_parts {outer : Option (Know N)} {first : Tree L N → Tree L N → Bool} {P : IRLoop L N}
    {i : Info L N} (h : checkLoop k outer ind first P = .yes i) : ∃ init cond inc,
      findLastWrite k ind P.preheader = some init ∧ findLastCmp P.header = some cond ∧
      findIncrement k ind P.latch P.blocks none = some (some inc) ∧
      ((invariant k ind init).ok = true ∧ (invariant k ind init).dfn = 1 ∧ (invariant k ind init).use = 0) ∧
      ((invariant k ind inc).ok = true ∧ (invariant k ind inc).dfn = 1 ∧ (invariant k ind inc).use ≤ 1) ∧
      ((invariant k ind cond).ok = true ∧ (invariant k ind cond).dfn = 0 ∧ (invariant k ind cond).use ≤ 1) ∧
      i.start = (invariant k ind init).expr ∧ i.step = stepOf (invariant k ind inc) ∧
      i.stop = (invariant k ind cond).expr ∧ i.pred = predOf first (invariant k ind cond) cond ∧
      (i.rectangular = true → ∃ k', outer = some k' ∧ (invariant k' ind init).ok = true ∧
        (invariant k' ind inc).ok = true ∧ (invariant k' ind cond).ok = true) := by
  unfold checkLoop at h
  split at h
  · rename_i init cond h1 h2
    split at h
    · cases h
    · cases h
    · rename_i inc h3
      split at h
      · cases h
      · rename_i j h4
        cases h
        refine ⟨init, cond, inc, h1, h2, h3, ?_⟩
        unfold checkExprs at h4
        dsimp only at h4
        split at h4
        · cases h4
        · rename_i a1
          split at h4
          · cases h4
          · rename_i a2
            split at h4
            · cases h4
            · rename_i a3
              simp only [Bool.or_eq_true, Bool.not_eq_true', decide_eq_true_eq, not_or, Bool.not_eq_false, ne_eq,
                Decidable.not_not, not_lt, gt_iff_lt] at a1 a2 a3
              cases h4
              refine ⟨⟨a1.1.1, a1.1.2, by omega⟩, ⟨a2.1.1, a2.1.2, by omega⟩, ⟨a3.1.1, a3.1.2, by omega⟩, rfl, rfl, rfl,
                rfl, fun hr => ?_⟩
              cases outer with
              | none => simp at hr
              | some k' =>
                simp only [Bool.and_eq_true] at hr
                exact ⟨k', rfl, hr.1.1, hr.1.2, hr.2⟩
  · cases h

end Canon
end Tsar
