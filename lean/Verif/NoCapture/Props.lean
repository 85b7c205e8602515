import Verif.NoCapture.Model

/-!
# Soundness of the analysis of captured arguments
-/

namespace Tsar.NoCapture

/-! ## What the search establishes -/

/-- A value reached by a constraint is registered with the required rank. -/
def Registered (reg : Nat → Option Int) : Option (Nat × Int) → Prop
  | none => True
  | some (n, r) => reg n = some r

/-- A constraint is satisfied. -/
def Holds (reg : Nat → Option Int) : Res → Prop
  | .ok next => Registered reg next
  | _ => False

/-- Registered values remain registered. -/
def Grows (reg reg' : Nat → Option Int) : Prop := ∀ v r, reg v = some r → reg' v = some r

theorem Grows.refl (reg : Nat → Option Int) : Grows reg reg := fun _ _ h => h

theorem Grows.trans {a b c : Nat → Option Int} (h1 : Grows a b) (h2 : Grows b c) : Grows a c :=
  fun v r h => h2 v r (h1 v r h)

theorem Registered.grows {reg reg' : Nat → Option Int} (h : Grows reg reg')
    {n : Option (Nat × Int)} (hn : Registered reg n) : Registered reg' n := by
  cases n with
  | none => trivial
  | some p => exact h _ _ hn

theorem Holds.grows {reg reg' : Nat → Option Int} (h : Grows reg reg') {x : Res}
    (hx : Holds reg x) : Holds reg' x := by
  cases x with
  | ok n => exact Registered.grows h hx
  | fail => exact hx
  | crash => exact hx

/-- The constraint of the instruction `i` was applied for some operand. -/
def UseDone (F : Func) (reg : Nat → Option Int) (i : Nat) : Prop :=
  ∃ v op r, (some i, op) ∈ F.uses v ∧ reg v = some r ∧ 0 ≤ r ∧ Holds reg (applyUse F i op r)

/-- All constraints of the value `v` were applied. -/
def Done (F : Func) (st : St) (v : Nat) (r : Int) : Prop :=
  r < 0 ∨ (Holds st.reg (applyDef F v r) ∧
    ∀ u ∈ F.uses v, ∃ i, u.1 = some i ∧ st.seen i = true)

/-- The invariant of the search (`cur` is the value which is visited now). -/
structure Inv (F : Func) (a : Nat) (cur : Option Nat) (st : St) : Prop where
  arg : st.reg a = some 0
  seen : ∀ i, st.seen i = true → UseDone F st.reg i
  queue : ∀ v ∈ st.queue, ∃ r, st.reg v = some r
  done : ∀ v r, st.reg v = some r → v ∈ st.queue ∨ cur = some v ∨ Done F st v r
  rel : ∀ v r, st.reg v = some r → Rel F a v r

theorem UseDone.grows {F : Func} {reg reg' : Nat → Option Int} (h : Grows reg reg') {i : Nat}
    (hu : UseDone F reg i) : UseDone F reg' i := by
  obtain ⟨v, op, r, h1, h2, h3, h4⟩ := hu
  exact ⟨v, op, r, h1, h _ _ h2, h3, h4.grows h⟩

theorem register_grows {st st' : St} {n : Option (Nat × Int)} (h : register st n = some st') :
    Grows st.reg st'.reg ∧ Registered st'.reg n ∧ st'.seen = st.seen ∧
      (∀ v ∈ st.queue, v ∈ st'.queue) ∧
      (∀ v r, st'.reg v = some r → st.reg v = some r ∨ (n = some (v, r) ∧ v ∈ st'.queue)) ∧
      ∀ v ∈ st'.queue, v ∈ st.queue ∨ ∃ r, st'.reg v = some r := by
  unfold register at h
  cases n with
  | none =>
    simp only [Option.some.injEq] at h
    subst h
    exact ⟨Grows.refl _, trivial, rfl, fun _ h => h, fun _ _ h => .inl h, fun _ h => .inl h⟩
  | some p =>
    obtain ⟨n, r⟩ := p
    simp only at h
    cases hn : st.reg n with
    | none =>
      rw [hn] at h
      simp only [Option.some.injEq] at h
      subst h
      refine ⟨?_, by simp [Registered], rfl, fun v hv => by simp [hv], ?_, ?_⟩
      · intro v s hv
        by_cases e : v = n
        · subst e; rw [hn] at hv; simp at hv
        · simpa [Function.update_of_ne e] using hv
      · intro v s hv
        by_cases e : v = n
        · subst e
          simp at hv
          subst hv
          exact .inr ⟨rfl, by simp⟩
        · exact .inl (by simpa [Function.update_of_ne e] using hv)
      · intro v hv
        rcases List.mem_append.1 hv with h | h
        · exact .inl h
        · simp at h; subst h; exact .inr ⟨r, by simp⟩
    | some r' =>
      rw [hn] at h
      simp only at h
      split at h
      next e =>
        simp only [Option.some.injEq] at h
        subst h e
        exact ⟨Grows.refl _, hn, rfl, fun _ h => h, fun _ _ h => .inl h, fun _ h => .inl h⟩
      next => simp at h

theorem Done.grows {F : Func} {st st' : St} (hg : Grows st.reg st'.reg)
    (hs : ∀ i, st.seen i = true → st'.seen i = true) {v : Nat} {r : Int} (h : Done F st v r) :
    Done F st' v r := by
  rcases h with h | ⟨h1, h2⟩
  · exact .inl h
  · refine .inr ⟨h1.grows hg, fun u hu => ?_⟩
    obtain ⟨i, e, hi⟩ := h2 u hu
    exact ⟨i, e, hs i hi⟩

theorem register_inv {F : Func} {a : Nat} {cur : Option Nat} {st st' : St} {n : Option (Nat × Int)}
    (hrel : ∀ v r, n = some (v, r) → Rel F a v r)
    (h : register st n = some st') (hi : Inv F a cur st) : Inv F a cur st' := by
  obtain ⟨hg, _, hs, hq, hnew, hq'⟩ := register_grows h
  refine ⟨hg _ _ hi.arg, ?_, ?_, ?_, ?_⟩
  · intro i hsi
    rw [hs] at hsi
    exact (hi.seen i hsi).grows hg
  · intro v hv
    rcases hq' v hv with h | h
    · obtain ⟨r, hr⟩ := hi.queue v h
      exact ⟨r, hg _ _ hr⟩
    · exact h
  · intro v r hv
    rcases hnew v r hv with h | h
    · rcases hi.done v r h with h' | h' | h'
      · exact .inl (hq v h')
      · exact .inr (.inl h')
      · exact .inr <| .inr (h'.grows hg fun i hi => by rw [hs]; exact hi)
    · exact .inl h.2
  · intro v r hv
    rcases hnew v r hv with h | h
    · exact hi.rel v r h
    · exact hrel v r h.1

/-- Constraints of uses connect values. -/
theorem applyUse_rel {F : Func} {a : Nat} (hu : UsesOK F) {v i op : Nat} {r : Int}
    (hr : Rel F a v r) (h0 : 0 ≤ r) (hm : (some i, op) ∈ F.uses v) {n : Option (Nat × Int)}
    (h : applyUse F i op r = .ok n) : ∀ w s, n = some (w, s) → Rel F a w s := by
  have hop := (hu v i op).2 hm
  unfold applyUse at h
  intro w s hn
  subst hn
  cases hk : F.kind i with
  | store x p =>
    rw [hk] at h hop
    simp only at h
    match op, hop with
    | 0, hop =>
      simp only [operand, Option.some.injEq] at hop
      subst hop
      simp at h
      obtain ⟨rfl, rfl⟩ := h
      exact .store hk h0 hr
    | 1, hop =>
      simp only [operand, Option.some.injEq] at hop
      subst hop
      simp at h
      obtain ⟨rfl, rfl⟩ := h
      exact .storeUp hk h0 hr
    | n + 2, hop => simp [operand] at hop
  | load p =>
    rw [hk] at h hop
    simp at h
    obtain ⟨rfl, rfl⟩ := h
    match op, hop with
    | 0, hop =>
      simp only [operand, Option.some.injEq] at hop
      subst hop
      exact .load hk h0 hr
    | n + 1, hop => simp [operand] at hop
  | gep p =>
    rw [hk] at h hop
    simp at h
    obtain ⟨rfl, rfl⟩ := h
    match op, hop with
    | 0, hop =>
      simp only [operand, Option.some.injEq] at hop
      subst hop
      exact .gep hk h0 hr
    | n + 1, hop => simp [operand] at hop
  | bitcast p =>
    rw [hk] at h hop
    simp at h
    obtain ⟨rfl, rfl⟩ := h
    match op, hop with
    | 0, hop =>
      simp only [operand, Option.some.injEq] at hop
      subst hop
      exact .cast hk h0 hr
    | n + 1, hop => simp [operand] at hop
  | call c ops =>
    rw [hk] at h
    simp only at h
    cases c with
    | none => simp at h
    | some c =>
      simp only at h
      split at h
      · simp at h
      · split at h
        · simp at h
        · split at h <;> simp at h
  | arg => rw [hk] at h; simp at h
  | global => rw [hk] at h; simp at h
  | const => rw [hk] at h; simp at h
  | alloca => rw [hk] at h; simp at h
  | other ops => rw [hk] at h; simp at h

/-- Constraints of definitions connect values. -/
theorem applyDef_rel {F : Func} {a v : Nat} {r : Int} (hr : Rel F a v r) (h0 : 0 ≤ r)
    {n : Option (Nat × Int)} (h : applyDef F v r = .ok n) :
    ∀ w s, n = some (w, s) → Rel F a w s := by
  unfold applyDef at h
  intro w s hn
  subst hn
  cases hk : F.kind v with
  | load p =>
    rw [hk] at h
    simp at h
    obtain ⟨rfl, rfl⟩ := h
    exact .loadUp hk h0 hr
  | gep p =>
    rw [hk] at h
    simp at h
    obtain ⟨rfl, rfl⟩ := h
    exact .gepUp hk h0 hr
  | bitcast p =>
    rw [hk] at h
    simp at h
    obtain ⟨rfl, rfl⟩ := h
    exact .castUp hk h0 hr
  | arg =>
    rw [hk] at h
    simp only at h
    split at h <;> simp at h
  | call c ops =>
    rw [hk] at h
    cases c with
    | none => simp at h
    | some c => simp only at h; split at h <;> simp at h
  | global => rw [hk] at h; simp at h
  | const => rw [hk] at h; simp at h
  | alloca => rw [hk] at h; simp at h
  | store x p => rw [hk] at h; simp at h
  | other ops => rw [hk] at h; simp at h

theorem visitUses_inv {F : Func} {a : Nat} (hu : UsesOK F) {v : Nat} {r : Int} (h0 : 0 ≤ r) :
    ∀ (us : List (Option Nat × Nat)) (st st' : St), (∀ u ∈ us, u ∈ F.uses v) →
      st.reg v = some r → Inv F a (some v) st → visitUses F r us st = .ok st' →
      Inv F a (some v) st' ∧ Grows st.reg st'.reg ∧
      (∀ i, st.seen i = true → st'.seen i = true) ∧
      ∀ u ∈ us, ∃ i, u.1 = some i ∧ st'.seen i = true
  | [], st, st', _, _, hi, h => by
    simp only [visitUses, Out.ok.injEq] at h
    subst h
    exact ⟨hi, Grows.refl _, fun _ h => h, fun u hu => by simp at hu⟩
  | (none, op) :: us, st, st', _, _, _, h => by simp [visitUses] at h
  | (some i, op) :: us, st, st', hus, hv, hi, h => by
    have hus' : ∀ u ∈ us, u ∈ F.uses v := fun u hu => hus u (by simp [hu])
    unfold visitUses at h
    split at h
    next hs =>
      obtain ⟨h1, h2, h3, h4⟩ := visitUses_inv hu h0 us st st' hus' hv hi h
      refine ⟨h1, h2, h3, fun u hu => ?_⟩
      rcases List.mem_cons.1 hu with rfl | hu
      · exact ⟨i, rfl, h3 i hs⟩
      · exact h4 u hu
    next hs =>
      simp only at h
      cases ha : applyUse F i op r with
      | fail => rw [ha] at h; simp at h
      | crash => rw [ha] at h; simp at h
      | ok n =>
        rw [ha] at h
        simp only at h
        cases hr : register { st with seen := Function.update st.seen i true } n with
        | none => rw [hr] at h; simp at h
        | some st1 =>
          rw [hr] at h
          simp only at h
          have hm : (some i, op) ∈ F.uses v := hus _ (by simp)
          obtain ⟨g1, g2, g3, g4, g5, g6⟩ := register_grows hr
          have hseen : ∀ j, st.seen j = true → st1.seen j = true := by
            intro j hj
            rw [g3]
            by_cases e : j = i
            · subst e; simp
            · simpa [Function.update_of_ne e] using hj
          have hi1 : Inv F a (some v) st1 := by
            refine ⟨g1 _ _ hi.arg, ?_, ?_, ?_, ?_⟩
            · intro j hj
              rw [g3] at hj
              by_cases e : j = i
              · subst e
                exact ⟨v, op, r, hm, g1 _ _ hv, h0, by rw [ha]; exact g2⟩
              · exact (hi.seen j (by simpa [Function.update_of_ne e] using hj)).grows g1
            · intro x hx
              rcases g6 x hx with h | h
              · obtain ⟨s, hs⟩ := hi.queue x h
                exact ⟨s, g1 _ _ hs⟩
              · exact h
            · intro x s hx
              rcases g5 x s hx with h | h
              · rcases hi.done x s h with h' | h' | h'
                · exact .inl (g4 x h')
                · exact .inr (.inl h')
                · exact .inr (.inr (Done.grows (st := st) g1 hseen h'))
              · exact .inl h.2
            · intro x s hx
              rcases g5 x s hx with h | h
              · exact hi.rel x s h
              · exact applyUse_rel hu (hi.rel v r hv) h0 hm ha x s h.1
          obtain ⟨h1, h2, h3, h4⟩ := visitUses_inv hu h0 us st1 st' hus' (g1 _ _ hv) hi1 h
          refine ⟨h1, g1.trans h2, fun j hj => h3 j (hseen j hj), fun u hu => ?_⟩
          rcases List.mem_cons.1 hu with rfl | hu
          · exact ⟨i, rfl, h3 i (by rw [g3]; simp)⟩
          · exact h4 u hu

theorem visit_inv {F : Func} {a : Nat} (hu : UsesOK F) {v : Nat} {r : Int} {st st' : St}
    (hv : st.reg v = some r) (hi : Inv F a (some v) st) (h : visit F v r st = .ok st') :
    Inv F a none st' := by
  unfold visit at h
  split at h
  next hneg =>
    simp only [Out.ok.injEq] at h
    subst h
    refine ⟨hi.arg, hi.seen, hi.queue, fun x s hx => ?_, hi.rel⟩
    rcases hi.done x s hx with h | h | h
    · exact .inl h
    · simp at h; subst h; rw [hv] at hx; simp at hx; subst hx
      exact .inr (.inr (.inl hneg))
    · exact .inr (.inr h)
  next hneg =>
    have h0 : 0 ≤ r := by omega
    cases ha : applyDef F v r with
    | fail => rw [ha] at h; simp at h
    | crash => rw [ha] at h; simp at h
    | ok n =>
      rw [ha] at h
      simp only at h
      cases hr : register st n with
      | none => rw [hr] at h; simp at h
      | some st1 =>
        rw [hr] at h
        simp only at h
        obtain ⟨g1, g2, g3, g4, g5, g6⟩ := register_grows hr
        have hi1 := register_inv (applyDef_rel (hi.rel v r hv) h0 ha) hr hi
        obtain ⟨h1, h2, h3, h4⟩ := visitUses_inv hu h0 (F.uses v) st1 st' (fun _ h => h)
          (g1 _ _ hv) hi1 h
        refine ⟨h1.arg, h1.seen, h1.queue, fun x s hx => ?_, h1.rel⟩
        rcases h1.done x s hx with h | h | h
        · exact .inl h
        · simp at h; subst h
          rw [h2 _ _ (g1 _ _ hv)] at hx; simp at hx; subst hx
          exact .inr (.inr (.inr ⟨by rw [ha]; exact Registered.grows h2 g2, h4⟩))
        · exact .inr (.inr h)

theorem loop_inv {F : Func} {a : Nat} (hu : UsesOK F) : ∀ (fuel : Nat) (st st' : St),
    Inv F a none st → loop F fuel st = some (.ok st') → Inv F a none st' ∧ st'.queue = []
  | 0, st, st', _, h => by simp [loop] at h
  | fuel + 1, st, st', hi, h => by
    unfold loop at h
    cases hq : st.queue with
    | nil =>
      rw [hq] at h
      simp at h
      subst h
      exact ⟨hi, hq⟩
    | cons v q =>
      rw [hq] at h
      simp only at h
      obtain ⟨r, hr⟩ := hi.queue v (by rw [hq]; simp)
      rw [hr] at h
      simp only [Option.getD_some] at h
      have hi1 : Inv F a (some v) { st with queue := q } := by
        refine ⟨hi.arg, hi.seen, fun x hx => hi.queue x (by rw [hq]; simp at hx ⊢; exact .inr hx),
          fun x s hx => ?_, hi.rel⟩
        rcases hi.done x s hx with h | h | h
        · rw [hq] at h
          rcases List.mem_cons.1 h with rfl | h
          · exact .inr (.inl rfl)
          · exact .inl h
        · simp at h
        · exact .inr (.inr h)
      cases hv : visit F v r { st with queue := q } with
      | captured => rw [hv] at h; simp at h
      | crash => rw [hv] at h; simp at h
      | ok st1 =>
        rw [hv] at h
        simp only at h
        exact loop_inv hu fuel st1 st' (visit_inv (st := { st with queue := q }) hu hr hi1 hv) h

theorem start_inv (F : Func) (a : Nat) : Inv F a none (start a) := by
  have hr : ∀ v r, (start a).reg v = some r → v = a ∧ r = 0 := by
    intro v r h
    by_cases e : v = a
    · subst e; simp [start] at h; exact ⟨rfl, h.symm⟩
    · simp [start, Function.update_of_ne e] at h
  refine ⟨by simp [start], by simp [start], ?_, ?_, ?_⟩
  · intro v hv; simp [start] at hv; subst hv; exact ⟨0, by simp [start]⟩
  · intro v r h; obtain ⟨rfl, _⟩ := hr v r h; exact .inl (by simp [start])
  · intro v r h; obtain ⟨rfl, rfl⟩ := hr v r h; exact .arg

/-! ## Ranks satisfy all constraints -/

/-- What is known about ranks if the argument is not captured. -/
structure Closed (F : Func) (a : Nat) (reg : Nat → Option Int) : Prop where
  arg : reg a = some 0
  dArg : ∀ {v r}, F.kind v = .arg → reg v = some r → 0 ≤ r → r = 0
  dGlobal : ∀ {v r}, F.kind v = .global → reg v = some r → ¬ 0 ≤ r
  dConst : ∀ {v r}, F.kind v = .const → reg v = some r → ¬ 0 ≤ r
  dOther : ∀ {v r ops}, F.kind v = .other ops → reg v = some r → ¬ 0 ≤ r
  dStore : ∀ {v r x p}, F.kind v = .store x p → reg v = some r → ¬ 0 ≤ r
  dLoad : ∀ {v r p}, F.kind v = .load p → reg v = some r → 0 ≤ r → reg p = some (r + 1)
  dGep : ∀ {v r p}, F.kind v = .gep p → reg v = some r → 0 ≤ r → reg p = some r
  dCast : ∀ {v r p}, F.kind v = .bitcast p → reg v = some r → 0 ≤ r → reg p = some r
  dCall : ∀ {v r c ops}, F.kind v = .call c ops → reg v = some r → 0 ≤ r →
    ∃ c', c = some c' ∧ c'.noalias = true
  uLoad : ∀ {i r p}, F.kind i = .load p → reg p = some r → 0 ≤ r → reg i = some (r - 1)
  uGep : ∀ {i r p}, F.kind i = .gep p → reg p = some r → 0 ≤ r → reg i = some r
  uCast : ∀ {i r p}, F.kind i = .bitcast p → reg p = some r → 0 ≤ r → reg i = some r
  uVal : ∀ {i r v p}, F.kind i = .store v p → reg v = some r → 0 ≤ r → reg p = some (r + 1)
  uPtr : ∀ {i r v p}, F.kind i = .store v p → reg p = some r → 0 ≤ r → reg v = some (r - 1)
  uOther : ∀ {i r ops x}, F.kind i = .other ops → x ∈ ops → reg x = some r → ¬ 0 ≤ r
  uCall : ∀ {i r c ops x} {j : Nat}, F.kind i = .call c ops → ops[j]? = some x →
    reg x = some r → 0 ≤ r → r = 0 ∧ nocapAt c j = true

theorem inv_closed {F : Func} {a : Nat} {st : St} (hu : UsesOK F) (ho : Once F a)
    (hs : Shallow F a) (hi : Inv F a none st) (hq : st.queue = []) : Closed F a st.reg := by
  have hd : ∀ {v r}, st.reg v = some r → 0 ≤ r → Holds st.reg (applyDef F v r) ∧
      ∀ u ∈ F.uses v, ∃ i, u.1 = some i ∧ st.seen i = true := by
    intro v r hv h0
    rcases hi.done v r hv with h | h | h
    · rw [hq] at h; simp at h
    · simp at h
    · rcases h with h | h
      · omega
      · exact h
  have hU : ∀ {v r i op}, st.reg v = some r → 0 ≤ r → operand (F.kind i) op = some v →
      ∃ v' op' r', operand (F.kind i) op' = some v' ∧ st.reg v' = some r' ∧ 0 ≤ r' ∧
        Holds st.reg (applyUse F i op' r') := by
    intro v r i op hv h0 hop
    obtain ⟨j, e, hj⟩ := (hd hv h0).2 _ ((hu v i op).1 hop)
    simp at e
    subst e
    obtain ⟨v', op', r', h1, h2, h3, h4⟩ := hi.seen i hj
    exact ⟨v', op', r', (hu v' i op').2 h1, h2, h3, h4⟩
  have hst : ∀ {i v p x r op}, F.kind i = .store v p → st.reg x = some r → 0 ≤ r →
      operand (F.kind i) op = some x →
      ∃ s, st.reg v = some s ∧ st.reg p = some (s + 1) := by
    intro i v p x r op hk hx h0 hop
    obtain ⟨x', op', r', h1, h2, h3, h4⟩ := hU hx h0 hop
    rw [hk] at h1
    match op', h1 with
    | 0, h1 =>
      simp only [operand, Option.some.injEq] at h1
      subst h1
      simp [applyUse, hk, Holds, Registered] at h4
      exact ⟨r', h2, h4⟩
    | 1, h1 =>
      simp only [operand, Option.some.injEq] at h1
      subst h1
      simp [applyUse, hk, Holds, Registered] at h4
      exact ⟨r' - 1, h4, by rw [h2]; simp⟩
    | n + 2, h1 => simp [operand] at h1
  refine
    { arg := hi.arg, dArg := ?_, dGlobal := ?_, dConst := ?_, dOther := ?_, dStore := ?_,
      dLoad := ?_, dGep := ?_, dCast := ?_, dCall := ?_, uLoad := ?_, uGep := ?_, uCast := ?_,
      uVal := ?_, uPtr := ?_, uOther := ?_, uCall := ?_ }
  · intro v r hk hv h0
    have := (hd hv h0).1
    simp only [applyDef, hk] at this
    by_contra hne
    simp [hne, Holds] at this
  · intro v r hk hv h0
    have := (hd hv h0).1
    simp [applyDef, hk, Holds] at this
  · intro v r hk hv h0
    have := (hd hv h0).1
    simp [applyDef, hk, Holds] at this
  · intro v r ops hk hv h0
    have := (hd hv h0).1
    simp [applyDef, hk, Holds] at this
  · intro v r x p hk hv h0
    have := (hd hv h0).1
    simp [applyDef, hk, Holds] at this
  · intro v r p hk hv h0
    have := (hd hv h0).1
    simpa [applyDef, hk, Holds, Registered] using this
  · intro v r p hk hv h0
    have := (hd hv h0).1
    simpa [applyDef, hk, Holds, Registered] using this
  · intro v r p hk hv h0
    have := (hd hv h0).1
    simpa [applyDef, hk, Holds, Registered] using this
  · intro v r c ops hk hv h0
    have := (hd hv h0).1
    cases c with
    | none => simp [applyDef, hk, Holds] at this
    | some c =>
      refine ⟨c, rfl, ?_⟩
      by_contra hne
      simp [applyDef, hk, Holds, hne] at this
  · intro i r p hk hp h0
    obtain ⟨x', op', r', h1, h2, h3, h4⟩ := hU (i := i) (op := 0) hp h0 (by simp [hk, operand])
    rw [hk] at h1
    match op', h1 with
    | 0, h1 =>
      simp only [operand, Option.some.injEq] at h1
      subst h1
      rw [hp] at h2
      simp at h2
      subst h2
      simpa [applyUse, hk, Holds, Registered] using h4
    | n + 1, h1 => simp [operand] at h1
  · intro i r p hk hp h0
    obtain ⟨x', op', r', h1, h2, h3, h4⟩ := hU (i := i) (op := 0) hp h0 (by simp [hk, operand])
    rw [hk] at h1
    match op', h1 with
    | 0, h1 =>
      simp only [operand, Option.some.injEq] at h1
      subst h1
      rw [hp] at h2
      simp at h2
      subst h2
      simpa [applyUse, hk, Holds, Registered] using h4
    | n + 1, h1 => simp [operand] at h1
  · intro i r p hk hp h0
    obtain ⟨x', op', r', h1, h2, h3, h4⟩ := hU (i := i) (op := 0) hp h0 (by simp [hk, operand])
    rw [hk] at h1
    match op', h1 with
    | 0, h1 =>
      simp only [operand, Option.some.injEq] at h1
      subst h1
      rw [hp] at h2
      simp at h2
      subst h2
      simpa [applyUse, hk, Holds, Registered] using h4
    | n + 1, h1 => simp [operand] at h1
  · intro i r v p hk hv h0
    obtain ⟨s, h1, h2⟩ := hst (op := 0) hk hv h0 (by simp [hk, operand])
    rw [hv] at h1
    simp at h1
    subst h1
    exact h2
  · intro i r v p hk hp h0
    obtain ⟨s, h1, h2⟩ := hst (op := 1) hk hp h0 (by simp [hk, operand])
    rw [hp] at h2
    simp at h2
    subst h2
    simpa using h1
  · intro i r ops x hk hx hr h0
    obtain ⟨j, hj⟩ := List.mem_iff_getElem?.1 hx
    obtain ⟨x', op', r', h1, h2, h3, h4⟩ := hU (i := i) (op := j) hr h0
      (by simp [hk, operand, hj])
    simp [applyUse, hk, Holds] at h4
  · intro i r c ops x j hk hj hr h0
    obtain ⟨x', op', r', h1, h2, h3, h4⟩ := hU (i := i) (op := j) hr h0
      (by simp [hk, operand, hj])
    have h1' : ops[op']? = some x' := by rw [hk] at h1; simpa [operand] using h1
    have e : j = op' := ho i c ops hk j op' x x' r r' hj h1' h0 h3 (hi.rel _ _ hr) (hi.rel _ _ h2)
    subst e
    have := hs i c ops hk x (List.mem_of_getElem? hj) r (hi.rel _ _ hr)
    refine ⟨by omega, ?_⟩
    cases c with
    | none => simp [applyUse, hk, Holds] at h4
    | some c =>
      simp only [applyUse, hk] at h4
      simp only [nocapAt]
      cases hva : c.vararg <;> cases hl : c.lib <;> simp [hva, hl, Holds] at h4 ⊢
      · cases hn : c.nocap[j]? with
        | none => simp [hn] at h4
        | some b => cases b <;> simp [hn] at h4 ⊢
      · cases hn : c.nocap[j]? with
        | none => simp [hn] at h4
        | some b => cases b <;> simp [hn] at h4 ⊢

/-! ## Executions preserve ranks -/

/-- An object which may contain pointers of the rank `r - 1`. -/
def Deep (reg : Nat → Option Int) (o : Ob) (r : Int) : Prop :=
  ∃ s k, o = .loc s k ∧ reg s = some r ∧ 1 ≤ r

def Plain (reg : Nat → Option Int) (o : Ob) : Prop := ∀ r, ¬ Deep reg o r

/-- A word of the rank `r`. -/
def HasRank (reg : Nat → Option Int) (w : Word) (r : Int) : Prop :=
  (r = 0 ∧ ∃ n off, w = .ptr (.glob n) off true) ∨ ∃ o off, w = .ptr o off false ∧ Deep reg o r

/-- A word which has no rank. -/
def Clean (reg : Nat → Option Int) (w : Word) : Prop :=
  w = .data ∨ ∃ o off, w = .ptr o off false ∧ Plain reg o

structure Good (F : Func) (reg : Nat → Option Int) (σ : State) : Prop where
  env : ∀ v, Clean reg (σ.env v) ∨ ∃ r, 0 ≤ r ∧ reg v = some r ∧ HasRank reg (σ.env v) r
  deep : ∀ v r, reg v = some r → 1 ≤ r → σ.env v = .data ∨ HasRank reg (σ.env v) r
  plain : ∀ o off, Plain reg o → Clean reg (σ.mem o off)
  one : ∀ o off, Deep reg o 1 → Clean reg (σ.mem o off) ∨ HasRank reg (σ.mem o off) 0
  more : ∀ o off r, Deep reg o r → 2 ≤ r → σ.mem o off = .data ∨ HasRank reg (σ.mem o off) (r - 1)
  const : ∀ v, F.kind v = .const → σ.env v = .data

variable {reg : Nat → Option Int}

theorem glob_plain (n : Nat) : Plain reg (.glob n) := by
  rintro r ⟨s, k, e, _⟩
  simp at e

theorem Deep.inj {o : Ob} {r s : Int} (h1 : Deep reg o r) (h2 : Deep reg o s) : r = s := by
  obtain ⟨a, k, rfl, h, _⟩ := h1
  obtain ⟨b, l, e, h', _⟩ := h2
  simp at e
  obtain ⟨rfl, rfl⟩ := e
  rw [h] at h'
  simpa using h'

theorem Deep.pos {o : Ob} {r : Int} (h : Deep reg o r) : 1 ≤ r := by
  obtain ⟨_, _, _, _, h⟩ := h
  exact h

theorem clean_shift {w : Word} (d : Int) (h : Clean reg w) : Clean reg (w.shift d) := by
  rcases h with rfl | ⟨o, off, rfl, h⟩
  · exact .inl rfl
  · exact .inr ⟨o, off + d, rfl, h⟩

theorem rank_shift {w : Word} {r : Int} (d : Int) (h : HasRank reg w r) :
    HasRank reg (w.shift d) r := by
  rcases h with ⟨e, n, off, rfl⟩ | ⟨o, off, rfl, h⟩
  · exact .inl ⟨e, n, off + d, rfl⟩
  · exact .inr ⟨o, off + d, rfl, h⟩

/-- A pointer to an object with a rank has this rank. -/
theorem Good.of_deep {F : Func} {σ : State} (hg : Good F reg σ) {p : Nat} {o : Ob} {off r : Int}
    {t : Bool} (he : σ.env p = .ptr o off t) (hd : Deep reg o r) : reg p = some r := by
  rcases hg.env p with h | ⟨s, _, hs, h⟩
  · rw [he] at h
    rcases h with h | ⟨o', off', h, hp⟩
    · simp at h
    · simp at h; obtain ⟨rfl, _, _⟩ := h; exact absurd hd (hp r)
  · rw [he] at h
    rcases h with ⟨_, n, off', h⟩ | ⟨o', off', h, hd'⟩
    · simp at h; obtain ⟨rfl, _⟩ := h; exact absurd hd (glob_plain n r)
    · simp at h; obtain ⟨rfl, _, _⟩ := h; rw [hs, hd.inj hd']

/-- A pointer of a positive rank points to an object of this rank. -/
theorem Good.to_deep {F : Func} {σ : State} (hg : Good F reg σ) {p : Nat} {o : Ob} {off r : Int}
    {t : Bool} (he : σ.env p = .ptr o off t) (hr : reg p = some r) (h1 : 1 ≤ r) :
    Deep reg o r := by
  rcases hg.deep p r hr h1 with h | h
  · rw [he] at h; simp at h
  · rw [he] at h
    rcases h with ⟨e, _⟩ | ⟨o', off', h, hd'⟩
    · omega
    · simp at h; obtain ⟨rfl, _, _⟩ := h; exact hd'

theorem reach_plain {mem : Ob → Int → Word} {R0 : Ob → Prop}
    (hm : ∀ o off, Plain reg o → Clean reg (mem o off)) (h0 : ∀ o, R0 o → Plain reg o)
    {o : Ob} (h : Reach mem R0 o) : Plain reg o := by
  induction h with
  | base h => exact h0 _ h
  | step _ e ih =>
    rcases hm _ _ ih with h | ⟨o', off', h, hp⟩
    · exact absurd (e.symm.trans h) (by simp)
    · have := e.symm.trans h
      simp at this
      obtain ⟨rfl, _, _⟩ := this
      exact hp

/-- Registers and memory after a call which has operands without positive ranks. -/
theorem effect_good {F : Func} {σ : State} (hg : Good F reg σ) {ops : List Nat}
    {nocap : Nat → Bool}
    (hops : ∀ (j x : Nat) (r : Int), ops[j]? = some x → reg x = some r → 0 ≤ r →
      r = 0 ∧ nocap j = true) :
    (∀ w, Avail σ ops nocap w → Clean reg w) ∧
    ∀ mem', Effect σ ops nocap mem' →
      (∀ o off, Plain reg o → Clean reg (mem' o off)) ∧
      ∀ o off r, Deep reg o r → mem' o off = σ.mem o off := by
  have hgiven : ∀ o, Given σ ops o → Plain reg o := by
    rintro o (⟨n, rfl⟩ | ⟨x, hx, off, t, he⟩)
    · exact glob_plain n
    · intro r hd
      obtain ⟨j, hj⟩ := List.mem_iff_getElem?.1 hx
      have hr := hg.of_deep he hd
      have := hops j x r hj hr (by have := hd.pos; omega)
      have := hd.pos
      omega
  have hreach : ∀ o, Reach σ.mem (Given σ ops) o → Plain reg o := fun o h =>
    reach_plain hg.plain hgiven h
  have hav : ∀ w, Avail σ ops nocap w → Clean reg w := by
    intro w h
    cases h with
    | data => exact .inl rfl
    | glob => exact .inr ⟨_, _, rfl, glob_plain _⟩
    | mem h => exact clean_shift _ (hg.plain _ _ (hreach _ h))
    | @op j x d hj hn =>
      rcases hg.env x with h | ⟨r, h0, hr, _⟩
      · exact clean_shift _ h
      · have := (hops j x r hj hr h0).2
        rw [hn] at this
        simp at this
  refine ⟨hav, fun mem' he => ⟨fun o off ho => ?_, fun o off r hd => ?_⟩⟩
  · rcases he o off with h | h
    · rw [h]; exact hg.plain o off ho
    · exact hav _ h.2
  · rcases he o off with h | h
    · exact h
    · exact absurd hd (hreach o h.1 r)

/-- A new object. -/
theorem new_word (reg : Nat → Option Int) (i k : Nat) :
    (Clean reg (.ptr (.loc i k) 0 false) ∨
      ∃ r, 0 ≤ r ∧ reg i = some r ∧ HasRank reg (.ptr (.loc i k) 0 false) r) ∧
    ∀ r, reg i = some r → 1 ≤ r → HasRank reg (.ptr (.loc i k) 0 false) r := by
  have h2 : ∀ r, reg i = some r → 1 ≤ r → HasRank reg (.ptr (.loc i k) 0 false) r :=
    fun r hr h1 => .inr ⟨_, _, rfl, i, k, rfl, hr, h1⟩
  refine ⟨?_, h2⟩
  by_cases h : ∃ r, reg i = some r ∧ 1 ≤ r
  · obtain ⟨r, hr, h1⟩ := h
    exact .inr ⟨r, by omega, hr, h2 r hr h1⟩
  · refine .inl (.inr ⟨_, _, rfl, ?_⟩)
    rintro r ⟨s, l, e, hr, h1⟩
    simp at e
    obtain ⟨rfl, rfl⟩ := e
    exact h ⟨r, hr, h1⟩

/-- Update of one register. -/
theorem Good.set {F : Func} {σ : State} (hg : Good F reg σ) {i : Nat} {w : Word}
    {mem' : Ob → Int → Word} (hc : F.kind i ≠ .const)
    (he : Clean reg w ∨ ∃ r, 0 ≤ r ∧ reg i = some r ∧ HasRank reg w r)
    (hd : ∀ r, reg i = some r → 1 ≤ r → w = .data ∨ HasRank reg w r)
    (hp : ∀ o off, Plain reg o → Clean reg (mem' o off))
    (h1 : ∀ o off, Deep reg o 1 → Clean reg (mem' o off) ∨ HasRank reg (mem' o off) 0)
    (h2 : ∀ o off r, Deep reg o r → 2 ≤ r →
      mem' o off = .data ∨ HasRank reg (mem' o off) (r - 1)) :
    Good F reg { env := Function.update σ.env i w, mem := mem' } := by
  refine ⟨fun v => ?_, fun v r hv hr => ?_, hp, h1, h2, fun v hv => ?_⟩
  · by_cases e : v = i
    · subst e; simpa using he
    · simpa [Function.update_of_ne e] using hg.env v
  · by_cases e : v = i
    · subst e; simpa using hd r hv hr
    · simpa [Function.update_of_ne e] using hg.deep v r hv hr
  · by_cases e : v = i
    · subst e; exact absurd hv hc
    · simpa [Function.update_of_ne e] using hg.const v hv

theorem exec_good {F : Func} {a i : Nat} {σ σ' : State} (hc : Closed F a reg) (hn : NewEmpty F)
    (hg : Good F reg σ) (h : Exec F i σ σ') : Good F reg σ' := by
  cases h with
  | @store v p o off t hk he =>
    have key : (Plain reg o → Clean reg (σ.env v)) := by
      intro hp
      rcases hg.env v with h | ⟨r, h0, hr, h⟩
      · exact h
      · exact absurd (hg.to_deep he (hc.uVal hk hr h0) (by omega)) (hp _)
    refine ⟨hg.env, hg.deep, fun o' off' hp => ?_, fun o' off' hd => ?_, fun o' off' r hd h2 => ?_,
      hg.const⟩
    · simp only
      split
      next e => obtain ⟨rfl, rfl⟩ := e; exact key hp
      next => exact hg.plain _ _ hp
    · simp only
      split
      next e =>
        obtain ⟨rfl, rfl⟩ := e
        have hv := hc.uPtr hk (hg.of_deep he hd) (by omega)
        rcases hg.env v with h | ⟨r, h0, hr, h⟩
        · exact .inl h
        · rw [hv] at hr
          simp at hr
          subst hr
          exact .inr h
      next => exact hg.one _ _ hd
    · simp only
      split
      next e =>
        obtain ⟨rfl, rfl⟩ := e
        have hv := hc.uPtr hk (hg.of_deep he hd) (by omega)
        exact hg.deep v _ hv (by omega)
      next => exact hg.more _ _ r hd h2
  | @load p o off t hk he =>
    refine hg.set (by simp [hk]) ?_ ?_ hg.plain hg.one hg.more
    · by_cases hd : ∃ r, Deep reg o r
      · obtain ⟨r, hd⟩ := hd
        have hpos := hd.pos
        have hi := hc.uLoad hk (hg.of_deep he hd) (by omega)
        by_cases e : r = 1
        · subst e
          rcases hg.one o off hd with h | h
          · exact .inl h
          · exact .inr ⟨0, by omega, by simpa using hi, h⟩
        · rcases hg.more o off r hd (by omega) with h | h
          · exact .inl (.inl h)
          · exact .inr ⟨r - 1, by omega, hi, h⟩
      · exact .inl (hg.plain o off fun r h => hd ⟨r, h⟩)
    · intro r hr h1
      have hp := hc.dLoad hk hr (by omega)
      have hd := hg.to_deep he hp (by omega)
      simpa using hg.more o off (r + 1) hd (by omega)
  | @gep p d hk =>
    refine hg.set (by simp [hk]) ?_ ?_ hg.plain hg.one hg.more
    · rcases hg.env p with h | ⟨r, h0, hr, h⟩
      · exact .inl (clean_shift d h)
      · exact .inr ⟨r, h0, hc.uGep hk hr h0, rank_shift d h⟩
    · intro r hr h1
      rcases hg.deep p r (hc.dGep hk hr (by omega)) h1 with h | h
      · rw [h]; exact .inl rfl
      · exact .inr (rank_shift d h)
  | @bitcast p hk =>
    refine hg.set (by simp [hk]) ?_ ?_ hg.plain hg.one hg.more
    · rcases hg.env p with h | ⟨r, h0, hr, h⟩
      · exact .inl h
      · exact .inr ⟨r, h0, hc.uCast hk hr h0, h⟩
    · intro r hr h1
      exact hg.deep p r (hc.dCast hk hr (by omega)) h1
  | @alloca k hk =>
    obtain ⟨w1, w2⟩ := new_word reg i k
    refine hg.set (by simp [hk]) w1 (fun r hr h1 => .inr (w2 r hr h1)) ?_ ?_ ?_
    · intro o off hp
      split
      · exact .inl rfl
      · exact hg.plain o off hp
    · intro o off hd
      split
      · exact .inl (.inl rfl)
      · exact hg.one o off hd
    · intro o off r hd h2
      split
      · exact .inl rfl
      · exact hg.more o off r hd h2
  | @call c ops mem' w hk hna heff hw =>
    obtain ⟨hav, hmem⟩ := effect_good hg (ops := ops) (nocap := nocapAt c)
      (fun j x r hj hr h0 => hc.uCall hk hj hr h0)
    obtain ⟨hm1, hm2⟩ := hmem mem' heff
    refine hg.set (by simp [hk]) (.inl (hav w hw)) ?_ hm1 ?_ ?_
    · intro r hr h1
      obtain ⟨c', e, h⟩ := hc.dCall hk hr (by omega)
      rw [hna c' e] at h
      simp at h
    · intro o off hd; rw [hm2 o off 1 hd]; exact hg.one o off hd
    · intro o off r hd h2; rw [hm2 o off r hd]; exact hg.more o off r hd h2
  | @new c ops mem' k init hk hna heff hinit hptr =>
    obtain ⟨hav, hmem⟩ := effect_good hg (ops := ops) (nocap := nocapAt (some c))
      (fun j x r hj hr h0 => hc.uCall hk hj hr h0)
    obtain ⟨hm1, hm2⟩ := hmem mem' heff
    obtain ⟨w1, w2⟩ := new_word reg i k
    have hin := hptr (hn i c ops hk hna)
    refine hg.set (by simp [hk]) w1 (fun r hr h1 => .inr (w2 r hr h1)) ?_ ?_ ?_
    · intro o off hp
      split
      · exact .inl (hin off)
      · exact hm1 o off hp
    · intro o off hd
      split
      · exact .inl (.inl (hin off))
      · rw [hm2 o off 1 hd]; exact hg.one o off hd
    · intro o off r hd h2
      split
      · exact .inl (hin off)
      · rw [hm2 o off r hd]; exact hg.more o off r hd h2
  | @other ops mem' w hk heff hw =>
    obtain ⟨hav, hmem⟩ := effect_good hg (ops := ops) (nocap := fun _ => false)
      (fun j x r hj hr h0 => absurd h0 (hc.uOther hk (List.mem_of_getElem? hj) hr))
    obtain ⟨hm1, hm2⟩ := hmem mem' heff
    refine hg.set (by simp [hk]) (.inl (hav w hw)) ?_ hm1 ?_ ?_
    · intro r hr h1
      exact absurd (by omega) (hc.dOther hk hr)
    · intro o off hd; rw [hm2 o off 1 hd]; exact hg.one o off hd
    · intro o off r hd h2; rw [hm2 o off r hd]; exact hg.more o off r hd h2

theorem entry_good {F : Func} {a : Nat} {σ : State} (hc : Closed F a reg) (hk : F.kind a = .arg)
    (he : Entry F a σ) : Good F reg σ := by
  have hcl : ∀ w, (w = .data ∨ ∃ n off, w = .ptr (.glob n) off false) → Clean reg w := by
    rintro w (h | ⟨n, off, h⟩)
    · exact .inl h
    · exact .inr ⟨_, _, h, glob_plain n⟩
  have hfree : ∀ v r, reg v = some r → 1 ≤ r → v ≠ a ∧ F.kind v ≠ .arg ∧ F.kind v ≠ .global := by
    intro v r hr h1
    refine ⟨?_, ?_, ?_⟩
    · rintro rfl; rw [hc.arg] at hr; simp at hr; omega
    · intro h; have := hc.dArg h hr (by omega); omega
    · intro h; exact hc.dGlobal h hr (by omega)
  have hmem : ∀ o off, Clean reg (σ.mem o off) := fun o off => hcl _ (he.mem o off)
  refine ⟨fun v => ?_, fun v r hr h1 => ?_, fun o off _ => hmem o off, fun o off _ => .inl (hmem o off),
    fun o off r hd h2 => ?_, fun v hv => ?_⟩
  · by_cases e : v = a
    · subst e
      obtain ⟨n, off, h⟩ := he.arg
      exact .inr ⟨0, by omega, hc.arg, .inl ⟨rfl, n, off, h⟩⟩
    · exact .inl (hcl _ (he.env v e))
  · obtain ⟨h2, h3, h4⟩ := hfree v r hr h1
    exact .inl (he.inst v h2 h3 h4)
  · obtain ⟨s, k, rfl, _⟩ := hd
    exact .inl (he.local_ s k off)
  · exact he.inst v (by rintro rfl; rw [hk] at hv; simp at hv) (by simp [hv]) (by simp [hv])

/-- **Soundness**: if the analysis finds out that an argument is not captured, then there is no
pointer derived from it in memory which is accessible from outside of the function, whatever the
execution is.  Missing: calls which have several operands connected with the argument (`Once`),
calls which obtain memory with the argument (`Shallow`), `noalias` functions which return memory
with pointers (`NewEmpty`). -/
theorem nocapture_sound_partial {F : Func} {fuel a : Nat} {st : St} (hu : UsesOK F)
    (hk : F.kind a = .arg) (ho : Once F a) (hs : Shallow F a) (hn : NewEmpty F)
    (h : isCaptured F fuel a = some (.ok st)) {σ : State} (hσ : Reachable F a σ) :
    ¬ Captured σ := by
  obtain ⟨hi, hq⟩ := loop_inv hu fuel _ st (start_inv F a) h
  have hc := inv_closed hu ho hs hi hq
  have hg : Good F st.reg σ := by
    induction hσ with
    | entry he => exact entry_good hc hk he
    | step i _ hx ih => exact exec_good hc hn ih hx
  rintro ⟨o, off, hr, o', off', ht⟩
  have hp := reach_plain hg.plain (fun o ⟨n, e⟩ => by subst e; exact glob_plain n) hr
  rcases hg.plain o off hp with h | ⟨o'', off'', h, _⟩
  · rw [h] at ht; simp at ht
  · rw [h] at ht; simp at ht

end Tsar.NoCapture
