import Verif.NoCapture.Props
import Mathlib.Data.Finset.Card
import Mathlib.Data.Finset.Range

/-!
# Termination of the analysis of captured arguments, examples, cases in which it is wrong
-/

namespace Tsar.NoCapture

/-! ## Termination -/

/-- All operands and all users are among `N` values of a function. -/
def Bounded (F : Func) (N : Nat) : Prop :=
  (∀ i op v, operand (F.kind i) op = some v → v < N) ∧
    ∀ v i op, (some i, op) ∈ F.uses v → i < N

/-- The number of values which are not registered. -/
def free (st : St) (N : Nat) : Nat := ((Finset.range N).filter fun v => st.reg v = none).card

theorem register_measure {st st' : St} {N : Nat} {n : Option (Nat × Int)}
    (hn : ∀ v r, n = some (v, r) → v < N) (h : register st n = some st') :
    st'.queue.length + free st' N ≤ st.queue.length + free st N := by
  unfold register at h
  cases n with
  | none => simp at h; subst h; exact le_refl _
  | some p =>
    obtain ⟨n, r⟩ := p
    simp only at h
    cases hr : st.reg n with
    | none =>
      rw [hr] at h
      simp only [Option.some.injEq] at h
      subst h
      have hlt : free ⟨Function.update st.reg n (some r), st.seen, st.queue ++ [n]⟩ N <
          free st N := by
        apply Finset.card_lt_card
        refine ⟨fun v hv => ?_, fun hsub => ?_⟩
        · simp only [Finset.mem_filter, Finset.mem_range] at hv ⊢
          refine ⟨hv.1, ?_⟩
          by_cases e : v = n
          · subst e; exact hr
          · simpa [Function.update_of_ne e] using hv.2
        · have := (Finset.mem_filter.1 (hsub (Finset.mem_filter.2
            ⟨Finset.mem_range.2 (hn n r rfl), hr⟩))).2
          simp at this
      simp only [List.length_append, List.length_cons, List.length_nil]
      omega
    | some r' =>
      rw [hr] at h
      simp only at h
      split at h
      · simp at h; subst h; exact le_refl _
      · simp at h

theorem applyUse_bound {F : Func} {N i op v : Nat} {r : Int} (hb : Bounded F N)
    (hm : (some i, op) ∈ F.uses v) {n : Option (Nat × Int)} (h : applyUse F i op r = .ok n) :
    ∀ w s, n = some (w, s) → w < N := by
  have hi := hb.2 v i op hm
  intro w s e
  subst e
  unfold applyUse at h
  split at h
  next x p hk =>
    split at h
    · simp at h; obtain ⟨rfl, _⟩ := h; exact hb.1 i 1 p (by simp [hk, operand])
    · simp at h; obtain ⟨rfl, _⟩ := h; exact hb.1 i 0 x (by simp [hk, operand])
  next => simp at h; obtain ⟨rfl, _⟩ := h; exact hi
  next => simp at h; obtain ⟨rfl, _⟩ := h; exact hi
  next => simp at h; obtain ⟨rfl, _⟩ := h; exact hi
  next => simp at h
  next =>
    split at h
    · simp at h
    · split at h
      · simp at h
      · split at h <;> simp at h
  next => simp at h

theorem applyDef_bound {F : Func} {N v : Nat} {r : Int} (hb : Bounded F N)
    {n : Option (Nat × Int)} (h : applyDef F v r = .ok n) : ∀ w s, n = some (w, s) → w < N := by
  intro w s e
  subst e
  unfold applyDef at h
  split at h
  next => split at h <;> simp at h
  next => simp at h
  next p hk => simp at h; obtain ⟨rfl, _⟩ := h; exact hb.1 v 0 p (by simp [hk, operand])
  next => simp at h
  next => split at h <;> simp at h
  next p hk => simp at h; obtain ⟨rfl, _⟩ := h; exact hb.1 v 0 p (by simp [hk, operand])
  next => simp at h
  next p hk => simp at h; obtain ⟨rfl, _⟩ := h; exact hb.1 v 0 p (by simp [hk, operand])
  next => simp at h

theorem visitUses_measure {F : Func} {N v : Nat} {r : Int} (hb : Bounded F N) :
    ∀ (us : List (Option Nat × Nat)) (st st' : St), (∀ u ∈ us, u ∈ F.uses v) →
      visitUses F r us st = .ok st' →
      st'.queue.length + free st' N ≤ st.queue.length + free st N
  | [], st, st', _, h => by simp [visitUses] at h; subst h; exact le_refl _
  | (none, op) :: us, st, st', _, h => by simp [visitUses] at h
  | (some i, op) :: us, st, st', hus, h => by
    have hus' : ∀ u ∈ us, u ∈ F.uses v := fun u hu => hus u (by simp [hu])
    unfold visitUses at h
    split at h
    · exact visitUses_measure hb us st st' hus' h
    · simp only at h
      cases ha : applyUse F i op r with
      | fail => rw [ha] at h; simp at h
      | crash => rw [ha] at h; simp at h
      | ok n =>
        rw [ha] at h
        simp only at h
        cases hr : register { st with seen := Function.update st.seen i true } n with
        | none => rw [hr] at h; simp at h
        | some st1 =>
          rw [hr] at h
          simp only at h
          have h1 := register_measure (N := N) (applyUse_bound hb (hus _ (by simp)) ha) hr
          have h2 := visitUses_measure hb us st1 st' hus' h
          exact le_trans h2 h1

theorem visit_measure {F : Func} {N v : Nat} {r : Int} (hb : Bounded F N) {st st' : St}
    (h : visit F v r st = .ok st') :
    st'.queue.length + free st' N ≤ st.queue.length + free st N := by
  unfold visit at h
  split at h
  · simp at h; subst h; exact le_refl _
  · cases ha : applyDef F v r with
    | fail => rw [ha] at h; simp at h
    | crash => rw [ha] at h; simp at h
    | ok n =>
      rw [ha] at h
      simp only at h
      cases hr : register st n with
      | none => rw [hr] at h; simp at h
      | some st1 =>
        rw [hr] at h
        simp only at h
        exact le_trans (visitUses_measure hb (F.uses v) st1 st' (fun _ h => h) h)
          (register_measure (applyDef_bound hb ha) hr)

theorem loop_total {F : Func} {N : Nat} (hb : Bounded F N) : ∀ (fuel : Nat) (st : St),
    st.queue.length + free st N < fuel → loop F fuel st ≠ none
  | 0, st, h => by omega
  | fuel + 1, st, h => by
    unfold loop
    cases hq : st.queue with
    | nil => simp
    | cons v q =>
      simp only
      cases hv : visit F v ((st.reg v).getD (-1)) { st with queue := q } with
      | captured => simp
      | crash => simp
      | ok st1 =>
        simp only
        refine loop_total hb fuel st1 ?_
        have := visit_measure hb hv
        have e : free { st with queue := q } N = free st N := rfl
        rw [e] at this
        rw [hq] at h
        simp only [List.length_cons] at h this
        omega

/-- **Termination**: each value is visited at most once, so the search ends after at most `N + 1`
iterations for a function with `N` values. -/
theorem isCaptured_total {F : Func} {N a : Nat} (hb : Bounded F N) (ha : a < N) :
    isCaptured F (N + 1) a ≠ none := by
  refine loop_total hb _ _ ?_
  have hlt : free (start a) N < N := by
    have h : free (start a) N < (Finset.range N).card := by
      apply Finset.card_lt_card
      refine ⟨Finset.filter_subset _ _, fun hsub => ?_⟩
      have := (Finset.mem_filter.1 (hsub (Finset.mem_range.2 ha))).2
      simp [start] at this
    simpa using h
  have : (start a).queue.length = 1 := rfl
  omega

/-! ## An example -/

/-- The argument is stored in a local variable, it is loaded again, a derived pointer is used to
access memory and it is passed to a function which does not capture it. -/
def exF : Func where
  kind
    | 0 => .arg
    | 1 => .alloca
    | 2 => .store 0 1
    | 3 => .load 1
    | 4 => .gep 3
    | 5 => .load 4
    | 6 => .call (some { nocap := [true, true] }) [4, 5]
    | _ => .const
  uses
    | 0 => [(some 2, 0)]
    | 1 => [(some 3, 0), (some 2, 1)]
    | 3 => [(some 4, 0)]
    | 4 => [(some 6, 0), (some 5, 0)]
    | 5 => [(some 6, 1)]
    | _ => []

theorem exF_uses : UsesOK exF := by
  intro v i op
  rcases i with _ | _ | _ | _ | _ | _ | _ | i <;>
    rcases v with _ | _ | _ | _ | _ | _ | _ | v <;>
      rcases op with _ | _ | op <;> simp [exF, operand]

theorem exF_rel {v : Nat} {r : Int} (h : Rel exF 0 v r) :
    (v = 0 ∧ r = 0) ∨ (v = 1 ∧ r = 1) ∨ (v = 3 ∧ r = 0) ∨ (v = 4 ∧ r = 0) ∨ (v = 5 ∧ r = -1) := by
  have hk : ∀ i, exF.kind i = exF.kind i := fun _ => rfl
  induction h with
  | arg => simp
  | @gep i p r h h0 _ ih | @gepUp i p r h h0 _ ih | @cast i p r h h0 _ ih | @castUp i p r h h0 _ ih
  | @load i p r h h0 _ ih | @loadUp i p r h h0 _ ih =>
    rcases i with _ | _ | _ | _ | _ | _ | _ | i <;> simp [exF] at h <;> subst h <;> omega
  | @store i v p r h h0 _ ih | @storeUp i v p r h h0 _ ih =>
    rcases i with _ | _ | _ | _ | _ | _ | _ | i <;> simp [exF] at h <;>
      obtain ⟨rfl, rfl⟩ := h <;> omega

theorem exF_call {i : Nat} {c : Option Callee} {ops : List Nat} (h : exF.kind i = .call c ops) :
    ops = [4, 5] := by
  rcases i with _ | _ | _ | _ | _ | _ | _ | i <;> simp [exF] at h
  exact h.2.symm

theorem exF_ok : ∃ st, isCaptured exF 8 0 = some (.ok st) := ⟨_, rfl⟩

example {σ : State} (hσ : Reachable exF 0 σ) : ¬ Captured σ := by
  obtain ⟨st, h⟩ := exF_ok
  refine nocapture_sound_partial exF_uses rfl ?_ ?_ ?_ h hσ
  · intro i c ops hk j k x y r s hj hk' h0 h0' hx hy
    have e := exF_call hk
    subst e
    rcases j with _ | _ | j <;> rcases k with _ | _ | k <;> simp at hj hk' <;> try rfl
    · subst hj hk'; have := exF_rel hy; omega
    · subst hj hk'; have := exF_rel hx; omega
  · intro i c ops hk x hx r hr
    have e := exF_call hk
    subst e
    have := exF_rel hr
    simp at hx
    omega
  · intro i c ops hk hn
    rcases i with _ | _ | _ | _ | _ | _ | _ | i <;> simp [exF] at hk
    rw [← hk.1] at hn
    simp at hn

/-- The example is executed: the argument is stored in the local variable. -/
example : ∃ σ, Reachable exF 0 σ ∧ (σ.mem (.loc 1 0) 0).Tainted := by
  let σ : State := { env := fun v => if v = 0 then .ptr (.glob 0) 0 true else .data
                     mem := fun _ _ => .data }
  have h0 : Reachable exF 0 σ := .entry
    { arg := ⟨0, 0, rfl⟩
      env := fun v hv => by simp [σ, hv]
      inst := fun v hv _ _ => by simp [σ, hv]
      mem := fun _ _ => .inl rfl
      local_ := fun _ _ _ => rfl }
  have h1 := Reachable.step 1 h0 (.alloca 0 rfl)
  have h2 := Reachable.step 2 h1
    (.store (v := 0) (p := 1) (o := .loc 1 0) (off := 0) (t := false) rfl (by simp))
  exact ⟨_, h2, .glob 0, 0, by simp [σ, Function.update]⟩

example : Bounded exF 7 := by
  refine ⟨fun i op v h => ?_, fun v i op h => ?_⟩
  · rcases i with _ | _ | _ | _ | _ | _ | _ | i <;> rcases op with _ | _ | op <;>
      simp [exF, operand] at h <;> omega
  · rcases v with _ | _ | _ | _ | _ | _ | _ | v <;> simp [exF] at h <;> omega

/-! ## Cases in which the result is wrong -/

/-- The state at the entry which is used below. -/
def entry0 : State where
  env v := if v = 0 then .ptr (.glob 0) 0 true else .data
  mem _ _ := .data

theorem entry0_ok {F : Func} : Reachable F 0 entry0 := .entry
  { arg := ⟨0, 0, rfl⟩
    env := fun v hv => by simp [entry0, hv]
    inst := fun v hv _ _ => by simp [entry0, hv]
    mem := fun _ _ => .inl rfl
    local_ := fun _ _ _ => rfl }

/-- `f(p, p)`: the second parameter of the called function is `nocapture`, the first one is not.
The order of uses is the order in LLVM (the last operand is the first one). -/
def twiceF : Func where
  kind
    | 0 => .arg
    | 1 => .call (some { nocap := [false, true] }) [0, 0]
    | _ => .const
  uses
    | 0 => [(some 1, 1), (some 1, 0)]
    | _ => []

/-- An instruction is checked for one of its operands only, so the argument which is passed to a
call twice may be captured although the analysis proves the opposite. -/
theorem twice_fails : ∃ (F : Func) (fuel : Nat) (st : St) (σ : State), UsesOK F ∧ F.kind 0 = .arg ∧
    Shallow F 0 ∧ NewEmpty F ∧ isCaptured F fuel 0 = some (.ok st) ∧ Reachable F 0 σ ∧
    Captured σ := by
  have hrel : ∀ {v r}, Rel twiceF 0 v r → r = 0 := by
    intro v r h
    induction h with
    | arg => rfl
    | @gep i p r h h0 _ ih | @gepUp i p r h h0 _ ih | @cast i p r h h0 _ ih
    | @castUp i p r h h0 _ ih | @load i p r h h0 _ ih | @loadUp i p r h h0 _ ih =>
      rcases i with _ | _ | i <;> simp [twiceF] at h
    | @store i v p r h h0 _ ih | @storeUp i v p r h h0 _ ih =>
      rcases i with _ | _ | i <;> simp [twiceF] at h
  have hx := Reachable.step (F := twiceF) 1 entry0_ok
    (.call (c := some { nocap := [false, true] }) (ops := [0, 0]) (w := .data)
      (mem' := fun o off => if o = .glob 1 ∧ off = 0 then .ptr (.glob 0) 0 true else .data)
      rfl (by rintro c' h; simp at h; subst h; rfl)
      (fun o off => by
        by_cases e : o = .glob 1 ∧ off = 0
        · refine .inr ⟨.base (.inl ⟨1, e.1⟩), ?_⟩
          simp only [e, and_self, if_true]
          exact Avail.op (σ := entry0) (j := 0) (x := 0) (d := 0) rfl rfl
        · exact .inl (by simp [e, entry0])) .data)
  refine ⟨twiceF, 3, _, _, ?_, rfl, ?_, ?_, rfl, hx, .glob 1, 0, .base ⟨1, rfl⟩, .glob 0, 0, rfl⟩
  · intro v i op
    rcases i with _ | _ | i <;> rcases v with _ | v <;> rcases op with _ | _ | op <;>
      simp [twiceF, operand]
  · intro i c ops _ x _ r hr
    rw [hrel hr]
  · intro i c ops hk hn
    rcases i with _ | _ | i <;> simp [twiceF] at hk
    rw [← hk.1] at hn
    simp at hn

/-- `f(&q)`, where `q` is a local variable equal to the argument, and the parameter of `f` is
`nocapture` (so `&q` is not captured, although `q` may be). -/
def deepF : Func where
  kind
    | 0 => .arg
    | 1 => .alloca
    | 2 => .store 0 1
    | 3 => .call (some { nocap := [true] }) [1]
    | _ => .const
  uses
    | 0 => [(some 2, 0)]
    | 1 => [(some 3, 0), (some 2, 1)]
    | _ => []

/-- The attribute `nocapture` of a parameter says nothing about pointers which are accessible
through this parameter, so the argument may be captured. -/
theorem deep_fails : ∃ (F : Func) (fuel : Nat) (st : St) (σ : State), UsesOK F ∧ F.kind 0 = .arg ∧
    Once F 0 ∧ NewEmpty F ∧ isCaptured F fuel 0 = some (.ok st) ∧ Reachable F 0 σ ∧
    Captured σ := by
  have h1 := Reachable.step (F := deepF) 1 entry0_ok (.alloca 0 rfl)
  have h2 := Reachable.step 2 h1
    (.store (v := 0) (p := 1) (o := .loc 1 0) (off := 0) (t := false) rfl (by simp))
  have h3 := Reachable.step 3 h2
    (.call (c := some { nocap := [true] }) (ops := [1]) (w := .data)
      (mem' := fun o off => if (o = .glob 1 ∨ o = .loc 1 0) ∧ off = 0 then .ptr (.glob 0) 0 true
        else .data)
      rfl (by rintro c' h; simp at h; subst h; rfl)
      (fun o off => by
        by_cases e : o = .glob 1 ∧ off = 0
        · obtain ⟨rfl, rfl⟩ := e
          refine .inr ⟨.base (.inl ⟨1, rfl⟩), ?_⟩
          have := Avail.mem (σ := _) (nocap := nocapAt (some { nocap := [true] })) (off := 0)
            (d := 0) (Reach.base (.inr ⟨1, by simp, 0, false, rfl⟩) :
              Reach _ (Given ⟨Function.update entry0.env 1 (.ptr (.loc 1 0) 0 false),
                fun o' off' => if o' = .loc 1 0 ∧ off' = 0 then
                  Function.update entry0.env 1 (.ptr (.loc 1 0) 0 false) 0
                  else if o' = .loc 1 0 then .data else entry0.mem o' off'⟩ [1]) (.loc 1 0))
          simpa [Word.shift, entry0, Function.update] using this
        · left
          by_cases e2 : o = .loc 1 0 <;> by_cases e3 : off = 0 <;>
            simp_all [entry0, Function.update]) .data)
  refine ⟨deepF, 4, _, _, ?_, rfl, ?_, ?_, rfl, h3, .glob 1, 0, .base ⟨1, rfl⟩, .glob 0, 0, rfl⟩
  · intro v i op
    rcases i with _ | _ | _ | _ | i <;> rcases v with _ | _ | v <;> rcases op with _ | _ | op <;>
      simp [deepF, operand]
  · intro i c ops hk j k x y r s hj hk' _ _ _ _
    rcases i with _ | _ | _ | _ | i <;> simp [deepF] at hk
    obtain ⟨_, rfl⟩ := hk
    rcases j with _ | j <;> rcases k with _ | k <;> simp at hj hk' ⊢
  · intro i c ops hk hn
    rcases i with _ | _ | _ | _ | i <;> simp [deepF] at hk
    rw [← hk.1] at hn
    simp at hn

/-- `*(*f()) = p`, where `f` returns memory which contains a pointer to a global variable. -/
def newF : Func where
  kind
    | 0 => .arg
    | 1 => .call (some { noalias := true, noPtr := false }) []
    | 2 => .load 1
    | 3 => .store 0 2
    | _ => .const
  uses
    | 0 => [(some 3, 0)]
    | 1 => [(some 2, 0)]
    | 2 => [(some 3, 1)]
    | _ => []

/-- The attribute `noalias` of a returned pointer says nothing about pointers in the new memory, so
the argument may be stored in a global variable through them. -/
theorem new_fails : ∃ (F : Func) (fuel : Nat) (st : St) (σ : State), UsesOK F ∧ F.kind 0 = .arg ∧
    Once F 0 ∧ Shallow F 0 ∧ isCaptured F fuel 0 = some (.ok st) ∧ Reachable F 0 σ ∧
    Captured σ := by
  have h1 := Reachable.step (F := newF) 1 entry0_ok
    (.new (c := { noalias := true, noPtr := false }) (ops := []) (mem' := fun _ _ => .data) (k := 0)
      (init := fun _ => .ptr (.glob 1) 0 false) rfl rfl (fun _ _ => .inl rfl) (fun _ => .glob)
      (by simp))
  have h2 := Reachable.step 2 h1
    (.load (p := 1) (o := .loc 1 0) (off := 0) (t := false) rfl (by simp))
  have h3 := Reachable.step 3 h2
    (.store (v := 0) (p := 2) (o := .glob 1) (off := 0) (t := false) rfl (by simp))
  refine ⟨newF, 5, _, _, ?_, rfl, ?_, ?_, rfl, h3, .glob 1, 0, .base ⟨1, rfl⟩, .glob 0, 0, ?_⟩
  · intro v i op
    rcases i with _ | _ | _ | _ | i <;> rcases v with _ | _ | _ | v <;>
      rcases op with _ | _ | op <;> simp [newF, operand]
  · intro i c ops hk j k x y r s hj hk' _ _ _ _
    rcases i with _ | _ | _ | _ | i <;> simp [newF] at hk
    obtain ⟨_, rfl⟩ := hk
    simp at hj
  · intro i c ops hk x hx
    rcases i with _ | _ | _ | _ | i <;> simp [newF] at hk
    obtain ⟨_, rfl⟩ := hk
    simp at hx
  · simp [entry0, Function.update]

/-- `*(*g)() = p`, where `g` is a pointer to a function. -/
def indirectF : Func where
  kind
    | 0 => .arg
    | 1 => .arg
    | 2 => .call none [1]
    | 3 => .store 0 2
    | _ => .const
  uses
    | 0 => [(some 3, 0)]
    | 1 => [(some 2, 0)]
    | 2 => [(some 3, 1)]
    | _ => []

/-- The analysis dereferences a null pointer if the argument is stored in memory which is returned
by an indirect call. -/
theorem indirect_fails : ∃ (F : Func) (fuel : Nat), UsesOK F ∧ F.kind 0 = .arg ∧
    isCaptured F fuel 0 = some .crash := by
  refine ⟨indirectF, 4, ?_, rfl, rfl⟩
  intro v i op
  rcases i with _ | _ | _ | _ | i <;> rcases v with _ | _ | _ | v <;>
    rcases op with _ | _ | op <;> simp [indirectF, operand]

end Tsar.NoCapture
