import Verif.DeadStore.Lemmas

/-!
# Properties of elimination of dead stores
-/
namespace Tsar.DeadStore

/-! ### Accesses -/

/-- What `for_each_memory()` reports: instructions of this function, and each store once. -/
structure Reported (f : Fn) (ts : List Touch) : Prop where
  mem : ∀ t ∈ ts, t.instr ∈ f.instrs
  once : ((ts.filter (fun t => t.instr.store)).map Touch.instr).Nodup

theorem fold_eq {ts : List Touch} {c : Cand} {a : Nat} {l : List Instr}
    (h : ts.foldl visit c a = some l) :
    ∃ l0, c a = some l0 ∧ l = l0 ++ (ts.filter (fun t => a ∈ t.sets)).map Touch.instr := by
  induction ts generalizing c with
  | nil => exact ⟨l, h, by simp⟩
  | cons t ts ih =>
    obtain ⟨l1, h1, h2⟩ := ih h
    obtain ⟨l0, h3, h4⟩ := visit_some h1
    refine ⟨l0, h3, ?_⟩
    rcases h4 with ⟨h4, h5⟩ | ⟨h4, _, h5⟩
    · rw [h2, h5, List.filter_cons_of_neg (by simpa using h4)]
    · rw [h2, h5, List.filter_cons_of_pos (by simpa using h4)]
      simp

theorem candidates_eq {mods : List Nat} {ts : List Touch} {a : Nat} {l : List Instr}
    (h : candidates mods ts a = some l) :
    l = (ts.filter (fun t => a ∈ t.sets)).map Touch.instr := by
  obtain ⟨l0, h1, h2⟩ := fold_eq h
  split at h1
  · injection h1 with h1
    subst h1
    simpa using h2
  · cases h1

theorem plain_store {t : Touch} (h : t.plain) : t.instr.store = true := by
  cases t with
  | known => exact h.2.2
  | unknown => exact h.elim

theorem plain_sets {t : Touch} (h : t.plain) {a b : Nat} (ha : a ∈ t.sets) (hb : b ∈ t.sets) :
    a = b := by
  cases t with
  | known => simp_all [Touch.sets]
  | unknown => exact h.elim

theorem candidates_nodup {f : Fn} {ts : List Touch} (hr : Reported f ts) {mods : List Nat} {a : Nat}
    {l : List Instr} (h : candidates mods ts a = some l) : l.Nodup := by
  have h1 := candidates_eq h
  obtain ⟨_, h2, _⟩ := candidates_some h
  have h3 : ts.filter (fun t => a ∈ t.sets) =
      (ts.filter (fun t => t.instr.store)).filter (fun t => a ∈ t.sets) := by
    rw [List.filter_filter]
    apply List.filter_congr
    intro t ht
    by_cases ha : a ∈ t.sets
    · simp [ha, plain_store (h2 t ht ha).1]
    · simp [ha]
  rw [h1, h3]
  exact hr.once.sublist (List.filter_sublist.map _)

/-- Two reports of one store are the same report. -/
theorem report_inj {f : Fn} {ts : List Touch} (hr : Reported f ts) {t t' : Touch} (ht : t ∈ ts)
    (ht' : t' ∈ ts) (hs : t.instr.store = true) (he : t.instr = t'.instr) : t = t' :=
  List.inj_on_of_nodup_map hr.once (List.mem_filter.2 ⟨ht, hs⟩)
    (List.mem_filter.2 ⟨ht', by rw [← he]; exact hs⟩) he

theorem mem_doomed {mods keys : List Nat} {ts : List Touch} {i : Instr} :
    i ∈ doomed mods keys ts ↔ ∃ a ∈ keys, ∃ l, candidates mods ts a = some l ∧ i ∈ l := by
  simp only [doomed, List.mem_flatMap]
  refine exists_congr fun a => and_congr Iff.rfl ?_
  cases candidates mods ts a <;> simp

theorem doomed_nodup {f : Fn} {ts : List Touch} (hr : Reported f ts) {mods keys : List Nat}
    (hk : keys.Nodup) : (doomed mods keys ts).Nodup := by
  unfold doomed
  rw [List.nodup_flatMap]
  constructor
  · intro a _
    cases hc : candidates mods ts a with
    | none => simp
    | some l => simpa using candidates_nodup hr hc
  · refine hk.imp ?_
    intro a b hab
    simp only [Function.onFun, List.disjoint_left]
    intro i hi hi'
    cases hc : candidates mods ts a with
    | none => simp [hc] at hi
    | some l =>
      cases hc' : candidates mods ts b with
      | none => simp [hc'] at hi'
      | some l' =>
        simp only [hc, hc', Option.getD_some] at hi hi'
        obtain ⟨t, h1, h2, h3, h4⟩ := (candidates_some hc).2.2 i hi
        obtain ⟨t', h1', h2', h3', h4'⟩ := (candidates_some hc').2.2 i hi'
        have := report_inj hr h1 h1' (plain_store h3) (h2.trans h2'.symm)
        subst this
        exact hab (plain_sets h3 h4 h4')

/-! ### C124. What is removed -/

/-- A store to a local variable without metadata such that nothing but such stores accesses its alias
set. -/
def DeadStore (mods keys : List Nat) (ts : List Touch) (i : Instr) : Prop :=
  ∃ a ∈ keys, a ∈ mods ∧ (∃ t ∈ ts, t.instr = i ∧ a ∈ t.sets) ∧ ∀ t ∈ ts, a ∈ t.sets → t.plain

theorem candidates_of_plain {mods : List Nat} {ts : List Touch} {a : Nat} (hm : a ∈ mods)
    (h : ∀ t ∈ ts, a ∈ t.sets → t.plain) : ∃ l, candidates mods ts a = some l := by
  have key : ∀ (ts : List Touch) (c : Cand), (∃ l, c a = some l) →
      (∀ t ∈ ts, a ∈ t.sets → t.plain) → ∃ l, ts.foldl visit c a = some l := by
    intro ts
    induction ts with
    | nil => exact fun c h _ => h
    | cons t ts ih =>
      rintro c ⟨l, hl⟩ hp
      refine ih _ ?_ (fun t' ht' => hp t' (by simp [ht']))
      cases t with
      | known i b alloca md =>
        by_cases hab : a = b
        · subst hab
          obtain ⟨h1, h2, h3⟩ := hp (.known i a alloca md) (by simp) (by simp [Touch.sets])
          exact ⟨l ++ [i], by simp [visit, hl, h1, h2, h3]⟩
        · refine ⟨l, ?_⟩
          cases hb : c b with
          | none => simpa [visit, hb] using hl
          | some l' =>
            simp only [visit, hb]
            split <;> simp [hab, hl]
      | unknown i as =>
        have : a ∉ as := fun ha => hp (.unknown i as) (by simp) ha
        exact ⟨l, by simp [visit, this, hl]⟩
  exact key ts _ ⟨[], by simp [hm]⟩ h

theorem doomed_iff {mods keys : List Nat} {ts : List Touch} {i : Instr} :
    i ∈ doomed mods keys ts ↔ DeadStore mods keys ts i := by
  rw [mem_doomed]
  constructor
  · rintro ⟨a, h1, l, h2, h3⟩
    obtain ⟨h4, h5, h6⟩ := candidates_some h2
    obtain ⟨t, h7, h8, _, h9⟩ := h6 i h3
    exact ⟨a, h1, h4, ⟨t, h7, h8, h9⟩, fun t ht ha => (h5 t ht ha).1⟩
  · rintro ⟨a, h1, h2, ⟨t, h3, h4, h5⟩, h6⟩
    obtain ⟨l, hl⟩ := candidates_of_plain h2 h6
    exact ⟨a, h1, l, hl, by rw [← h4]; exact ((candidates_some hl).2.1 t h3 h5).2⟩

/-- Elimination finishes without use of erased instructions, and
* operands of remaining instructions remain;
* all dead stores are removed, and among instructions which access memory only they are;
* any other removed instruction is an operand which does not access memory;
* operands of removed instructions which do not access memory remain only if they are used. -/
theorem run_result {f : Fn} (hw : WellFormed f.instrs) {ts : List Touch} (hr : Reported f ts)
    {mods keys : List Nat} (hk : keys.Nodup) {order : List Nat → List Nat}
    (ho : ∀ l, (order l).Perm l) {fuel : Nat} (hf : enough f.instrs.length ≤ fuel) :
    ∃ alive, run order fuel mods keys ts f = some (some alive) ∧ alive.Sublist f.instrs ∧
      (∀ i ∈ alive, ∀ o ∈ i.ops, ∃ j ∈ alive, j.id = o) ∧
      (∀ i ∈ f.instrs, i.mem = true → (i ∉ alive ↔ DeadStore mods keys ts i)) ∧
      (∀ i ∈ f.instrs, i ∉ alive → DeadStore mods keys ts i ∨
        (i.mem = false ∧ ∃ k ∈ f.instrs, i.id ∈ k.ops)) ∧
      (∀ j ∈ alive, j.mem = false → (∃ i ∈ f.instrs, i ∉ alive ∧ j.id ∈ i.ops) →
        ∃ i ∈ alive, j.id ∈ i.ops) := by
  have h0 : Rest f.instrs (DeadStore mods keys ts) f.instrs :=
    ⟨List.Sublist.refl _, fun i hi o ho => by
      obtain ⟨j, h1, h2, _⟩ := hw.closed i hi o ho
      exact ⟨j, h1, h2⟩, fun i hi hn => absurd hi hn, fun j _ _ ⟨i, hi, hn, _⟩ => absurd hi hn⟩
  obtain ⟨alive, h1, h2, h3, _, h5⟩ := h0.eliminateAll hw ho hf (doomed mods keys ts)
    (doomed_nodup hr hk) (by
      intro i hi
      refine ⟨?_, ?_, doomed_iff.1 hi⟩
      · obtain ⟨a, _, _, ⟨t, h2, h3, _⟩, _⟩ := doomed_iff.1 hi
        rw [← h3]
        exact hr.mem t h2
      · obtain ⟨a, _, _, ⟨t, h2, h3, h4⟩, h5⟩ := doomed_iff.1 hi
        rw [← h3]
        exact plain_store (h5 t h2 h4))
  refine ⟨alive, h1, h2.sub, h2.closed, ?_, h2.erased, ?_⟩
  · intro i hi him
    constructor
    · intro hn
      by_contra hc
      exact hn (h5 i hi him (fun hd => hc (doomed_iff.1 hd)))
    · intro hd
      exact h3 i (doomed_iff.2 hd)
  · intro j hj hjm hje
    exact used_iff.1 (h2.fix j hj hjm hje)

/-! ### C125. What is preserved -/

section
variable {Val Addr Event : Type} [DecidableEq Addr] {S : Sem Val Addr Event}

/-- An instruction may access an address according to the reports. -/
def MayTouch (ts : List Touch) (setOf : Addr → Nat) (i : Instr) (a : Addr) : Prop :=
  ∃ t ∈ ts, t.instr = i ∧ setOf a ∈ t.sets

/-- Alias analysis is right for executions of a function: there is a partition of addresses to alias
sets such that each executed instruction accesses alias sets which are reported for it. -/
structure AliasSound (S : Sem Val Addr Event) (f : Fn) (s0 : State Val Addr Event)
    (ts : List Touch) (setOf : Addr → Nat) : Prop where
  store : ∀ i s, Reaches S f s0 i s → i.store = true →
    MayTouch ts setOf i (S.target i.id (i.ops.map s.env))
  effect : ∀ i s, Reaches S f s0 i s → i.store = false → i.mem = true →
    ∀ m', (∀ a, MayTouch ts setOf i a → s.mem a = m' a) →
      (S.effect i.id (i.ops.map s.env) m').1 = (S.effect i.id (i.ops.map s.env) s.mem).1 ∧
      (S.effect i.id (i.ops.map s.env) m').2.2 = (S.effect i.id (i.ops.map s.env) s.mem).2.2 ∧
      ∀ a, (MayTouch ts setOf i a →
          (S.effect i.id (i.ops.map s.env) m').2.1 a =
            (S.effect i.id (i.ops.map s.env) s.mem).2.1 a) ∧
        (¬ MayTouch ts setOf i a →
          (S.effect i.id (i.ops.map s.env) m').2.1 a = m' a ∧
            (S.effect i.id (i.ops.map s.env) s.mem).2.1 a = s.mem a)

/-- Memory which only dead stores access. -/
def DeadAddr (mods keys : List Nat) (ts : List Touch) (setOf : Addr → Nat) (a : Addr) : Prop :=
  setOf a ∈ keys ∧ setOf a ∈ mods ∧ ∀ t ∈ ts, setOf a ∈ t.sets → t.plain

/-- Two states are the same for the remaining instructions. -/
structure Same (alive : List Instr) (dead : Addr → Prop) (s s' : State Val Addr Event) : Prop where
  env : ∀ i ∈ alive, s.env i.id = s'.env i.id
  mem : ∀ a, ¬ dead a → s.mem a = s'.mem a
  events : s.events = s'.events

theorem Same.vals {alive : List Instr} {dead : Addr → Prop} {s s' : State Val Addr Event}
    (h : Same alive dead s s') (hc : ∀ i ∈ alive, ∀ o ∈ i.ops, ∃ j ∈ alive, j.id = o) {i : Instr}
    (hi : i ∈ alive) : i.ops.map s.env = i.ops.map s'.env := by
  apply List.map_congr_left
  intro o ho
  obtain ⟨j, h1, rfl⟩ := hc i hi o ho
  exact h.env j h1

/-- What elimination provides and the hypotheses, for a list of remaining instructions. -/
structure Kept (S : Sem Val Addr Event) (f : Fn) (s0 : State Val Addr Event) (ts : List Touch)
    (mods keys : List Nat) (setOf : Addr → Nat) (alive : List Instr) : Prop where
  wf : WellFormed f.instrs
  rep : Reported f ts
  sound : AliasSound S f s0 ts setOf
  quiet : ∀ i ∈ f.instrs, i.store = true → i.isVolatile = false
  term : ∀ b ∈ f, ∀ t, b.getLast? = some t → t ∈ alive
  sub : ∀ i ∈ alive, i ∈ f.instrs
  closed : ∀ i ∈ alive, ∀ o ∈ i.ops, ∃ j ∈ alive, j.id = o
  mem : ∀ i ∈ f.instrs, i.mem = true → (i ∉ alive ↔ DeadStore mods keys ts i)

variable {f : Fn} {s0 : State Val Addr Event} {ts : List Touch} {mods keys : List Nat}
  {setOf : Addr → Nat} {alive : List Instr}

/-- A store is removed if and only if the memory is dead. -/
theorem Kept.store_iff (h : Kept S f s0 ts mods keys setOf alive) {i : Instr} (hi : i ∈ f.instrs)
    (hs : i.store = true) {a : Addr} (ha : MayTouch ts setOf i a) :
    i ∉ alive ↔ DeadAddr mods keys ts setOf a := by
  rw [h.mem i hi (h.wf.store i hi hs).1]
  obtain ⟨t, h1, h2, h3⟩ := ha
  constructor
  · rintro ⟨b, h4, h5, ⟨t', h6, h7, h8⟩, h9⟩
    have : t = t' := report_inj h.rep h1 h6 (by rw [h2]; exact hs) (h2.trans h7.symm)
    subst this
    have : setOf a = b := plain_sets (h9 t h1 h8) h3 h8
    subst this
    exact ⟨h4, h5, h9⟩
  · rintro ⟨h4, h5, h6⟩
    exact ⟨setOf a, h4, h5, ⟨t, h1, h2, h3⟩, h6⟩

/-- Other instructions do not access dead memory. -/
theorem Kept.effect_live {i : Instr} (hs : i.store = false) {a : Addr}
    (ha : MayTouch ts setOf i a) : ¬ DeadAddr mods keys ts setOf a := by
  rintro ⟨_, _, h⟩
  obtain ⟨t, h1, h2, h3⟩ := ha
  have := plain_store (h t h1 h3)
  rw [h2, hs] at this
  cases this

theorem Kept.step (h : Kept S f s0 ts mods keys setOf alive) {i : Instr} {s s' : State Val Addr Event}
    {prev : Nat} (hi : i ∈ f.instrs) (hr : Reaches S f s0 i s)
    (hss : Same alive (DeadAddr mods keys ts setOf) s s') :
    Same alive (DeadAddr mods keys ts setOf) (step S prev s i)
      (if i ∈ alive then step S prev s' i else s') := by
  by_cases hst : i.store = true
  · have ht := h.sound.store i s hr hst
    have hv := h.quiet i hi hst
    by_cases ha : i ∈ alive
    · rw [if_pos ha]
      simp only [DeadStore.step, hst, if_true, hv, Bool.false_eq_true, if_false,
        ← hss.vals h.closed ha]
      refine ⟨hss.env, ?_, hss.events⟩
      intro a hda
      simp only [set]
      split
      · rfl
      · exact hss.mem a hda
    · rw [if_neg ha]
      simp only [DeadStore.step, hst, if_true, hv, Bool.false_eq_true, if_false]
      refine ⟨hss.env, ?_, hss.events⟩
      intro a hda
      simp only [set]
      split
      · next heq =>
        subst heq
        exact absurd ((h.store_iff hi hst ht).1 ha) hda
      · exact hss.mem a hda
  · have hst' : i.store = false := by simpa using hst
    by_cases him : i.mem = true
    · have ha : i ∈ alive := by
        by_contra hc
        obtain ⟨a, _, _, ⟨t, h1, h2, h3⟩, h4⟩ := (h.mem i hi him).1 hc
        have := plain_store (h4 t h1 h3)
        rw [h2, hst'] at this
        cases this
      rw [if_pos ha]
      obtain ⟨e1, e2, e3⟩ := h.sound.effect i s hr hst' him s'.mem
        (fun a hta => hss.mem a (Kept.effect_live hst' hta))
      simp only [DeadStore.step, hst', him, Bool.false_eq_true, if_false, if_true,
        ← hss.vals h.closed ha]
      refine ⟨?_, ?_, ?_⟩
      · intro j hj
        simp only [set]
        split
        · exact e1.symm
        · exact hss.env j hj
      · intro a hda
        by_cases hta : MayTouch ts setOf i a
        · exact ((e3 a).1 hta).symm
        · obtain ⟨e4, e5⟩ := (e3 a).2 hta
          simp only
          rw [e4, e5]
          exact hss.mem a hda
      · simp only
        rw [hss.events, e2]
    · have him' : i.mem = false := by simpa using him
      by_cases ha : i ∈ alive
      · rw [if_pos ha]
        simp only [DeadStore.step, hst', him', Bool.false_eq_true, if_false,
          ← hss.vals h.closed ha]
        refine ⟨?_, hss.mem, hss.events⟩
        intro j hj
        simp only [set]
        split
        · rfl
        · exact hss.env j hj
      · rw [if_neg ha]
        simp only [DeadStore.step, hst', him', Bool.false_eq_true, if_false]
        refine ⟨?_, hss.mem, hss.events⟩
        intro j hj
        simp only [set]
        split
        · next heq =>
          have := id_inj h.wf.nodup (h.sub j hj) hi heq
          subst this
          exact absurd hj ha
        · exact hss.env j hj

theorem Kept.fold (h : Kept S f s0 ts mods keys setOf alive) {prev : Nat} (r : List Instr)
    {s s' : State Val Addr Event} (hi : ∀ i ∈ r, i ∈ f.instrs)
    (hr : ∀ l i r', r = l ++ i :: r' → Reaches S f s0 i (l.foldl (DeadStore.step S prev) s))
    (hss : Same alive (DeadAddr mods keys ts setOf) s s') :
    Same alive (DeadAddr mods keys ts setOf) (r.foldl (DeadStore.step S prev) s)
      ((r.filter (fun i => i ∈ alive)).foldl (DeadStore.step S prev) s') := by
  induction r generalizing s s' with
  | nil => exact hss
  | cons i r ih =>
    have h1 := h.step (prev := prev) (hi i (by simp)) (hr [] i r rfl) hss
    have h2 := ih (s := DeadStore.step S prev s i)
      (s' := if i ∈ alive then DeadStore.step S prev s' i else s') (fun j hj => hi j (by simp [hj]))
      (fun l j r' he => by
        have := hr (i :: l) j r' (by rw [he]; rfl)
        simpa using this) h1
    rw [List.foldl_cons]
    by_cases ha : i ∈ alive
    · rw [List.filter_cons_of_pos (by simpa using ha), List.foldl_cons]
      rwa [if_pos ha] at h2
    · rw [List.filter_cons_of_neg (by simpa using ha)]
      rwa [if_neg ha] at h2

theorem Kept.phis (h : Kept S f s0 ts mods keys setOf alive) {prev : Nat} {b : List Instr}
    (hb : ∀ i ∈ b, i ∈ f.instrs) {s s' : State Val Addr Event}
    (hss : Same alive (DeadAddr mods keys ts setOf) s s') :
    Same alive (DeadAddr mods keys ts setOf) (phis S prev b s)
      (phis S prev (b.filter (fun i => i ∈ alive)) s') := by
  refine ⟨?_, hss.mem, hss.events⟩
  intro i hi
  simp only [DeadStore.phis]
  cases hc : (b.filter (·.phi)).find? (fun j => j.id = i.id) with
  | none =>
    have h1 : ((b.filter (fun i => i ∈ alive)).filter (·.phi)).find? (fun j => j.id = i.id) =
        none := by
      rw [List.find?_eq_none] at hc ⊢
      intro j hj
      simp only [List.mem_filter, decide_eq_true_eq] at hj
      exact hc j (List.mem_filter.2 ⟨hj.1.1, hj.2⟩)
    rw [h1]
    exact hss.env i hi
  | some j =>
    have h1 := List.mem_of_find?_eq_some hc
    have h2 : j.id = i.id := by simpa using List.find?_some hc
    simp only [List.mem_filter] at h1
    have h3 : j = i := id_inj h.wf.nodup (hb j h1.1) (h.sub i hi) h2
    subst h3
    have h4 : ((b.filter (fun i => i ∈ alive)).filter (·.phi)).find? (fun k => k.id = j.id) =
        some j := by
      cases hc' : ((b.filter (fun i => i ∈ alive)).filter (·.phi)).find? (fun k => k.id = j.id) with
      | none =>
        rw [List.find?_eq_none] at hc'
        have := hc' j (List.mem_filter.2 ⟨List.mem_filter.2 ⟨h1.1, by simpa using hi⟩, h1.2⟩)
        simp at this
      | some k =>
        have h5 := List.mem_of_find?_eq_some hc'
        have h6 : k.id = j.id := by simpa using List.find?_some hc'
        simp only [List.mem_filter] at h5
        rw [id_inj h.wf.nodup (hb k h5.1.1) (h.sub j hi) h6]
    rw [h4]
    simp only [hss.vals h.closed hi]

theorem Kept.exec (h : Kept S f s0 ts mods keys setOf alive) (k : Nat) :
    (DeadStore.exec S f s0 k).1 = (DeadStore.exec S (remaining f alive) s0 k).1 ∧
    Same alive (DeadAddr mods keys ts setOf) (DeadStore.exec S f s0 k).2
      (DeadStore.exec S (remaining f alive) s0 k).2 := by
  induction k with
  | zero => exact ⟨rfl, fun _ _ => rfl, fun _ _ => rfl, rfl⟩
  | succ k ih =>
    simp only [DeadStore.exec]
    obtain ⟨h1, h2⟩ := ih
    cases hc : DeadStore.exec S f s0 k with
    | mk p s =>
      cases hc' : DeadStore.exec S (remaining f alive) s0 k with
      | mk p' s' =>
        rw [hc, hc'] at h1 h2
        simp only at h1 h2
        subst h1
        cases p with
        | none => exact ⟨rfl, h2⟩
        | some np =>
          obtain ⟨n, prev⟩ := np
          simp only [advance, remaining, List.getElem?_map]
          cases hb : f[n]? with
          | none => exact ⟨rfl, h2⟩
          | some b =>
            simp only [Option.map_some]
            have hbf : b ∈ f := List.mem_of_getElem? hb
            have hbi : ∀ i ∈ b, i ∈ f.instrs := fun i hi => List.mem_flatten.2 ⟨b, hbf, hi⟩
            have h3 : Same alive (DeadAddr mods keys ts setOf) (block S prev b s)
                (block S prev (b.filter (fun i => i ∈ alive)) s') := by
              unfold block
              have hcomm : body (b.filter (fun i => i ∈ alive)) =
                  (body b).filter (fun i => i ∈ alive) := by
                simp only [body, List.filter_filter]
                congr 1
                funext i
                rw [Bool.and_comm]
              rw [hcomm]
              refine h.fold (body b) (fun i hi => hbi i (List.mem_filter.1 hi).1) ?_
                (h.phis hbi h2)
              intro l i r he
              exact ⟨k, n, prev, s, b, l, r, hc, hb, he, rfl⟩
            refine ⟨?_, h3⟩
            congr 1
            unfold after
            cases ht : b.getLast? with
            | none =>
              rw [List.getLast?_eq_none_iff] at ht
              subst ht
              rfl
            | some t =>
              have hta := h.term b hbf t ht
              have : (b.filter (fun i => i ∈ alive)).getLast? = some t := by
                obtain ⟨ys, rfl⟩ := List.getLast?_eq_some_iff.1 ht
                rw [List.filter_append]
                simp [hta]
              rw [this]
              simp only [h3.vals h.closed hta]

end

/-- Elimination of dead stores preserves executions: after any number of blocks both functions are at
the same block, an observer has seen the same events, values of the remaining instructions are the
same, and the memory is the same except the addresses which only dead stores access.

It is assumed that alias analysis is right, there are no volatile stores, and a terminator which does
not access memory is not an operand (the last two are necessary, see below). -/
theorem dse_preserves_partial {Val Addr Event : Type} [DecidableEq Addr] {S : Sem Val Addr Event}
    {f : Fn} (hw : WellFormed f.instrs) {s0 : State Val Addr Event} {ts : List Touch}
    (hr : Reported f ts) {setOf : Addr → Nat} (hs : AliasSound S f s0 ts setOf)
    (hvol : ∀ i ∈ f.instrs, i.store = true → i.isVolatile = false)
    (hterm : ∀ b ∈ f, ∀ t, b.getLast? = some t → t.store = false ∧
      (t.mem = false → ∀ i ∈ f.instrs, t.id ∉ i.ops))
    {mods keys : List Nat} (hk : keys.Nodup) {order : List Nat → List Nat}
    (ho : ∀ l, (order l).Perm l) {fuel : Nat} (hf : enough f.instrs.length ≤ fuel) :
    ∃ alive, run order fuel mods keys ts f = some (some alive) ∧ ∀ k,
      (exec S f s0 k).1 = (exec S (remaining f alive) s0 k).1 ∧
      (exec S f s0 k).2.events = (exec S (remaining f alive) s0 k).2.events ∧
      (∀ i ∈ alive, (exec S f s0 k).2.env i.id = (exec S (remaining f alive) s0 k).2.env i.id) ∧
      (∀ a, (∀ i, i.store = false → ¬ MayTouch ts setOf i a) ∨
          (exec S f s0 k).2.mem a = (exec S (remaining f alive) s0 k).2.mem a) := by
  obtain ⟨alive, h1, h2, h3, h4, h5, _⟩ := run_result hw hr (mods := mods) hk ho hf
  refine ⟨alive, h1, fun k => ?_⟩
  have hkept : Kept S f s0 ts mods keys setOf alive := by
    refine ⟨hw, hr, hs, hvol, ?_, fun i hi => h2.subset hi, h3, h4⟩
    intro b hb t ht
    have hti : t ∈ f.instrs := List.mem_flatten.2 ⟨b, hb, List.mem_of_getLast? ht⟩
    by_contra hc
    rcases h5 t hti hc with ⟨a, _, _, ⟨t', h6, h7, h8⟩, h9⟩ | ⟨h6, i, h7, h8⟩
    · have := plain_store (h9 t' h6 h8)
      rw [h7, (hterm b hb t ht).1] at this
      cases this
    · exact (hterm b hb t ht).2 h6 i h7 h8
  obtain ⟨h6, h7⟩ := hkept.exec k
  refine ⟨h6, h7.events, h7.env, ?_⟩
  intro a
  by_cases hd : DeadAddr mods keys ts setOf a
  · left
    intro i hi hta
    exact Kept.effect_live hi hta hd
  · exact Or.inr (h7.mem a hd)

/-! ### Examples -/

section Examples

/-- A local variable is assigned and is not read, a function is called, another variable is assigned
and read. -/
private def i0 : Instr := ⟨0, [], false, false, false, false, false⟩
private def i1 : Instr := ⟨1, [0], false, false, false, false, false⟩
private def i2 : Instr := ⟨2, [1, 0], true, true, false, false, false⟩
private def i3 : Instr := ⟨3, [], true, false, false, false, false⟩
private def i4 : Instr := ⟨4, [], false, false, false, false, false⟩
private def i5 : Instr := ⟨5, [4], true, true, false, false, false⟩
private def i6 : Instr := ⟨6, [4], true, false, false, false, false⟩
private def i7 : Instr := ⟨7, [6], false, false, false, false, true⟩
private def fn : Fn := [[i0, i1, i2, i3], [i4, i5, i6, i7]]
private def reports : List Touch :=
  [.known i2 10 true false, .unknown i3 [30], .known i5 20 true false, .known i6 20 true false]

private theorem fn_wf : WellFormed fn.instrs := by
  constructor <;> decide

private theorem fn_reported : Reported fn reports := by
  constructor <;> decide

private theorem fn_run : run id (enough 8) [10, 20, 30] [10, 20, 30] reports fn =
    some (some [i3, i4, i5, i6, i7]) := by
  decide +kernel

example : enough fn.instrs.length ≤ enough 8 := by decide

/-- A meaning: the address is fixed for each store, the call is observable, the load reads. -/
private def meaning : Sem Nat Nat Nat where
  value := fun x _ vs => x + vs.sum
  target := fun x _ => if x = 2 then 10 else 20
  stored := fun x vs => x + vs.sum
  seen := fun x _ => x
  effect := fun x _ m => if x = 6 then (m 20, m, []) else (0, m, [x])
  next := fun n _ => if n = 0 then some 1 else none

private theorem reaches_mem {f : Fn} {S : Sem Nat Nat Nat} {s0 s : State Nat Nat Nat} {i : Instr}
    (h : Reaches S f s0 i s) : i ∈ f.instrs := by
  obtain ⟨_, n, _, _, b, l, r, _, h1, h2, _⟩ := h
  refine List.mem_flatten.2 ⟨b, List.mem_of_getElem? h1, ?_⟩
  have : i ∈ body b := by rw [h2]; simp
  exact (List.mem_filter.1 this).1

private theorem fn_sound (s0 : State Nat Nat Nat) : AliasSound meaning fn s0 reports id := by
  constructor
  · intro i s hr hs
    have hi := reaches_mem hr
    simp only [fn, Fn.instrs, List.flatten_cons, List.flatten_nil, List.append_nil, List.cons_append,
      List.nil_append, List.mem_cons, List.not_mem_nil, or_false] at hi
    rcases hi with rfl | rfl | rfl | rfl | rfl | rfl | rfl | rfl <;> try cases hs
    · exact ⟨.known i2 10 true false, by simp [reports], rfl, by simp [Touch.sets, meaning, i2]⟩
    · exact ⟨.known i5 20 true false, by simp [reports], rfl, by simp [Touch.sets, meaning, i5]⟩
  · intro i s hr hs hm m' hmm
    have hi := reaches_mem hr
    simp only [fn, Fn.instrs, List.flatten_cons, List.flatten_nil, List.append_nil, List.cons_append,
      List.nil_append, List.mem_cons, List.not_mem_nil, or_false] at hi
    rcases hi with rfl | rfl | rfl | rfl | rfl | rfl | rfl | rfl <;> first | cases hs; done | cases hm; done | skip
    · refine ⟨rfl, rfl, fun a => ⟨fun ha => ?_, fun _ => ⟨rfl, rfl⟩⟩⟩
      exact (hmm a ha).symm
    · have h20 : s.mem 20 = m' 20 := hmm 20
        ⟨.known i6 20 true false, by simp [reports], rfl, by simp [Touch.sets]⟩
      refine ⟨h20.symm, rfl, fun a => ⟨fun ha => ?_, fun _ => ⟨rfl, rfl⟩⟩⟩
      exact (hmm a ha).symm

/-- The first store and its operands are removed, and an observer does not notice. -/
example (s0 : State Nat Nat Nat) :
    ∃ alive, run id (enough 8) [10, 20, 30] [10, 20, 30] reports fn = some (some alive) ∧
      ∀ k, (exec meaning fn s0 k).2.events = (exec meaning (remaining fn alive) s0 k).2.events := by
  obtain ⟨alive, h1, h2⟩ := dse_preserves_partial fn_wf fn_reported (fn_sound s0) (by decide)
    (by decide) (mods := [10, 20, 30]) (keys := [10, 20, 30]) (by decide) (order := id)
    (fun l => List.Perm.refl l) (fuel := enough 8) (by decide)
  exact ⟨alive, h1, fun k => (h2 k).2.1⟩

example : DeadStore [10, 20, 30] [10, 20, 30] reports i2 :=
  doomed_iff.1 (by decide)

example : ¬ DeadStore [10, 20, 30] [10, 20, 30] reports i5 :=
  fun h => absurd (doomed_iff.2 h) (by decide)

end Examples

/-! ### Disagreements -/

section Fails

private def v0 : Instr := ⟨0, [], false, false, false, false, false⟩
private def v1 : Instr := ⟨1, [0], true, true, true, false, false⟩
private def v2 : Instr := ⟨2, [], false, false, false, false, true⟩
private def vol : Fn := [[v0, v1, v2]]

private def plainMeaning : Sem Nat Nat Nat where
  value := fun _ _ _ => 0
  target := fun _ _ => 10
  stored := fun _ _ => 0
  seen := fun x _ => x
  effect := fun _ _ m => (0, m, [])
  next := fun n _ => if n = 0 then some 1 else none

/-- A volatile store to a local variable is removed although it is observable. -/
theorem dse_volatile_fails :
    ∃ (f : Fn) (ts : List Touch) (alive : List Instr) (S : Sem Nat Nat Nat) (s0 : State Nat Nat Nat),
      WellFormed f.instrs ∧ Reported f ts ∧ AliasSound S f s0 ts id ∧
      run id (enough f.instrs.length) [10] [10] ts f = some (some alive) ∧
      (exec S f s0 1).2.events ≠ (exec S (remaining f alive) s0 1).2.events := by
  refine ⟨vol, [.known v1 10 true false], [v2], plainMeaning, ⟨fun _ => 0, fun _ => 0, []⟩, ?_, ?_,
    ?_, by decide +kernel, by decide +kernel⟩
  · constructor <;> decide
  · constructor <;> decide
  · constructor
    · intro i s hr hs
      have hi := reaches_mem hr
      simp only [vol, Fn.instrs, List.flatten_cons, List.flatten_nil, List.append_nil,
        List.mem_cons, List.not_mem_nil, or_false] at hi
      rcases hi with rfl | rfl | rfl <;> try cases hs
      exact ⟨.known v1 10 true false, by simp, rfl, by simp [Touch.sets, plainMeaning]⟩
    · intro i s hr hs hm m' _
      have hi := reaches_mem hr
      simp only [vol, Fn.instrs, List.flatten_cons, List.flatten_nil, List.append_nil,
        List.mem_cons, List.not_mem_nil, or_false] at hi
      rcases hi with rfl | rfl | rfl <;> first | cases hs; done | cases hm; done

private def w0 : Instr := ⟨0, [], false, false, false, false, false⟩
private def w1 : Instr := ⟨1, [], false, false, false, false, true⟩
private def w2 : Instr := ⟨2, [1, 0], true, true, false, false, false⟩
private def w3 : Instr := ⟨3, [], false, false, false, false, true⟩
private def inv : Fn := [[w0, w1], [w2, w3]]

/-- A terminator with a value (`invoke` of a function without memory accesses) is removed with the
store which uses the value, so a block without a terminator remains. -/
theorem dse_terminator_fails :
    ∃ (f : Fn) (ts : List Touch) (alive : List Instr),
      WellFormed f.instrs ∧ Reported f ts ∧
      (∀ b ∈ f, ∃ t, b.getLast? = some t ∧ t.term = true) ∧
      run id (enough f.instrs.length) [10] [10] ts f = some (some alive) ∧
      ∃ b ∈ remaining f alive, ∀ i ∈ b, i.term = false := by
  refine ⟨inv, [.known w2 10 true false], [w3], ?_, ?_, ?_, by decide +kernel, by decide +kernel⟩
  · constructor <;> decide
  · constructor <;> decide
  · intro b hb
    simp only [inv, List.mem_cons, List.not_mem_nil, or_false] at hb
    rcases hb with rfl | rfl
    · exact ⟨w1, rfl, rfl⟩
    · exact ⟨w3, rfl, rfl⟩

end Fails

end Tsar.DeadStore
