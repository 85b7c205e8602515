import Verif.Region.Spec

/-! # Lists of nodes and edges which `buildLoopRegion()` computes -/

namespace Tsar
namespace Region

set_option linter.unusedSectionVars false

variable {B : Type} [DecidableEq B]

/-! ### The map of blocks -/

theorem find_nil (b : B) : Blocks.find ([] : Blocks B) b = none := rfl

theorem find_append (m : Blocks B) (a b : B) (n : Node B) :
    Blocks.find (m ++ [(a, n)]) b = (m.find b).or (if a = b then some n else none) := by
  unfold Blocks.find
  rw [List.find?_append]
  cases h : List.find? (fun e => decide (e.1 = b)) m <;> simp [List.find?_cons]
  split <;> rename_i h <;> simp_all

theorem find_put (m : Blocks B) (a b : B) (n : Node B) :
    (m.put a n).find b = (m.find b).or (if a = b then some n else none) := by
  unfold Blocks.put
  split
  · rename_i h
    by_cases hab : a = b
    · subst hab
      obtain ⟨x, hx⟩ := Option.isSome_iff_exists.1 h
      simp [hx]
    · simp [hab]
  · exact find_append m a b n

theorem find_foldl (bs : List B) (m : Blocks B) (n : Node B) (b : B) :
    (bs.foldl (fun m b => m.put b n) m).find b = (m.find b).or (if b ∈ bs then some n else none) := by
  induction bs generalizing m with
  | nil => simp
  | cons a bs ih =>
    rw [List.foldl_cons, ih, find_put, Option.or_assoc]
    congr 1
    by_cases h : a = b
    · simp [h]
    · have : b ≠ a := fun h' => h h'.symm
      simp [h, this]

theorem find_mem {m : Blocks B} {b : B} {n : Node B} (h : m.find b = some n) : (b, n) ∈ m := by
  unfold Blocks.find at h
  simp only [Option.map_eq_some_iff] at h
  obtain ⟨e, he, rfl⟩ := h
  have h1 := List.find?_some he
  have h2 := List.mem_of_find?_eq_some he
  simp at h1
  subst h1
  exact h2

theorem find_isSome (m : Blocks B) (b : B) : (m.find b).isSome ↔ b ∈ m.map (·.1) := by
  unfold Blocks.find
  simp

/-- Keys are unique. -/
def Blocks.Ok (m : Blocks B) : Prop := (m.map (·.1)).Nodup

theorem Blocks.Ok.put {m : Blocks B} (h : m.Ok) (b : B) (n : Node B) : (m.put b n).Ok := by
  unfold Blocks.put
  split
  · exact h
  · rename_i hb
    rw [find_isSome] at hb
    unfold Blocks.Ok at *
    rw [List.map_append, List.nodup_append]
    refine ⟨h, by simp, ?_⟩
    intro a ha c hc
    simp at hc
    subst hc
    exact fun e => hb (e ▸ ha)

theorem Blocks.Ok.foldl {m : Blocks B} (h : m.Ok) (bs : List B) (n : Node B) :
    (bs.foldl (fun m b => m.put b n) m).Ok := by
  induction bs generalizing m with
  | nil => exact h
  | cons b bs ih => exact ih (h.put b n)

theorem Blocks.Ok.find {m : Blocks B} (h : m.Ok) {b : B} {n : Node B} (hm : (b, n) ∈ m) :
    m.find b = some n := by
  induction m with
  | nil => simp at hm
  | cons e m ih =>
    unfold Blocks.Ok at h
    rw [List.map_cons, List.nodup_cons] at h
    unfold Blocks.find
    rw [List.find?_cons]
    rcases List.mem_cons.1 hm with h1 | h1
    · subst h1; simp
    · have : e.1 ≠ b := fun he => h.1 (he ▸ List.mem_map.2 ⟨_, h1, rfl⟩)
      simp only [this, decide_false]
      exact ih h.2 h1

theorem addInner_ok (ls : List (List B)) (i : Nat) (r : State B × Blocks B) (h : r.2.Ok) :
    (addInner ls i r).2.Ok := by
  induction ls generalizing i r with
  | nil => exact h
  | cons bs ls ih =>
    obtain ⟨s, m⟩ := r
    exact ih _ _ (h.foldl bs _)

theorem addBlocks_ok (bs : List B) (r : State B × Blocks B) (h : r.2.Ok) : (addBlocks bs r).2.Ok := by
  induction bs generalizing r with
  | nil => exact h
  | cons b bs ih =>
    obtain ⟨s, m⟩ := r
    rw [addBlocks]
    split
    · exact ih _ h
    · exact ih _ (h.put b _)

theorem collect_ok (L : Lp B) : (collect L).2.Ok := by
  unfold collect
  exact addBlocks_ok _ _ (addInner_ok _ _ _ (by simp [Blocks.Ok]))

/-- The number of the first inner loop with the block. -/
def firstInner (b : B) : List (List B) → Nat → Option (Node B)
  | [], _ => none
  | bs :: ls, i => if b ∈ bs then some (.inner i) else firstInner b ls (i + 1)

theorem addInner_find (ls : List (List B)) (i : Nat) (r : State B × Blocks B) (b : B) :
    (addInner ls i r).2.find b = (r.2.find b).or (firstInner b ls i) := by
  induction ls generalizing i r with
  | nil => simp [addInner, firstInner]
  | cons bs ls ih =>
    obtain ⟨s, m⟩ := r
    rw [addInner, ih, firstInner]
    simp only [find_foldl, Option.or_assoc]
    congr 1
    split <;> simp

theorem addBlocks_find (bs : List B) (r : State B × Blocks B) (b : B) :
    (addBlocks bs r).2.find b = (r.2.find b).or (if b ∈ bs then some (.block b) else none) := by
  induction bs generalizing r with
  | nil => simp [addBlocks]
  | cons a bs ih =>
    obtain ⟨s, m⟩ := r
    rw [addBlocks]
    split
    · rename_i h
      rw [ih]
      obtain ⟨x, hx⟩ := Option.isSome_iff_exists.1 h
      by_cases hab : b = a
      · subst hab; simp [hx]
      · simp [hab]
    · rw [ih]
      simp only [find_put, Option.or_assoc]
      congr 1
      by_cases hab : b = a
      · subst hab; simp
      · have : a ≠ b := fun h => hab h.symm
        simp [hab, this]

theorem collect_find (L : Lp B) (b : B) :
    (collect L).2.find b = (firstInner b L.inner 0).or (if b ∈ L.blocks then some (.block b) else none) := by
  unfold collect
  simp only [addBlocks_find, addInner_find, find_nil, Option.none_or]

theorem firstInner_none (b : B) (ls : List (List B)) (i : Nat) :
    firstInner b ls i = none ↔ ∀ bs ∈ ls, b ∉ bs := by
  induction ls generalizing i with
  | nil => simp [firstInner]
  | cons bs ls ih =>
    rw [firstInner]
    split
    · rename_i h; simp [h]
    · rename_i h; simp [h, ih]

theorem firstInner_some {b : B} {ls : List (List B)} {i : Nat} {n : Node B}
    (h : firstInner b ls i = some n) : ∃ (j : Nat) (bs : List B), n = .inner (i + j) ∧ ls[j]? = some bs ∧ b ∈ bs := by
  induction ls generalizing i with
  | nil => simp [firstInner] at h
  | cons bs ls ih =>
    rw [firstInner] at h
    split at h
    · rename_i hb
      exact ⟨0, bs, by simpa using h.symm, by simp, hb⟩
    · obtain ⟨j, bs', h1, h2, h3⟩ := ih h
      exact ⟨j + 1, bs', by rw [h1]; congr 1; omega, by simpa using h2, h3⟩

theorem collect_rep (L : Lp B) (hL : L.Wf) (b : B) (n : Node B) :
    (collect L).2.find b = some n ↔ Rep L b n := by
  rw [collect_find]
  cases hf : firstInner b L.inner 0 with
  | none =>
    have hn := (firstInner_none b L.inner 0).1 hf
    simp only [Option.none_or]
    constructor
    · intro h
      split at h <;> simp at h
      subst h
      rename_i hb
      exact ⟨rfl, hb, hn⟩
    · intro h
      cases n <;> simp only [Rep] at h
      · obtain ⟨rfl, h2, -⟩ := h
        simp [h2]
      · obtain ⟨bs, h1, h2⟩ := h
        exact absurd h2 (hn bs (List.mem_of_getElem? h1))
  | some x =>
    simp only [Option.some_or, Option.some.injEq]
    obtain ⟨j, bs, rfl, h2, h3⟩ := firstInner_some hf
    rw [Nat.zero_add]
    constructor
    · rintro rfl
      exact ⟨bs, h2, h3⟩
    · intro h
      cases n <;> simp only [Rep] at h
      · exact absurd h3 (h.2.2 bs (List.mem_of_getElem? h2))
      · obtain ⟨bs', h1, h4⟩ := h
        rw [hL.disjoint _ _ _ _ _ h2 h1 h3 h4]

theorem Rep.mem {L : Lp B} (hL : L.Wf) {b : B} {n : Node B} (h : Rep L b n) : b ∈ L.blocks := by
  cases n <;> simp only [Rep] at h
  · exact h.2.1
  · obtain ⟨bs, h1, h2⟩ := h
    exact hL.sub bs (List.mem_of_getElem? h1) b h2

theorem Rep.exists {L : Lp B} (hL : L.Wf) {b : B} (h : b ∈ L.blocks) : ∃ n, Rep L b n := by
  simp only [← collect_rep L hL, collect_find]
  cases firstInner b L.inner 0 <;> simp [h]

theorem Rep.unique {L : Lp B} (hL : L.Wf) {b : B} {n m : Node B} (h : Rep L b n) (h' : Rep L b m) :
    n = m := by
  rw [← collect_rep L hL] at h h'
  simpa using h.symm.trans h'

theorem collect_none (L : Lp B) (hL : L.Wf) (b : B) :
    (collect L).2.find b = none ↔ b ∉ L.blocks := by
  constructor
  · intro h hb
    obtain ⟨n, hn⟩ := Rep.exists hL hb
    rw [(collect_rep L hL b n).2 hn] at h
    simp at h
  · intro h
    cases hf : (collect L).2.find b with
    | none => rfl
    | some n => exact absurd (((collect_rep L hL b n).1 hf).mem hL) h

/-- The nodes in the map are blocks and inner loops. -/
theorem collect_node (L : Lp B) {b : B} {n : Node B} (h : (b, n) ∈ (collect L).2) :
    n ≠ .entry ∧ n ≠ .exit ∧ n ≠ .latch := by
  have h1 := (collect_ok L).find h
  rw [collect_find] at h1
  cases hf : firstInner b L.inner 0 with
  | none =>
    rw [hf] at h1
    simp only [Option.none_or] at h1
    split at h1 <;> simp at h1
    subst h1
    simp
  | some x =>
    rw [hf] at h1
    simp at h1
    obtain ⟨j, bs, h2, -⟩ := firstInner_some hf
    subst h1
    rw [h2]
    simp

/-! ### Edges -/

/-- Successors which a block adds to its node. -/
def targets (m : Blocks B) (header : B) (n : Node B) : List B → List (Node B)
  | [] => []
  | c :: cs =>
    (match m.find c with
      | none => [.exit]
      | some cn => if c = header then [.latch] else if cn ≠ n then [cn] else []) ++
    targets m header n cs

theorem visitSuccs_spec (m : Blocks B) (header : B) (n : Node B) (hn : n ≠ .exit ∧ n ≠ .latch)
    (hm : ∀ c cn, m.find c = some cn → cn ≠ .exit ∧ cn ≠ .latch)
    (cs : List B) (s : State B) :
    (∀ x, (visitSuccs m header n cs s).succ x =
      s.succ x ++ (if x = n then targets m header n cs else [])) ∧
    (∀ x, (visitSuccs m header n cs s).pred x =
      s.pred x ++ (if x = .exit ∨ x = .latch then
        List.replicate ((targets m header n cs).count x) n else [])) := by
  induction cs generalizing s with
  | nil => simp [visitSuccs, targets]
  | cons c cs ih =>
    rw [visitSuccs, targets]
    cases hf : m.find c with
    | none =>
      simp only
      obtain ⟨h1, h2⟩ := ih (s.link n .exit)
      refine ⟨fun x => ?_, fun x => ?_⟩
      · rw [h1]
        simp only [State.link, State.addSucc, State.addPred]
        split <;> simp
      · rw [h2]
        simp only [State.link, State.addSucc, State.addPred]
        by_cases hx : x = .exit
        · subst hx
          simp [List.replicate_succ]
        · by_cases hx' : x = .latch
          · subst hx'; simp
          · simp [hx, hx']
    | some cn =>
      simp only
      have hcn := hm c cn hf
      by_cases hc : c = header
      · rw [if_pos hc, if_pos hc]
        have e1 : (if s.latch.isNone then s.addNode .latch else s).succ = s.succ := by split <;> rfl
        have e2 : (if s.latch.isNone then s.addNode .latch else s).pred = s.pred := by split <;> rfl
        generalize (if s.latch.isNone then s.addNode .latch else s) = t at e1 e2 ⊢
        obtain ⟨h1, h2⟩ := ih (t.link n .latch)
        refine ⟨fun x => ?_, fun x => ?_⟩
        · rw [h1]
          simp only [State.link, State.addSucc, State.addPred, e1]
          split <;> simp
        · rw [h2]
          simp only [State.link, State.addSucc, State.addPred, e2]
          by_cases hx : x = .latch
          · subst hx
            simp [List.replicate_succ]
          · by_cases hx' : x = .exit
            · subst hx'; simp
            · simp [hx, hx']
      · rw [if_neg hc, if_neg hc]
        by_cases hcn' : cn = n
        · subst hcn'
          simpa using ih s
        · rw [if_pos hcn', if_pos hcn']
          obtain ⟨h1, h2⟩ := ih (s.addSucc n cn)
          refine ⟨fun x => ?_, fun x => ?_⟩
          · rw [h1]
            simp only [State.addSucc]
            split <;> simp
          · rw [h2]
            simp only [State.addSucc, List.singleton_append, List.count_cons]
            split
            · rename_i hx
              have : (cn == x) = false := by
                rcases hx with rfl | rfl
                · simpa using hcn.1
                · simpa using hcn.2
              simp [this]
            · rfl

/-- Predecessors which a block adds to its node. -/
def sources (m : Blocks B) (n : Node B) : List B → List (Node B)
  | [] => []
  | p :: ps =>
    (match m.find p with
      | none => []
      | some pn => if pn ≠ n then [pn] else []) ++ sources m n ps

theorem visitPreds_spec (m : Blocks B) (n : Node B) (ps : List B) (s : State B) :
    (visitPreds m n ps s = none ↔ ∃ p ∈ ps, m.find p = none) ∧
    ∀ s', visitPreds m n ps s = some s' →
      s'.toNodes = s.toNodes ∧ s'.succ = s.succ ∧
      ∀ x, s'.pred x = s.pred x ++ (if x = n then sources m n ps else []) := by
  induction ps generalizing s with
  | nil =>
    simp only [visitPreds, sources]
    exact ⟨by simp, fun s' h => by simp at h; subst h; simp⟩
  | cons p ps ih =>
    rw [visitPreds, sources]
    cases hf : m.find p with
    | none => simp [hf]
    | some pn =>
      simp only
      obtain ⟨h1, h2⟩ := ih (if pn ≠ n then s.addPred n pn else s)
      refine ⟨by rw [h1]; simp [hf], fun s' hs => ?_⟩
      obtain ⟨a, b, c⟩ := h2 s' hs
      refine ⟨?_, ?_, fun x => ?_⟩
      · rw [a]; split <;> rfl
      · rw [b]; split <;> rfl
      · rw [c]
        by_cases hp : pn = n
        · simp [hp]
        · simp only [ne_eq, hp, not_false_eq_true, if_true, State.addPred]
          split <;> simp

/-- Successors which an element of the map adds. -/
def outs (cfg : Cfg B) (m : Blocks B) (header : B) (e : B × Node B) : List (Node B) :=
  if (cfg.succ e.1).isEmpty then [.exit] else targets m header e.2 (cfg.succ e.1)

/-- Predecessors which an element of the map adds. -/
def ins (cfg : Cfg B) (m : Blocks B) (header : B) (e : B × Node B) : List (Node B) :=
  if e.1 ≠ header then sources m e.2 (cfg.pred e.1) else []

theorem visit_spec (cfg : Cfg B) (m : Blocks B) (header : B) (e : B × Node B)
    (hn : e.2 ≠ .exit ∧ e.2 ≠ .latch)
    (hm : ∀ c cn, m.find c = some cn → cn ≠ .exit ∧ cn ≠ .latch) (s : State B) :
    (visit cfg m header e s = none ↔ e.1 ≠ header ∧ ∃ p ∈ cfg.pred e.1, m.find p = none) ∧
    ∀ s', visit cfg m header e s = some s' →
      (∀ x, s'.succ x = s.succ x ++ (if x = e.2 then outs cfg m header e else [])) ∧
      (∀ x, s'.pred x = s.pred x ++
        (if x = .exit ∨ x = .latch then List.replicate ((outs cfg m header e).count x) e.2
         else if x = e.2 then ins cfg m header e else [])) := by
  have hs : ∀ s1, s1 = (if (cfg.succ e.1).isEmpty then s.link e.2 .exit
      else visitSuccs m header e.2 (cfg.succ e.1) s) →
      (∀ x, s1.succ x = s.succ x ++ (if x = e.2 then outs cfg m header e else [])) ∧
      (∀ x, s1.pred x = s.pred x ++
        (if x = .exit ∨ x = .latch then List.replicate ((outs cfg m header e).count x) e.2 else [])) := by
    rintro s1 rfl
    unfold outs
    split
    · refine ⟨fun x => ?_, fun x => ?_⟩
      · simp only [State.link, State.addSucc, State.addPred]
        split <;> simp
      · simp only [State.link, State.addSucc, State.addPred]
        by_cases hx : x = .exit
        · subst hx; simp
        · by_cases hx' : x = .latch
          · subst hx'; simp
          · simp [hx, hx']
    · exact visitSuccs_spec m header e.2 hn hm _ s
  unfold visit
  generalize he : (if (cfg.succ e.1).isEmpty then s.link e.2 .exit
      else visitSuccs m header e.2 (cfg.succ e.1) s) = s1
  obtain ⟨h1, h2⟩ := hs s1 he.symm
  simp only
  by_cases hh : e.1 = header
  · simp only [hh, ne_eq, not_true_eq_false, if_false, false_and]
    refine ⟨by simp, fun s' hs' => ?_⟩
    simp at hs'
    subst hs'
    refine ⟨h1, fun x => ?_⟩
    rw [h2]
    simp [ins, hh]
  · simp only [ne_eq, hh, not_false_eq_true, if_true, true_and]
    obtain ⟨p1, p2⟩ := visitPreds_spec m e.2 (cfg.pred e.1) s1
    refine ⟨p1, fun s' hs' => ?_⟩
    obtain ⟨-, q1, q2⟩ := p2 s' hs'
    refine ⟨fun x => by rw [q1, h1], fun x => ?_⟩
    rw [q2, h2]
    simp only [ins, ne_eq, hh, not_false_eq_true, if_true]
    by_cases hx : x = .exit
    · subst hx
      have : ¬ (Node.exit = e.2) := fun h => hn.1 h.symm
      simp [this]
    · by_cases hx' : x = .latch
      · subst hx'
        have : ¬ (Node.latch = e.2) := fun h => hn.2 h.symm
        simp [this]
      · simp [hx, hx']

theorem visitAll_spec (cfg : Cfg B) (m : Blocks B) (header : B)
    (hm : ∀ c cn, m.find c = some cn → cn ≠ .exit ∧ cn ≠ .latch) (es : List (B × Node B))
    (hn : ∀ e ∈ es, e.2 ≠ .exit ∧ e.2 ≠ .latch) (s : State B) :
    (visitAll cfg m header es s = none ↔
      ∃ e ∈ es, e.1 ≠ header ∧ ∃ p ∈ cfg.pred e.1, m.find p = none) ∧
    ∀ s', visitAll cfg m header es s = some s' →
      (∀ x, s'.succ x = s.succ x ++
        es.flatMap fun e => if x = e.2 then outs cfg m header e else []) ∧
      (∀ x, s'.pred x = s.pred x ++ es.flatMap fun e =>
        if x = .exit ∨ x = .latch then List.replicate ((outs cfg m header e).count x) e.2
         else if x = e.2 then ins cfg m header e else []) := by
  induction es generalizing s with
  | nil =>
    simp only [visitAll]
    exact ⟨by simp, fun s' h => by simp at h; subst h; simp⟩
  | cons e es ih =>
    rw [visitAll]
    obtain ⟨h1, h2⟩ := visit_spec cfg m header e (hn e List.mem_cons_self) hm s
    cases hv : visit cfg m header e s with
    | none =>
      simp only
      refine ⟨?_, by simp⟩
      simp only [true_iff]
      exact ⟨e, List.mem_cons_self, h1.1 hv⟩
    | some s1 =>
      simp only
      obtain ⟨q1, q2⟩ := ih (fun e he => hn e (List.mem_cons_of_mem _ he)) s1
      obtain ⟨r1, r2⟩ := h2 s1 hv
      refine ⟨?_, fun s' hs' => ?_⟩
      · rw [q1]
        constructor
        · rintro ⟨e', he', h⟩
          exact ⟨e', List.mem_cons_of_mem _ he', h⟩
        · rintro ⟨e', he', h⟩
          rcases List.mem_cons.1 he' with rfl | he'
          · have := h1.2 h
            rw [hv] at this
            simp at this
          · exact ⟨e', he', h⟩
      · obtain ⟨t1, t2⟩ := q2 s' hs'
        refine ⟨fun x => ?_, fun x => ?_⟩
        · rw [t1, r1, List.flatMap_cons, List.append_assoc]
        · rw [t2, r2, List.flatMap_cons, List.append_assoc]

end Region
end Tsar
