import Verif.Region.Props

/-! # Edges of a region: C53 -/

namespace Tsar
namespace Region

set_option linter.unusedSectionVars false

variable {B : Type} [DecidableEq B]

/-- Lists of successors and predecessors mirror each other. -/
def Mirror (s : State B) : Prop := ∀ u v, (s.succ u).count v = (s.pred v).count u

theorem Mirror.link {s : State B} (h : Mirror s) (u v : Node B) : Mirror (s.link u v) := by
  intro x y
  have := h x y
  simp only [State.link, State.addSucc, State.addPred]
  by_cases hx : x = u
  · by_cases hy : y = v
    · subst hx hy
      simp [List.count_append, this]
    · subst hx
      have : ¬ (v = y) := fun h => hy h.symm
      simp [List.count_append, hy, this, h x y]
  · by_cases hy : y = v
    · subst hy
      have : ¬ (u = x) := fun h => hx h.symm
      simp [List.count_append, hx, this, h x y]
    · simp [hx, hy, this]

theorem Mirror.closeInner {s : State B} (h : Mirror s) (rs : List (Node B)) : Mirror (closeInner rs s) := by
  induction rs generalizing s with
  | nil => exact h
  | cons r rs ih =>
    rw [Region.closeInner]
    apply ih
    split
    · exact h.link _ _
    · exact h

theorem Mirror.closeEntry {s : State B} (h : Mirror s) : Mirror (closeEntry s) := by
  unfold Region.closeEntry
  split
  · exact h.link _ _
  · exact h

/-! ### Double counting -/

theorem sum_swap {α β : Type} (f : α → β → Nat) (l : List α) (k : List β) :
    (l.map fun a => (k.map fun b => f a b).sum).sum = (k.map fun b => (l.map fun a => f a b).sum).sum := by
  have add : ∀ (k : List β) (g h : β → Nat),
      (k.map fun b => g b + h b).sum = (k.map g).sum + (k.map h).sum := by
    intro k g h
    induction k with
    | nil => rfl
    | cons b k ih => simp only [List.map_cons, List.sum_cons, ih]; omega
  induction l with
  | nil =>
    simp only [List.map_nil, List.sum_nil]
    induction k with
    | nil => rfl
    | cons b k ih => simp
  | cons a l ih => simp only [List.map_cons, List.sum_cons, ih, add]

theorem sum_single (es : List (B × Node B)) (hes : (es.map (·.1)).Nodup) (p : B → Prop) [DecidablePred p]
    (v : Node B) (c : B) :
    (es.map fun e => if e.2 = v ∧ p e.1 then (if e.1 = c then 1 else 0) else 0).sum =
      if (c, v) ∈ es ∧ p c then 1 else 0 := by
  induction es with
  | nil => simp
  | cons e es ih =>
    rw [List.map_cons, List.nodup_cons] at hes
    rw [List.map_cons, List.sum_cons, ih hes.2]
    by_cases hc : e.1 = c
    · have hn : (c, v) ∉ es := fun h => hes.1 (hc ▸ List.mem_map.2 ⟨_, h, rfl⟩)
      have : (c, v) ∈ e :: es ↔ e.2 = v := by
        rw [List.mem_cons]
        constructor
        · rintro (h | h)
          · rw [← h]
          · exact absurd h hn
        · intro h
          left
          rw [← hc, ← h]
      simp only [this, hn, hc]
      simp
    · have : (c, v) ∈ e :: es ↔ (c, v) ∈ es := by
        rw [List.mem_cons]
        constructor
        · rintro (h | h)
          · exact absurd (by rw [← h]) hc
          · exact h
        · exact .inr
      simp only [this, hc]
      simp

theorem countP_sum (es : List (B × Node B)) (hes : (es.map (·.1)).Nodup) (p : B → Prop) [DecidablePred p]
    (v : Node B) (l : List B) :
    l.countP (fun c => (c, v) ∈ es ∧ p c) =
      (es.map fun e => if e.2 = v ∧ p e.1 then l.count e.1 else 0).sum := by
  induction l with
  | nil =>
    simp only [List.countP_nil, List.count_nil, ite_self]
    clear hes
    induction es with
    | nil => rfl
    | cons e es ih => simp
  | cons c l ih =>
    rw [List.countP_cons, ih]
    have := sum_single es hes p v c
    have h2 : ∀ es' : List (B × Node B), (es'.map fun e => if e.2 = v ∧ p e.1 then (c :: l).count e.1 else 0).sum =
        (es'.map fun e => if e.2 = v ∧ p e.1 then l.count e.1 else 0).sum +
        (es'.map fun e => if e.2 = v ∧ p e.1 then (if e.1 = c then 1 else 0) else 0).sum := by
      intro es'
      induction es' with
      | nil => rfl
      | cons e es' ih =>
        simp only [List.map_cons, List.sum_cons, ih]
        by_cases hp : e.2 = v ∧ p e.1
        · simp only [hp, and_self, if_true, List.count_cons]
          by_cases hc : c = e.1
          · simp [hc]; omega
          · have : ¬ e.1 = c := fun h => hc h.symm
            simp [hc, this]; omega
        · simp only [hp, if_false]; omega
    rw [h2, this]
    simp

theorem targets_count (m : Blocks B) (header : B) (n v : Node B) (hv : v ≠ .exit ∧ v ≠ .latch)
    (hne : n ≠ v) (cs : List B) :
    (targets m header n cs).count v = cs.countP fun c => m.find c = some v ∧ c ≠ header := by
  induction cs with
  | nil => simp [targets]
  | cons c cs ih =>
    rw [targets, List.count_append, ih, List.countP_cons, Nat.add_comm]
    congr 1
    have h1 : ¬ (Node.exit = v) := fun h => hv.1 h.symm
    have h2 : ¬ (Node.latch = v) := fun h => hv.2 h.symm
    cases hf : m.find c with
    | none => simp [h1]
    | some cn =>
      simp only
      by_cases hc : c = header
      · simp [hc, h2]
      · by_cases hcn : cn = n
        · subst hcn
          simp [hc, hne]
        · by_cases hcv : cn = v
          · subst hcv
            simp [hc, hcn]
          · simp [hc, hcn, hcv]

theorem sources_count (m : Blocks B) (n u : Node B) (hne : u ≠ n) (ps : List B) :
    (sources m n ps).count u = ps.countP fun p => m.find p = some u := by
  induction ps with
  | nil => simp [sources]
  | cons p ps ih =>
    rw [sources, List.count_append, ih, List.countP_cons, Nat.add_comm]
    congr 1
    cases hf : m.find p with
    | none => simp
    | some pn =>
      simp only
      by_cases hpn : pn = n
      · subst hpn
        have : ¬ pn = u := fun h => hne h.symm
        simp [this]
      · by_cases hpu : pn = u
        · subst hpu
          simp [hpn]
        · simp [hpn, hpu]

theorem targets_self (m : Blocks B) (header : B) (n : Node B) (hv : n ≠ .exit ∧ n ≠ .latch) (cs : List B) :
    (targets m header n cs).count n = 0 := by
  induction cs with
  | nil => simp [targets]
  | cons c cs ih =>
    rw [targets, List.count_append, ih]
    have h1 : ¬ (Node.exit = n) := fun h => hv.1 h.symm
    have h2 : ¬ (Node.latch = n) := fun h => hv.2 h.symm
    cases m.find c with
    | none => simp [h1]
    | some cn =>
      simp only
      split
      · simp [h2]
      · by_cases hcn : cn = n <;> simp [hcn]

theorem sources_self (m : Blocks B) (n : Node B) (ps : List B) : (sources m n ps).count n = 0 := by
  induction ps with
  | nil => simp [sources]
  | cons p ps ih =>
    rw [sources, List.count_append, ih]
    cases m.find p with
    | none => simp
    | some pn => by_cases hpn : pn = n <;> simp [hpn]

/-- Edges which are added by the loop over blocks mirror each other. -/
theorem visitAll_mirror (cfg : Cfg B) (hcfg : cfg.Wf) (m : Blocks B) (hok : m.Ok) (header : B)
    (hm : ∀ e ∈ m, e.2 ≠ .exit ∧ e.2 ≠ .latch) (es : List (B × Node B)) (hes : es.Perm m)
    (s s' : State B) (hs : Mirror s) (h : visitAll cfg m header es s = some s') : Mirror s' := by
  have hm' : ∀ c cn, m.find c = some cn → cn ≠ .exit ∧ cn ≠ .latch := fun c cn h => hm _ (find_mem h)
  have hn : ∀ e ∈ es, e.2 ≠ .exit ∧ e.2 ≠ .latch := fun e he => hm e (hes.mem_iff.1 he)
  obtain ⟨h1, h2⟩ := (visitAll_spec cfg m header hm' es hn s).2 s' h
  intro u v
  rw [h1, h2, List.count_append, List.count_append, hs u v, List.count_flatMap, List.count_flatMap]
  congr 1
  by_cases hv : v = .exit ∨ v = .latch
  · congr 1
    apply List.map_congr_left
    intro e _
    simp only [Function.comp, hv, if_true]
    by_cases hu : u = e.2
    · subst hu; simp
    · have : ¬ e.2 = u := fun h => hu h.symm
      simp [hu, List.count_replicate, this]
  · simp only [hv, if_false]
    rw [not_or] at hv
    have hfind : ∀ b x, m.find b = some x ↔ (b, x) ∈ es := fun b x =>
      ⟨fun h => hes.mem_iff.2 (find_mem h), fun h => hok.find (hes.mem_iff.1 h)⟩
    have hnd : (es.map (·.1)).Nodup := (hes.map _).nodup_iff.2 hok
    by_cases huv : u = v
    · subst huv
      have e1 : ∀ e ∈ es, (List.count u ∘ fun e => if u = e.2 then outs cfg m header e else []) e = 0 := by
        intro e _
        simp only [Function.comp]
        split
        · rename_i he
          subst he
          unfold outs
          split
          · have : ¬ (Node.exit = e.2) := fun h => hv.1 h.symm
            simp [this]
          · exact targets_self m header _ hv _
        · rfl
      have e2 : ∀ e ∈ es, (List.count u ∘ fun e => if u = e.2 then ins cfg m header e else []) e = 0 := by
        intro e _
        simp only [Function.comp]
        split
        · rename_i he
          subst he
          unfold ins
          split
          · exact sources_self m _ _
          · rfl
        · rfl
      rw [List.map_congr_left e1, List.map_congr_left e2]
    · have e1 : ∀ e ∈ es, (List.count v ∘ fun e => if u = e.2 then outs cfg m header e else []) e =
          (es.map fun e' => if e.2 = u ∧ e'.2 = v ∧ e'.1 ≠ header then (cfg.succ e.1).count e'.1 else 0).sum := by
        intro e _
        simp only [Function.comp]
        by_cases hu : u = e.2
        · subst hu
          simp only [if_true, true_and]
          rw [← countP_sum es hnd (fun c => c ≠ header)]
          unfold outs
          split
          · rename_i he
            have : ¬ (Node.exit = v) := fun h => hv.1 h.symm
            have he' : cfg.succ e.1 = [] := by simpa using he
            simp [he', this]
          · rw [targets_count m header e.2 v hv huv]
            simp only [hfind]
        · have : ¬ e.2 = u := fun h => hu h.symm
          simp only [this, hu, false_and, if_false, List.count_nil]
          symm
          rw [List.sum_eq_zero_iff_forall_eq_nat]
          simp
      have e2 : ∀ e' ∈ es, (List.count u ∘ fun e => if v = e.2 then ins cfg m header e else []) e' =
          (es.map fun e => if e.2 = u ∧ e'.2 = v ∧ e'.1 ≠ header then (cfg.succ e.1).count e'.1 else 0).sum := by
        intro e' _
        simp only [Function.comp]
        by_cases hu : v = e'.2
        · subst hu
          unfold ins
          by_cases hh : e'.1 = header
          · simp only [hh, if_true, ne_eq, not_true_eq_false, and_false, if_false, List.count_nil]
            symm
            rw [List.sum_eq_zero_iff_forall_eq_nat]
            simp
          · simp only [hh, if_true, ne_eq, not_false_eq_true, and_true]
            rw [sources_count m e'.2 u huv]
            simp only [hfind]
            have := countP_sum es hnd (fun _ => True) u (cfg.pred e'.1)
            simp only [and_true] at this
            rw [this]
            congr 1
            apply List.map_congr_left
            intro e _
            split
            · exact (hcfg e.1 e'.1).symm
            · rfl
        · have : ¬ e'.2 = v := fun h => hu h.symm
          simp only [this, hu, false_and, and_false, if_false, List.count_nil]
          symm
          rw [List.sum_eq_zero_iff_forall_eq_nat]
          simp
      rw [List.map_congr_left e1, List.map_congr_left e2, sum_swap]

/-- Intermediate results of `build()`. -/
theorem build_some {cfg : Cfg B} {L : Lp B} {iter : Blocks B → List (B × Node B)} {s : State B}
    (h : build cfg L iter = some s) :
    ∃ hd s1, (collect L).2.find L.header = some hd ∧
      visitAll cfg (collect L).2 L.header (iter (collect L).2) ((collect L).1.link .entry hd) = some s1 ∧
      s = closeInner (closeEntry s1).regions (closeEntry s1) := by
  unfold build at h
  simp only at h
  split at h
  · simp at h
  · rename_i hd hh
    split at h
    · simp at h
    · rename_i s1 h1
      simp only [Option.some.injEq] at h
      exact ⟨hd, s1, hh, h1, h.symm⟩

/-- C53. In the graph of a region a node is a successor of another one as many times as the latter is a predecessor of the
former. The order of the hash table is arbitrary. -/
theorem region_mirror (cfg : Cfg B) (hcfg : cfg.Wf) (L : Lp B) (iter : Blocks B → List (B × Node B))
    (hi : ∀ m, (iter m).Perm m) (s : State B) (h : build cfg L iter = some s) (u v : Node B) :
    (s.succ u).count v = (s.pred v).count u := by
  obtain ⟨hd, s1, -, h1, rfl⟩ := build_some h
  obtain ⟨-, e1, e2⟩ := collect_nodes L
  have h0 : Mirror (collect L).1 := by
    intro u v
    rw [e1, e2]
    rfl
  exact ((visitAll_mirror cfg hcfg _ (collect_ok L) L.header (fun e he => (collect_node L he).2) _ (hi _) _ _
    (h0.link _ _) h1).closeEntry.closeInner _) u v

/-- C53. The construction succeeds (does not access a missing element of the map) if and only if
the header is the only block with predecessors outside of the loop. -/
theorem region_defined (cfg : Cfg B) (L : Lp B) (hL : L.Wf) (iter : Blocks B → List (B × Node B))
    (hi : ∀ m, (iter m).Perm m) :
    (build cfg L iter).isSome ↔ ∀ b ∈ L.blocks, b ≠ L.header → ∀ p ∈ cfg.pred b, p ∈ L.blocks := by
  obtain ⟨hd, hh⟩ := Rep.exists hL hL.header
  rw [← collect_rep L hL] at hh
  unfold build
  simp only [hh]
  have hm' : ∀ c cn, (collect L).2.find c = some cn → cn ≠ .exit ∧ cn ≠ .latch :=
    fun c cn h => (collect_node L (find_mem h)).2
  have hn : ∀ e ∈ iter (collect L).2, e.2 ≠ .exit ∧ e.2 ≠ .latch :=
    fun e he => (collect_node L ((hi _).mem_iff.1 he)).2
  have h1 := (visitAll_spec cfg (collect L).2 L.header hm' (iter (collect L).2) hn
    ((collect L).1.link .entry hd)).1
  constructor
  · intro h b hb hbh p hp
    by_contra hpb
    obtain ⟨n, hbn⟩ := Rep.exists hL hb
    have := h1.2 ⟨(b, n), (hi _).mem_iff.2 (find_mem ((collect_rep L hL b n).2 hbn)), hbh, p, hp,
      (collect_none L hL p).2 hpb⟩
    rw [this] at h
    simp at h
  · intro h
    cases hv : visitAll cfg (collect L).2 L.header (iter (collect L).2) ((collect L).1.link .entry hd) with
    | some s => rfl
    | none =>
      obtain ⟨e, he, h2, p, hp, hpn⟩ := h1.1 hv
      have hr := (collect_rep L hL e.1 e.2).1 ((collect_ok L).find ((hi _).mem_iff.1 he))
      exact absurd (h e.1 (hr.mem hL) h2 p hp) ((collect_none L hL p).1 hpn)

/-! ### Which edges are in the region -/

theorem mem_targets (L : Lp B) (hL : L.Wf) (n : Node B) (cs : List B) (v : Node B) :
    v ∈ targets (collect L).2 L.header n cs ↔
      ∃ c ∈ cs, (v = .exit ∧ c ∉ L.blocks) ∨ (v = .latch ∧ c = L.header) ∨
        (Rep L c v ∧ c ≠ L.header ∧ v ≠ n) := by
  induction cs with
  | nil => simp [targets]
  | cons c cs ih =>
    rw [targets, List.mem_append, ih]
    simp only [List.mem_cons, exists_eq_or_imp]
    apply or_congr _ Iff.rfl
    cases hf : (collect L).2.find c with
    | none =>
      have hc := (collect_none L hL c).1 hf
      have : c ≠ L.header := fun h => hc (h ▸ hL.header)
      have h3 : ¬ Rep L c v := fun h => hc (h.mem hL)
      simp [hc, this, h3]
    | some cn =>
      have hr := (collect_rep L hL c cn).1 hf
      have hc := hr.mem hL
      simp only
      by_cases hch : c = L.header
      · subst hch
        simp [hc]
      · simp only [hch, if_false, hc, not_true_eq_false, and_false, ne_eq, not_false_eq_true, true_and, false_or]
        by_cases hcn : cn = n
        · subst hcn
          simp only [not_true_eq_false, if_false, List.not_mem_nil, false_iff, not_and, not_not]
          exact fun h => h.unique hL hr
        · simp only [hcn, not_false_eq_true, if_true, List.mem_singleton]
          constructor
          · rintro rfl; exact ⟨hr, hcn⟩
          · rintro ⟨h, -⟩; exact h.unique hL hr

theorem visited_edges (cfg : Cfg B) (L : Lp B) (hL : L.Wf) (iter : Blocks B → List (B × Node B))
    (hi : ∀ m, (iter m).Perm m) (hd : Node B) (hh : (collect L).2.find L.header = some hd) (s1 : State B)
    (h1 : visitAll cfg (collect L).2 L.header (iter (collect L).2) ((collect L).1.link .entry hd) = some s1)
    (u v : Node B) : v ∈ s1.succ u ↔ CfgEdge cfg L u v := by
  have hm' : ∀ c cn, (collect L).2.find c = some cn → cn ≠ .exit ∧ cn ≠ .latch :=
    fun c cn h => (collect_node L (find_mem h)).2
  have hn : ∀ e ∈ iter (collect L).2, e.2 ≠ .exit ∧ e.2 ≠ .latch :=
    fun e he => (collect_node L ((hi _).mem_iff.1 he)).2
  obtain ⟨q1, -⟩ := (visitAll_spec cfg (collect L).2 L.header hm' (iter (collect L).2) hn
    ((collect L).1.link .entry hd)).2 s1 h1
  obtain ⟨-, e1, -⟩ := collect_nodes L
  have hhr := (collect_rep L hL _ _).1 hh
  rw [q1, List.mem_append, List.mem_flatMap]
  have hl : v ∈ ((collect L).1.link .entry hd).succ u ↔ u = .entry ∧ v = hd := by
    simp only [State.link, State.addSucc, State.addPred, e1]
    split <;> simp_all
  rw [hl]
  constructor
  · rintro (⟨rfl, rfl⟩ | ⟨e, he, hv⟩)
    · exact .enter hhr
    · have hr := (collect_rep L hL e.1 e.2).1 ((collect_ok L).find ((hi _).mem_iff.1 he))
      split at hv
      · rename_i hu
        subst hu
        unfold outs at hv
        split at hv
        · rename_i hemp
          simp at hv
          subst hv
          exact .stop hr (by simpa using hemp)
        · rw [mem_targets L hL] at hv
          obtain ⟨c, hc, ⟨rfl, h⟩ | ⟨rfl, rfl⟩ | ⟨h2, h3, h4⟩⟩ := hv
          · exact .leave hr hc h
          · exact .back hr hc
          · exact .inside hr h2 hc h3 h4.symm
      · simp at hv
  · have key : ∀ b, Rep L b u → (v = .exit ∧ cfg.succ b = [] ∨
        v ∈ targets (collect L).2 L.header u (cfg.succ b)) →
        ∃ e ∈ iter (collect L).2, v ∈ if u = e.2 then outs cfg (collect L).2 L.header e else [] := by
      intro b hb h
      refine ⟨(b, u), (hi _).mem_iff.2 (find_mem ((collect_rep L hL b u).2 hb)), ?_⟩
      simp only [if_true, outs]
      rcases h with ⟨rfl, h⟩ | h
      · simp [h]
      · split
        · rename_i he
          have : cfg.succ b = [] := by simpa using he
          rw [this] at h
          simp [targets] at h
        · exact h
    intro h
    cases h with
    | enter h => exact .inl ⟨rfl, h.unique hL hhr⟩
    | inside h2 h3 h4 h5 h6 =>
      exact .inr (key _ h2 (.inr ((mem_targets L hL _ _ _).2 ⟨_, h4, .inr (.inr ⟨h3, h5, h6.symm⟩)⟩)))
    | back h2 h3 => exact .inr (key _ h2 (.inr ((mem_targets L hL _ _ _).2 ⟨_, h3, .inr (.inl ⟨rfl, rfl⟩)⟩)))
    | leave h2 h3 h4 => exact .inr (key _ h2 (.inr ((mem_targets L hL _ _ _).2 ⟨_, h3, .inl ⟨rfl, h4⟩⟩)))
    | stop h2 h3 => exact .inr (key _ h2 (.inl ⟨rfl, h3⟩))

theorem body_range (n : Nat) : ((List.range n).map Node.inner : List (Node B)).filter (fun x => (Node.kind x).isRegion) =
    (List.range n).map Node.inner := by
  rw [List.filter_eq_self]
  simp [Node.kind, Kind.isRegion]

/-- C53. Nodes of the built region: the entry is the first one, the exit is the last one, every node is in the list once. There are nodes for
inner loops, for blocks outside of inner loops and the latch if there is an edge to the header. -/
theorem region_node_list (cfg : Cfg B) (L : Lp B) (hL : L.Wf) (iter : Blocks B → List (B × Node B))
    (hi : ∀ m, (iter m).Perm m) (s : State B) (h : build cfg L iter = some s) :
    s.nodes.Nodup ∧ s.nodes.head? = some .entry ∧ s.nodes.getLast? = some .exit ∧
    (∀ b, .block b ∈ s.nodes ↔ Rep L b (.block b)) ∧
    (∀ i, .inner i ∈ s.nodes ↔ i < L.inner.length) ∧
    (.latch ∈ s.nodes ↔ ∃ b ∈ L.blocks, L.header ∈ cfg.succ b) ∧
    s.latch = (if .latch ∈ s.nodes then some .latch else none) ∧
    s.regions = (List.range L.inner.length).map Node.inner := by
  obtain ⟨hd, s1, hh, h1, rfl⟩ := build_some h
  have hm' : ∀ c cn, (collect L).2.find c = some cn → cn ≠ .exit ∧ cn ≠ .latch :=
    fun c cn h => (collect_node L (find_mem h)).2
  obtain ⟨⟨bl, c1, c2, c3⟩, -, -⟩ := collect_nodes L
  have n1 := visitAll_nodes cfg _ L.header hm' _ _ _ h1
  have hlink : ((collect L).1.link .entry hd).toNodes = (collect L).1.toNodes := rfl
  rw [hlink, c1] at n1
  have hce : (closeEntry s1).toNodes = s1.toNodes := by unfold closeEntry; split <;> rfl
  rw [(closeInner_spec _ _).1, hce, n1]
  generalize hns : (Node.entry :: ((List.range L.inner.length).map Node.inner ++ bl.map Node.block ++ [.exit]) : List (Node B)) = ns
  have hlat : (addAll Node.kind ns).latch = none := by
    rw [addAll_latch, ← hns]
    simp [Node.kind, List.filter_append, List.filter_map, Function.comp_def]
  have hany : ((iter (collect L).2).any fun e => (outs cfg (collect L).2 L.header e).contains .latch) = true ↔
      ∃ b ∈ L.blocks, L.header ∈ cfg.succ b := by
    have := fun u => visited_edges cfg L hL iter hi hd hh s1 h1 u .latch
    constructor
    · intro ha
      rw [List.any_eq_true] at ha
      obtain ⟨e, he, hl⟩ := ha
      have hr := (collect_rep L hL e.1 e.2).1 ((collect_ok L).find ((hi _).mem_iff.1 he))
      rw [List.contains_iff_mem] at hl
      unfold outs at hl
      split at hl
      · simp at hl
      · rw [mem_targets L hL] at hl
        obtain ⟨c, hc, ⟨h, -⟩ | ⟨-, rfl⟩ | ⟨h, -⟩⟩ := hl
        · simp at h
        · exact ⟨e.1, hr.mem hL, hc⟩
        · simp [Rep] at h
    · rintro ⟨b, hb, hs⟩
      obtain ⟨n, hn⟩ := Rep.exists hL hb
      rw [List.any_eq_true]
      refine ⟨(b, n), (hi _).mem_iff.2 (find_mem ((collect_rep L hL b n).2 hn)), ?_⟩
      rw [List.contains_iff_mem]
      unfold outs
      split
      · rename_i he
        have : cfg.succ b = [] := by simpa using he
        rw [this] at hs
        simp at hs
      · exact (mem_targets L hL _ _ _).2 ⟨_, hs, .inr (.inl ⟨rfl, rfl⟩)⟩
  obtain ⟨ns', hadd, hns'⟩ : ∃ ns', withLatch ((iter (collect L).2).any fun e => (outs cfg (collect L).2 L.header e).contains .latch)
      (addAll Node.kind ns) = addAll Node.kind ns' ∧
      ns' = ns ++ (if (iter (collect L).2).any fun e => (outs cfg (collect L).2 L.header e).contains .latch then [.latch] else []) := by
    refine ⟨_, ?_, rfl⟩
    unfold withLatch
    rw [hlat]
    split <;> rename_i hb
    · simp only [Option.isNone_none, Bool.and_true] at hb
      rw [if_pos hb, addAll_append]
    · simp only [Option.isNone_none, Bool.and_true] at hb
      rw [if_neg hb, List.append_nil]
  rw [hadd]
  generalize ((iter (collect L).2).any fun e => (outs cfg (collect L).2 L.header e).contains .latch) = fl at hany hns'
  have fe : ns'.filter (Node.kind · = .entry) = [.entry] := by
    rw [hns', ← hns]
    cases fl <;> simp [Node.kind, List.filter_map, Function.comp_def]
  have fx : ns'.filter (Node.kind · = .exit) = [.exit] := by
    rw [hns', ← hns]
    cases fl <;> simp [Node.kind, List.filter_append, List.filter_map, Function.comp_def]
  have fl' : (ns'.filter (Node.kind · = .latch)).length ≤ 1 := by
    rw [hns', ← hns]
    cases fl <;> simp [Node.kind, List.filter_append, List.filter_map, Function.comp_def]
  have fr : ns'.filter (fun n => (Node.kind n).isRegion) = (List.range L.inner.length).map Node.inner := by
    rw [hns', ← hns]
    cases fl <;> simp [Node.kind, Kind.isRegion, List.filter_append, List.filter_map, Function.comp_def]
  have hnd : ns'.Nodup := by
    have hbase : ns.Nodup := by
      rw [← hns, List.nodup_cons]
      refine ⟨by simp, ?_⟩
      rw [List.nodup_append, List.nodup_append]
      refine ⟨⟨?_, ?_, ?_⟩, by simp, ?_⟩
      · exact List.Pairwise.map _ (fun a b h => by simpa using h) List.nodup_range
      · exact List.Pairwise.map _ (fun a b h => by simpa using h) c2
      · intro a ha b hb
        simp only [List.mem_map] at ha hb
        obtain ⟨i, -, rfl⟩ := ha
        obtain ⟨j, -, rfl⟩ := hb
        simp
      · intro a ha b hb
        simp only [List.mem_append, List.mem_map, List.mem_singleton] at ha hb
        subst hb
        rcases ha with ⟨i, -, rfl⟩ | ⟨i, -, rfl⟩ <;> simp
    rw [hns', List.nodup_append]
    refine ⟨hbase, by split <;> simp, ?_⟩
    intro a ha b hb
    split at hb
    · simp at hb
      subst hb
      rintro rfl
      rw [← hns] at ha
      simp at ha
    · simp at hb
  obtain ⟨r1, r2, r3, r4, -, r6, r7⟩ := region_nodes Node.kind ns' hnd (by rw [fe]; simp) (by rw [fx]; simp) fl'
  have hmem : ∀ x, x ∈ ns' ↔ x = .entry ∨ x = .exit ∨ (∃ i < L.inner.length, x = .inner i) ∨
      (∃ b ∈ bl, x = .block b) ∨ (x = .latch ∧ fl = true) := by
    intro x
    rw [hns', ← hns]
    cases fl <;> cases x <;> simp
  refine ⟨r1, ?_, ?_, ?_, ?_, ?_, ?_, by rw [r7, fr]⟩
  · exact r3 .entry ((hmem _).2 (.inl rfl)) rfl
  · exact r4 .exit ((hmem _).2 (.inr (.inl rfl))) rfl
  · intro b
    rw [r2.mem_iff, hmem, ← c3]
    simp
  · intro i
    rw [r2.mem_iff, hmem]
    simp
  · rw [r2.mem_iff, hmem, ← hany]
    simp
  · split
    · rename_i hm
      exact (r6 _).2 ⟨r2.mem_iff.1 hm, rfl⟩
    · rename_i hm
      cases hl : (addAll Node.kind ns').latch with
      | none => rfl
      | some x =>
        have := (r6 x).1 hl
        cases x <;> simp [Node.kind] at this
        exact absurd (r2.mem_iff.2 this) hm

/-- C53. Edges of the built region are exactly the edges which the control flow graph produces and edges
which make infinite loops reach the exit. -/
theorem region_edges (cfg : Cfg B) (hcfg : cfg.Wf) (L : Lp B) (hL : L.Wf) (iter : Blocks B → List (B × Node B))
    (hi : ∀ m, (iter m).Perm m) (s : State B) (h : build cfg L iter = some s) (u v : Node B) :
    v ∈ s.succ u ↔ RegionEdge cfg L u v := by
  have hreg := (region_node_list cfg L hL iter hi s h).2.2.2.2.2.2.2
  obtain ⟨hd, s1, hh, h1, rfl⟩ := build_some h
  have hE := visited_edges cfg L hL iter hi hd hh s1 h1
  obtain ⟨-, e1, e2⟩ := collect_nodes L
  have h0 : Mirror (collect L).1 := by
    intro u v
    rw [e1, e2]
    rfl
  have hmir := visitAll_mirror cfg hcfg _ (collect_ok L) L.header (fun e he => (collect_node L he).2) _ (hi _) _ _
    (h0.link .entry hd) h1
  have hexit : (s1.pred .exit).isEmpty = true ↔ ∀ w, ¬ CfgEdge cfg L w .exit := by
    rw [List.isEmpty_iff]
    constructor
    · intro he w hw
      have := (hE w .exit).2 hw
      rw [← List.count_pos_iff, hmir, he] at this
      simp at this
    · intro hn
      rw [List.eq_nil_iff_forall_not_mem]
      intro w hw
      apply hn w
      rw [← hE, ← List.count_pos_iff, hmir]
      exact List.count_pos_iff.2 hw
  have hce : ∀ x y, y ∈ (closeEntry s1).succ x ↔
      CfgEdge cfg L x y ∨ (x = .entry ∧ y = .exit ∧ ∀ w, ¬ CfgEdge cfg L w .exit) := by
    intro x y
    rw [← hE x y, ← hexit]
    unfold closeEntry
    split
    · rename_i he
      simp only [he, and_true, State.link, State.addSucc, State.addPred]
      split
      · rename_i hx; simp [hx]
      · rename_i hx; simp [hx]
    · rename_i he
      simp [he]
  rw [(closeInner_spec _ _).1] at hreg
  rw [(closeInner_spec _ _).2, List.mem_append, hce, hreg]
  unfold RegionEdge
  rw [or_assoc]
  refine or_congr Iff.rfl (or_congr Iff.rfl ?_)
  constructor
  · intro hx
    split at hx
    · rename_i hc
      simp only [List.mem_map, List.mem_range] at hc
      obtain ⟨⟨i, hi', rfl⟩, h3⟩ := hc
      refine ⟨i, hi', rfl, by simpa using hx, fun w hw => ?_⟩
      have := (hce (.inner i) w).2 (.inl hw)
      rw [h3] at this
      simp at this
    · simp at hx
  · rintro ⟨i, hi', rfl, rfl, hn⟩
    rw [if_pos]
    · simp
    · refine ⟨by simpa using hi', ?_⟩
      rw [List.eq_nil_iff_forall_not_mem]
      intro w hw
      rcases (hce _ _).1 hw with hw | ⟨hw, -⟩
      · exact hn w hw
      · simp at hw

end Region
end Tsar
