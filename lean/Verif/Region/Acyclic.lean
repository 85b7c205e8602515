import Verif.Region.Edges
import Verif.Reach.Spec
import Mathlib.Tactic.Linarith

/-! # Regions of natural loops in reducible graphs have no cycles: C53 -/

namespace Tsar
namespace Region

set_option linter.unusedSectionVars false

variable {B : Type} [DecidableEq B]

/-! ### Walks along which ranks increase -/

theorem ends_append (a : B) (l : List B) (b : B) : Ends a (l ++ [b]) b := by
  simp [Ends]

theorem ends_iff (a : B) (l : List B) (b : B) : Ends a l b ↔ (a :: l).getLast? = some b := by
  unfold Ends
  rw [List.getLast?_eq_some_getLast (by simp : a :: l ≠ [])]
  simp

theorem increasing (cfg : Cfg B) (f : B) (rank : B → Nat)
    (hr : ∀ b c, c ∈ cfg.succ b → rank b < rank c ∨ Dom cfg f c b) (l : List B) (b : B)
    (hw : Walk cfg f l) (he : Ends f l b) :
    ∃ l', List.IsChain (fun x y => y ∈ cfg.succ x ∧ rank x < rank y) (f :: l') ∧ Ends f l' b := by
  induction l using List.reverseRecOn generalizing b with
  | nil => exact ⟨[], by simp, he⟩
  | append_singleton l c ih =>
    have hb : c = b := by simpa [Ends] using he
    subst hb
    unfold Walk at hw
    rw [← List.cons_append, List.isChain_append] at hw
    obtain ⟨h1, -, h3⟩ := hw
    obtain ⟨u, hu⟩ : ∃ u, (f :: l).getLast? = some u := ⟨_, List.getLast?_eq_some_getLast (by simp)⟩
    have hs : c ∈ cfg.succ u := h3 u hu c (by simp)
    obtain ⟨l', hl', hl''⟩ := ih u h1 ((ends_iff _ _ _).2 hu)
    rcases hr u c hs with hlt | hd
    · refine ⟨l' ++ [c], ?_, ends_append _ _ _⟩
      rw [← List.cons_append, List.isChain_append]
      refine ⟨hl', by simp, ?_⟩
      intro x hx y hy
      rw [(ends_iff _ _ _).1 hl''] at hx
      simp at hx hy
      subst hx hy
      exact ⟨hs, hlt⟩
    · have hwalk : Walk cfg f l' := hl'.imp fun _ _ h => h.1
      have hm := hd l' hwalk hl''
      obtain ⟨p, q, hpq⟩ := List.append_of_mem hm
      cases p with
      | nil =>
        simp at hpq
        rw [← hpq.1]
        exact ⟨[], by simp, by simp [Ends]⟩
      | cons x p =>
        simp at hpq
        obtain ⟨rfl, rfl⟩ := hpq
        refine ⟨p ++ [c], ?_, ends_append _ _ _⟩
        rw [show f :: (p ++ c :: q) = (f :: (p ++ [c])) ++ q by simp, List.isChain_append] at hl'
        exact hl'.1

theorem chain_le (rank : B → Nat) (R : B → B → Prop) (hR : ∀ x y, R x y → rank x < rank y) (l : List B) (d b : B)
    (h : List.IsChain R l) (hb : l.getLast? = some b) (hd : d ∈ l) : rank d ≤ rank b := by
  induction l using List.reverseRecOn generalizing b with
  | nil => simp at hd
  | append_singleton l c ih =>
    simp at hb
    subst hb
    rw [List.isChain_append] at h
    rcases List.mem_append.1 hd with hd | hd
    · obtain ⟨u, hu⟩ : ∃ u, l.getLast? = some u :=
        ⟨_, List.getLast?_eq_some_getLast (List.ne_nil_of_mem hd)⟩
      have := ih u h.1 hu hd
      have := hR _ _ (h.2.2 u hu c (by simp))
      omega
    · simp at hd
      subst hd
      exact le_refl _

/-- A block is dominated by blocks of smaller ranks only. -/
theorem rank_dom {cfg : Cfg B} {f : B} {rank : B → Nat}
    (hr : ∀ b c, c ∈ cfg.succ b → rank b < rank c ∨ Dom cfg f c b) {b d : B}
    (hb : ∃ l, Walk cfg f l ∧ Ends f l b) (hd : Dom cfg f d b) : rank d ≤ rank b := by
  obtain ⟨l, h1, h2⟩ := hb
  obtain ⟨l', h3, h4⟩ := increasing cfg f rank hr l b h1 h2
  have hm := hd l' (h3.imp fun _ _ h => h.1) h4
  exact chain_le rank _ (fun x y h => h.2) _ d b h3 ((ends_iff _ _ _).1 h4) hm

/-- The last step of an increasing walk. -/
theorem rank_pred {cfg : Cfg B} {f : B} {rank : B → Nat}
    (hr : ∀ b c, c ∈ cfg.succ b → rank b < rank c ∨ Dom cfg f c b) {b : B}
    (hb : ∃ l, Walk cfg f l ∧ Ends f l b) : b = f ∨ ∃ p, b ∈ cfg.succ p ∧ rank p < rank b := by
  obtain ⟨l, h1, h2⟩ := hb
  obtain ⟨l', h3, h4⟩ := increasing cfg f rank hr l b h1 h2
  cases l' using List.reverseRecOn with
  | nil => left; simpa [Ends] using h4.symm
  | append_singleton l' c =>
    right
    have : c = b := by simpa [Ends] using h4
    subst this
    rw [← List.cons_append, List.isChain_append] at h3
    exact ⟨_, h3.2.2 _ (List.getLast?_eq_some_getLast (by simp)) c (by simp)⟩

/-! ### Positions of nodes -/

/-- Positions of nodes: each edge leads to a greater position. -/
def pos (rank : B → Nat) (heads : List B) (M : Nat) : Node B → Nat
  | .entry => 0
  | .block b => rank b + 1
  | .inner i => (heads[i]?.map rank).getD 0 + 1
  | .latch => M + 2
  | .exit => M + 3

variable {cfg : Cfg B} {f : B} {L : Lp B} {heads : List B}

theorem bounded (rank : B → Nat) (l : List B) : ∃ M, ∀ b ∈ l, rank b ≤ M := by
  induction l with
  | nil => exact ⟨0, by simp⟩
  | cons a l ih =>
    obtain ⟨M, hM⟩ := ih
    refine ⟨max M (rank a), fun b hb => ?_⟩
    rcases List.mem_cons.1 hb with rfl | hb
    · omega
    · have := hM b hb; omega

theorem pos_rep (hL : L.Wf) (hN : Natural cfg f L heads) {rank : B → Nat}
    (hr : ∀ b c, c ∈ cfg.succ b → rank b < rank c ∨ Dom cfg f c b) (M : Nat) {b : B} {n : Node B}
    (h : Rep L b n) : pos rank heads M n ≤ rank b + 1 := by
  have hb := h.mem hL
  cases n <;> simp only [Rep] at h
  · obtain ⟨rfl, -⟩ := h
    simp [pos]
  · rename_i i
    obtain ⟨bs, h1, h2⟩ := h
    simp only [pos]
    have hlt : i < heads.length := by
      rw [hN.length]; exact (List.getElem?_eq_some_iff.1 h1).1
    have hh : heads[i]? = some heads[i] := List.getElem?_eq_getElem hlt
    rw [hh]
    simp only [Option.map_some, Option.getD_some]
    have := rank_dom hr (hN.reach b hb) ((hN.innerDom i bs _ h1 hh).2 b h2)
    omega

theorem inner_head (hN : Natural cfg f L heads) {i : Nat} (hi : i < L.inner.length) :
    ∃ bs h, L.inner[i]? = some bs ∧ heads[i]? = some h ∧ h ∈ bs := by
  have h1 : L.inner[i]? = some L.inner[i] := List.getElem?_eq_getElem hi
  have h2 : heads[i]? = some (heads[i]'(by rw [hN.length]; exact hi)) := List.getElem?_eq_getElem _
  exact ⟨_, _, h1, h2, (hN.innerDom i _ _ h1 h2).1⟩

/-- An edge between blocks increases the position. -/
theorem pos_inside (hL : L.Wf) (hN : Natural cfg f L heads) {rank : B → Nat}
    (hr : ∀ b c, c ∈ cfg.succ b → rank b < rank c ∨ Dom cfg f c b) (M : Nat) {b c : B} {u v : Node B}
    (hb : Rep L b u) (hc : Rep L c v) (he : c ∈ cfg.succ b) (hh : c ≠ L.header) (huv : u ≠ v) :
    rank b < rank c ∧ pos rank heads M v = rank c + 1 := by
  constructor
  · rcases hr b c he with h | hd
    · exact h
    · rcases hN.back b c (hb.mem hL) (hc.mem hL) he hd with h | ⟨bs, hbs, h1, h2⟩
      · exact absurd h hh
      · obtain ⟨i, hi⟩ := List.getElem?_of_mem hbs
        have e1 := hb.unique hL (show Rep L b (.inner i) from ⟨bs, hi, h1⟩)
        have e2 := hc.unique hL (show Rep L c (.inner i) from ⟨bs, hi, h2⟩)
        exact absurd (e1.trans e2.symm) huv
  · cases v <;> simp only [Rep] at hc
    · obtain ⟨rfl, -⟩ := hc
      simp [pos]
    · rename_i i
      obtain ⟨bs, h1, h2⟩ := hc
      obtain ⟨bs', h, h3, h4, -⟩ := inner_head hN (List.getElem?_eq_some_iff.1 h1).1
      rw [h1, Option.some.injEq] at h3
      subst h3
      by_cases hch : c = h
      · simp [pos, h4, hch]
      · have := hN.innerClosed i bs h h1 h4 b c h2 hch he
        exact absurd (hb.unique hL (show Rep L b (.inner i) from ⟨bs, h1, this⟩)) huv

theorem pos_node (hL : L.Wf) (hN : Natural cfg f L heads) {rank : B → Nat}
    (hr : ∀ b c, c ∈ cfg.succ b → rank b < rank c ∨ Dom cfg f c b) {M : Nat} (hM : ∀ b ∈ L.blocks, rank b ≤ M)
    {b : B} {n : Node B} (h : Rep L b n) : 0 < pos rank heads M n ∧ pos rank heads M n ≤ M + 1 := by
  have h1 := pos_rep hL hN hr M h
  have h2 := hM b (h.mem hL)
  refine ⟨?_, by omega⟩
  cases n <;> first | exact absurd h id | simp [pos]

/-- Each edge leads to a greater position. -/
theorem pos_edge (hL : L.Wf) (hN : Natural cfg f L heads) {rank : B → Nat}
    (hr : ∀ b c, c ∈ cfg.succ b → rank b < rank c ∨ Dom cfg f c b) {M : Nat} (hM : ∀ b ∈ L.blocks, rank b ≤ M)
    {u v : Node B} (h : RegionEdge cfg L u v) : pos rank heads M u < pos rank heads M v := by
  rcases h with h | ⟨rfl, rfl, -⟩ | ⟨i, hi, rfl, rfl, -⟩
  · cases h with
    | enter h => exact (pos_node hL hN hr hM h).1
    | inside h1 h2 h3 h4 h5 =>
      have := pos_rep hL hN hr M h1
      have := pos_inside hL hN hr M h1 h2 h3 h4 h5
      omega
    | back h1 h2 => have := pos_node hL hN hr hM h1; simp only [pos] at *; omega
    | leave h1 h2 h3 => have := pos_node hL hN hr hM h1; simp only [pos] at *; omega
    | stop h1 h2 => have := pos_node hL hN hr hM h1; simp only [pos] at *; omega
  · simp [pos]
  · obtain ⟨bs, h, h1, h2, h3⟩ := inner_head hN hi
    have := pos_node hL hN hr hM (show Rep L h (.inner i) from ⟨bs, h1, h3⟩)
    simp only [pos] at *
    omega

/-! ### Graphs with positions -/

theorem path_pos {N : Type} {ch : N → List N} {p : N → Nat} (h : ∀ a b, b ∈ ch a → p a < p b) {a b : N}
    (hp : Graph.Path ch a b) : p a < p b := by
  induction hp with
  | single h1 => exact h _ _ h1
  | tail _ h1 ih => exact lt_trans ih (h _ _ h1)

theorem path_neg {N : Type} {ch : N → List N} {p : N → Nat} (h : ∀ a b, b ∈ ch a → p b < p a) {a b : N}
    (hp : Graph.Path ch a b) : p b < p a := by
  induction hp with
  | single h1 => exact h _ _ h1
  | tail _ h1 ih => exact lt_trans (h _ _ h1) ih

/-- The region for data-flow analysis of definitions and live memory. -/
def toRegion (s : State B) (du : Node B → Reach.DefUse) : Reach.Region (Node B) where
  nodes := s.nodes.tail
  entry := .entry
  exit := .exit
  latch := s.latch
  preds := s.pred
  succs := s.succ
  du := du

/-- Nodes of blocks are reachable from the entry. -/
theorem reach_rep (hL : L.Wf) (hN : Natural cfg f L heads) {s : State B}
    (hE : ∀ u v, v ∈ s.succ u ↔ RegionEdge cfg L u v) {b : B} {n : Node B}
    (h : Rep L b n) : Graph.Reach s.succ .entry n := by
  obtain ⟨rank, hr⟩ := hN.reducible
  generalize hk : rank b = k
  induction k using Nat.strong_induction_on generalizing b n with
  | _ k ih =>
    by_cases hb : b = L.header
    · subst hb
      exact .single ((hE _ _).2 (.inl (.enter h)))
    · have hbm := h.mem hL
      rcases rank_pred hr (hN.reach b hbm) with rfl | ⟨p, hp, hlt⟩
      · have := hN.dom b hbm [] (by simp [Walk]) (by simp [Ends])
        simp at this
        exact absurd this.symm hb
      · have hpm := hN.closed p b hbm hb hp
        obtain ⟨m, hm⟩ := Rep.exists hL hpm
        have := ih (rank p) (by omega) hm rfl
        by_cases hmn : m = n
        · exact hmn ▸ this
        · exact this.tail ((hE _ _).2 (.inl (.inside hm h hp hb hmn)))

theorem edge_source (hN : Natural cfg f L heads) {u v : Node B} (h : RegionEdge cfg L u v) :
    u = .entry ∨ ∃ b, Rep L b u := by
  rcases h with h | ⟨rfl, -⟩ | ⟨i, hi, rfl, -⟩
  · cases h with
    | enter => exact .inl rfl
    | inside h1 => exact .inr ⟨_, h1⟩
    | back h1 => exact .inr ⟨_, h1⟩
    | leave h1 => exact .inr ⟨_, h1⟩
    | stop h1 => exact .inr ⟨_, h1⟩
  · exact .inl rfl
  · obtain ⟨bs, h, h1, -, h3⟩ := inner_head hN hi
    exact .inr ⟨h, bs, h1, h3⟩

theorem edge_target (hL : L.Wf) {u v : Node B} (h : RegionEdge cfg L u v) :
    v = .exit ∨ (v = .latch ∧ ∃ b ∈ L.blocks, L.header ∈ cfg.succ b) ∨ ∃ b, Rep L b v := by
  rcases h with h | ⟨-, rfl, -⟩ | ⟨i, hi, -, rfl, -⟩
  · cases h with
    | enter h => exact .inr (.inr ⟨_, h⟩)
    | inside h1 h2 => exact .inr (.inr ⟨_, h2⟩)
    | back h1 h2 => exact .inr (.inl ⟨rfl, _, h1.mem hL, h2⟩)
    | leave h1 => exact .inl rfl
    | stop h1 => exact .inl rfl
  · exact .inl rfl
  · exact .inl rfl

/-- C53 (and a premise of C20). The region of a natural loop in a reducible control flow graph has no cycles: back edges lead to
the latch only. Its successors and predecessors describe the same edges, the entry has no
predecessors, the exit and the latch have no successors and all nodes are reachable from the entry. -/
theorem region_acyclic (hcfg : cfg.Wf) (hL : L.Wf) (hN : Natural cfg f L heads)
    (iter : Blocks B → List (B × Node B)) (hi : ∀ m, (iter m).Perm m) :
    ∃ s, build cfg L iter = some s ∧
      (∀ u v, (s.succ u).count v = (s.pred v).count u) ∧
      (∀ h, Rep L L.header h → ∀ u, h ∈ s.succ u → u = .entry) ∧
      (∀ u, ¬ Graph.Path s.succ u u) ∧ s.succ .latch = [] ∧
      (∀ n ∈ s.nodes, Graph.Reach s.succ .entry n) ∧
      ∀ du, Reach.Acyclic (toRegion s du) s.nodes := by
  have hdef : (build cfg L iter).isSome := by
    rw [region_defined cfg L hL iter hi]
    intro b hb hbh p hp
    refine hN.closed p b hb hbh ?_
    rw [← List.count_pos_iff, hcfg]
    exact List.count_pos_iff.2 hp
  obtain ⟨s, hs⟩ := Option.isSome_iff_exists.1 hdef
  have hmir := region_mirror cfg hcfg L iter hi s hs
  have hE := region_edges cfg hcfg L hL iter hi s hs
  obtain ⟨-, l2, -, l4, l5, l6, -, -⟩ := region_node_list cfg L hL iter hi s hs
  have hexit : (.exit : Node B) ∈ s.nodes :=
    List.mem_of_getLast? (region_node_list cfg L hL iter hi s hs).2.2.1
  obtain ⟨rank, hr⟩ := hN.reducible
  obtain ⟨M, hM⟩ := bounded rank L.blocks
  have hp : ∀ u v, v ∈ s.succ u → pos rank heads M u < pos rank heads M v :=
    fun u v h => pos_edge hL hN hr hM ((hE u v).1 h)
  have hinv : ∀ a b, b ∈ s.succ a ↔ a ∈ s.pred b := by
    intro a b
    rw [← List.count_pos_iff, hmir, List.count_pos_iff]
  have hrep : ∀ b n, Rep L b n → n ∈ s.nodes := by
    intro b n h
    cases n with
    | block c =>
      rw [l4]
      have : b = c := h.1
      subst this
      exact h
    | inner i =>
      obtain ⟨bs, h1, -⟩ := h
      exact (l5 i).2 (List.getElem?_eq_some_iff.1 h1).1
    | _ => exact absurd h id
  have htgt : ∀ u v, v ∈ s.succ u → v ∈ s.nodes := by
    intro u v h
    rcases edge_target hL ((hE u v).1 h) with rfl | ⟨rfl, hb⟩ | ⟨b, h⟩
    · exact hexit
    · exact l6.2 hb
    · exact hrep b v h
  have hsrc : ∀ u v, v ∈ s.succ u → Graph.Reach s.succ .entry u := by
    intro u v h
    rcases edge_source hN ((hE u v).1 h) with rfl | ⟨b, h⟩
    · exact .refl
    · exact reach_rep hL hN hE h
  have hnoexit : ∀ v, v ∉ s.succ .exit := by
    intro v h
    rcases edge_source hN ((hE _ v).1 h) with h | ⟨b, h⟩
    · simp at h
    · exact h
  have hnolatch : ∀ v, v ∉ s.succ .latch := by
    intro v h
    rcases edge_source hN ((hE _ v).1 h) with h | ⟨b, h⟩
    · simp at h
    · exact h
  have hnoentry : ∀ u, (.entry : Node B) ∉ s.succ u := fun u h => by
    have := hp _ _ h
    simp [pos] at this
  have hcyc : ∀ u, ¬ Graph.Path s.succ u u := fun u h => lt_irrefl _ (path_pos hp h)
  refine ⟨s, hs, hmir, ?_, hcyc, List.eq_nil_iff_forall_not_mem.2 hnolatch, ?_, fun du => ?_⟩
  · intro h hh u hu
    rcases (hE u h).1 hu with he | ⟨-, rfl, -⟩ | ⟨i, -, -, rfl, -⟩
    · cases he with
      | enter => rfl
      | inside h1 h2 h3 h4 h5 =>
        cases h with
        | block c =>
          have e1 : _ = c := hh.1
          have e2 : _ = c := h2.1
          exact absurd (e2.trans e1.symm) h4
        | inner i =>
          obtain ⟨bs, q1, q2⟩ := hh
          exact absurd q2 (hL.headerInner bs (List.mem_of_getElem? q1))
        | _ => exact absurd hh id
      | _ => exact absurd hh id
    · exact absurd hh id
    · exact absurd hh id
  · intro n hn
    cases n with
    | entry => exact .refl
    | exit =>
      have hex : ∃ u, RegionEdge cfg L u .exit := by
        by_cases h : ∃ w, CfgEdge cfg L w .exit
        · obtain ⟨w, hw⟩ := h
          exact ⟨w, .inl hw⟩
        · exact ⟨.entry, .inr (.inl ⟨rfl, rfl, fun w hw => h ⟨w, hw⟩⟩)⟩
      obtain ⟨u, hu⟩ := hex
      exact (hsrc u _ ((hE _ _).2 hu)).tail ((hE _ _).2 hu)
    | latch =>
      obtain ⟨b, hb, hb'⟩ := l6.1 hn
      obtain ⟨u, hu⟩ := Rep.exists hL hb
      exact (reach_rep hL hN hE hu).tail ((hE _ _).2 (.inl (.back hu hb')))
    | block b => exact reach_rep hL hN hE ((l4 b).1 hn)
    | inner i =>
      obtain ⟨bs, h, h1, -, h3⟩ := inner_head hN ((l5 i).1 hn)
      exact reach_rep hL hN hE (show Rep L h (.inner i) from ⟨bs, h1, h3⟩)
  · refine ⟨hinv, ?_, List.eq_nil_iff_forall_not_mem.2 hnoexit, ?_, ?_, ?_⟩
    · rw [List.eq_nil_iff_forall_not_mem]
      exact fun u h => hnoentry u ((hinv _ _).2 h)
    · intro n hn
      cases hn with
      | refl => exact List.mem_of_head? l2
      | tail _ h => exact htgt _ _ h
    · intro n m _ hm
      exact hsrc m n ((hinv _ _).2 hm)
    · rintro ⟨n, -, h⟩
      exact hcyc n h

/-- C53 (and a premise of C21). In the region of a natural loop in a reducible control flow graph with the edge from the latch to the
exit (`expand()`) each node may reach the exit and there are no cycles. -/
theorem region_acyclic_back (hcfg : cfg.Wf) (hL : L.Wf) (hN : Natural cfg f L heads)
    (iter : Blocks B → List (B × Node B)) (hi : ∀ m, (iter m).Perm m) (s : State B)
    (hs : build cfg L iter = some s) (du : Node B → Reach.DefUse) :
    Reach.AcyclicBack (Reach.expand (toRegion s du)) s.nodes := by
  have hE := region_edges cfg hcfg L hL iter hi s hs
  obtain ⟨-, l2, -, l4, l5, l6, l7, -⟩ := region_node_list cfg L hL iter hi s hs
  have hexit : (.exit : Node B) ∈ s.nodes :=
    List.mem_of_getLast? (region_node_list cfg L hL iter hi s hs).2.2.1
  obtain ⟨s', hs', hmir, -, -, hlat, hreach, hac⟩ := region_acyclic hcfg hL hN iter hi
  rw [hs, Option.some.injEq] at hs'
  subst hs'
  obtain ⟨hinv, -, hex, -, -, -⟩ := hac du
  obtain ⟨rank, hr⟩ := hN.reducible
  obtain ⟨M, hM⟩ := bounded rank L.blocks
  have hp : ∀ u v, v ∈ s.succ u → pos rank heads M u < pos rank heads M v :=
    fun u v h => pos_edge hL hN hr hM ((hE u v).1 h)
  -- edges of the expanded graph
  have hsucc : ∀ u v, v ∈ (Reach.expand (toRegion s du)).succs u ↔
      v ∈ s.succ u ∨ (u = .latch ∧ v = .exit ∧ .latch ∈ s.nodes) := by
    intro u v
    unfold Reach.expand
    simp only [toRegion, l7]
    by_cases hl : (.latch : Node B) ∈ s.nodes
    · simp only [hl, if_true, and_true, DataFlow.addAdjacent]
      split <;> rename_i hu <;> simp [hu]
    · simp [hl]
  have hpred : ∀ u v, u ∈ (Reach.expand (toRegion s du)).preds v ↔
      v ∈ (Reach.expand (toRegion s du)).succs u := by
    intro u v
    rw [hsucc]
    have : v ∈ s.succ u ↔ u ∈ s.pred v := hinv u v
    rw [this]
    unfold Reach.expand
    simp only [toRegion, l7]
    by_cases hl : (.latch : Node B) ∈ s.nodes
    · simp only [hl, if_true, and_true, DataFlow.addAdjacent]
      split <;> rename_i hu <;> simp [hu]
    · simp [hl]
  have hpe : ∀ u v, v ∈ (Reach.expand (toRegion s du)).succs u → pos rank heads M u < pos rank heads M v := by
    intro u v h
    rcases (hsucc u v).1 h with h | ⟨rfl, rfl, -⟩
    · exact hp u v h
    · simp [pos]
  have hexitR : (Reach.expand (toRegion s du)).exit = .exit := by
    unfold Reach.expand; split <;> rfl
  have hmem : ∀ u v, v ∈ s.succ u → v ∈ s.nodes := by
    intro u v h
    rcases edge_target hL ((hE u v).1 h) with rfl | ⟨rfl, hb⟩ | ⟨b, h⟩
    · exact hexit
    · exact l6.2 hb
    · cases v with
      | block c =>
        rw [l4]
        have : b = c := h.1
        subst this
        exact h
      | inner i =>
        obtain ⟨bs, h1, -⟩ := h
        exact (l5 i).2 (List.getElem?_eq_some_iff.1 h1).1
      | _ => exact absurd h id
  -- each node has a successor
  have hnext : ∀ n ∈ s.nodes, n ≠ .exit → ∃ m ∈ s.nodes, m ∈ (Reach.expand (toRegion s du)).succs n := by
    intro n hn hne
    have fin : (∃ m, RegionEdge cfg L n m) → ∃ m ∈ s.nodes, m ∈ (Reach.expand (toRegion s du)).succs n := by
      rintro ⟨m, hm⟩
      have := (hE n m).2 hm
      exact ⟨m, hmem n m this, (hsucc n m).2 (.inl this)⟩
    cases n with
    | entry =>
      obtain ⟨h, hh⟩ := Rep.exists hL hL.header
      exact fin ⟨h, .inl (.enter hh)⟩
    | exit => exact absurd rfl hne
    | latch => exact ⟨.exit, hexit, (hsucc _ _).2 (.inr ⟨rfl, rfl, hn⟩)⟩
    | block b =>
      apply fin
      have hb := (l4 b).1 hn
      cases hc : cfg.succ b with
      | nil => exact ⟨.exit, .inl (.stop hb hc)⟩
      | cons c cs =>
        have hcs : c ∈ cfg.succ b := by rw [hc]; simp
        by_cases hcb : c ∈ L.blocks
        · by_cases hch : c = L.header
          · exact ⟨.latch, .inl (.back hb (hch ▸ hcs))⟩
          · obtain ⟨m, hm⟩ := Rep.exists hL hcb
            by_cases hmb : Node.block b = m
            · subst hmb
              have hcb' : c = b := hm.1
              subst hcb'
              rcases hr c c hcs with h | h
              · exact absurd h (lt_irrefl _)
              · rcases hN.back c c hcb hcb hcs h with h | ⟨bs, h1, h2, -⟩
                · exact absurd h hch
                · exact absurd h2 (hb.2.2 bs h1)
            · exact ⟨m, .inl (.inside hb hm hcs hch hmb)⟩
        · exact ⟨.exit, .inl (.leave hb hcs hcb)⟩
    | inner i =>
      apply fin
      by_cases h : ∃ w, CfgEdge cfg L (.inner i) w
      · obtain ⟨w, hw⟩ := h
        exact ⟨w, .inl hw⟩
      · exact ⟨.exit, .inr (.inr ⟨i, (l5 i).1 hn, rfl, rfl, fun w hw => h ⟨w, hw⟩⟩)⟩
  have hle : ∀ n ∈ s.nodes, pos rank heads M n ≤ M + 3 := by
    intro n hn
    cases n with
    | block b => have := (pos_node hL hN hr hM ((l4 b).1 hn)).2; omega
    | inner i =>
      obtain ⟨bs, h, h1, -, h3⟩ := inner_head hN ((l5 i).1 hn)
      have := (pos_node hL hN hr hM (show Rep L h (.inner i) from ⟨bs, h1, h3⟩)).2
      omega
    | _ => simp [pos]
  have hback : ∀ n ∈ s.nodes, Graph.Reach (Reach.expand (toRegion s du)).preds .exit n := by
    intro n hn
    generalize hk : M + 3 - pos rank heads M n = k
    induction k using Nat.strong_induction_on generalizing n with
    | _ k ih =>
      by_cases hne : n = .exit
      · subst hne; exact .refl
      · obtain ⟨m, hm, hms⟩ := hnext n hn hne
        have h1 := hpe n m hms
        have h2 := hle n hn
        have h3 := hle m hm
        exact (ih _ (by omega) m hm rfl).tail ((hpred n m).2 hms)
  refine ⟨fun a b => (hpred a b).symm, ?_, ?_, ?_, ?_⟩
  · rw [hexitR, List.eq_nil_iff_forall_not_mem]
    intro v hv
    rcases (hsucc _ _).1 hv with h | ⟨h, -⟩
    · have : s.succ .exit = [] := hex
      rw [this] at h
      simp at h
    · simp at h
  · rw [hexitR]
    intro n hn
    cases hn with
    | refl => exact hexit
    | tail _ h =>
      have h := (hpred _ _).1 h
      rcases (hsucc _ _).1 h with h | ⟨rfl, -, h⟩
      · rcases edge_source hN ((hE _ _).1 h) with rfl | ⟨b, h⟩
        · exact List.mem_of_head? l2
        · cases n with
          | block c =>
            rw [l4]
            have : b = c := h.1
            subst this
            exact h
          | inner i =>
            obtain ⟨bs, h1, -⟩ := h
            exact (l5 i).2 (List.getElem?_eq_some_iff.1 h1).1
          | _ => exact absurd h id
      · exact h
  · rw [hexitR]
    intro n m _ hm
    rcases (hsucc _ _).1 hm with h | ⟨-, rfl, -⟩
    · exact hback m (hmem _ _ h)
    · exact .refl
  · rintro ⟨n, -, h⟩
    exact lt_irrefl _ (path_neg (fun a b hb => hpe b a ((hpred b a).1 hb)) h)

end Region
end Tsar
