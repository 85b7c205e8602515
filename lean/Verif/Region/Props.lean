import Verif.Region.Basic

/-! # Nodes and edges of a region: C52, C53 -/

namespace Tsar
namespace Region

set_option linter.unusedSectionVars false

/-! ### C52 -/

section
variable {N : Type} (kind : N → Kind)

/-- Nodes are added one by one to an empty region. -/
def addAll (ns : List N) : Nodes N := ns.foldl (Nodes.addNode kind) Nodes.init

theorem addAll_append (ns : List N) (n : N) :
    addAll kind (ns ++ [n]) = (addAll kind ns).addNode kind n := by
  simp [addAll]

/-- An ordinary node: neither the entry nor the exit. -/
def isBody (n : N) : Bool := kind n ≠ .entry && kind n ≠ .exit

theorem filter_last {p : N → Bool} {l : List N} (h : l.filter p ≠ []) :
    p ((l.filter p).getLast h) = true := (List.mem_filter.1 (List.getLast_mem h)).2

theorem addAll_nodes (ns : List N) (h1 : (ns.filter (kind · = .entry)).length ≤ 1)
    (h2 : (ns.filter (kind · = .exit)).length ≤ 1) :
    (addAll kind ns).nodes = ns.filter (kind · = .entry) ++ ns.filter (isBody kind) ++
      ns.filter (kind · = .exit) := by
  induction ns using List.reverseRecOn with
  | nil => simp [addAll, Nodes.init]
  | append_singleton ns n ih =>
    rw [List.filter_append, List.length_append] at h1 h2
    have ih := ih (by omega) (by omega)
    rw [addAll_append]
    simp only [Nodes.addNode, ih, List.filter_append]
    by_cases he : kind n = .entry
    · simp only [he, if_true]
      simp only [he, decide_true, List.filter_cons_of_pos] at h1
      have h0 : ns.filter (kind · = .entry) = [] := List.length_eq_zero_iff.1 (by simp at h1; simpa using h1)
      rw [h0]
      simp [he, isBody]
    · by_cases hx : kind n = .exit
      · simp only [hx, decide_true, List.filter_cons_of_pos] at h2
        have h0 : ns.filter (kind · = .exit) = [] := List.length_eq_zero_iff.1 (by simp at h2; simpa using h2)
        rw [h0]
        have e1 : [n].filter (kind · = .entry) = [] := by simp [hx]
        have e2 : [n].filter (kind · = .exit) = [n] := by simp [hx]
        have e3 : [n].filter (isBody kind) = [] := by simp [isBody, hx]
        rw [e1, e2, e3]
        simp only [hx, List.append_nil, List.nil_append, true_or, if_true, reduceCtorEq, if_false]
        split <;> rfl
      · simp only [he, hx, if_false]
        have e1 : [n].filter (kind · = .entry) = [] := by simp [he]
        have e2 : [n].filter (kind · = .exit) = [] := by simp [hx]
        have e3 : [n].filter (isBody kind) = [n] := by simp [isBody, he, hx]
        rw [e1, e2, e3, List.append_nil, List.append_nil]
        cases hX : ns.filter (kind · = .exit) with
        | nil =>
          rw [List.append_nil]
          split
          · simp
          · rename_i last hl
            have hne : kind last ≠ .exit := by
              have hm := List.mem_of_getLast? hl
              rcases List.mem_append.1 hm with hm | hm
              · have := (List.mem_filter.1 hm).2
                simp at this
                simp [this]
              · have := (List.mem_filter.1 hm).2
                simp [isBody] at this
                exact this.2
            simp [hne]
        | cons x xs =>
          rw [hX] at h2
          have hxs : xs = [] := by
            rw [← List.length_eq_zero_iff]; simp at h2; omega
          subst hxs
          have hk : kind x = .exit := by
            have : x ∈ ns.filter (kind · = .exit) := by rw [hX]; simp
            simpa using (List.mem_filter.1 this).2
          simp only [List.getLast?_append, List.getLast?_singleton, Option.some_or, hk]
          simp

theorem addAll_latch (ns : List N) :
    (addAll kind ns).latch = (ns.filter (kind · = .latch)).getLast? := by
  induction ns using List.reverseRecOn with
  | nil => simp [addAll, Nodes.init]
  | append_singleton ns n ih =>
    rw [addAll_append]
    simp only [Nodes.addNode, ih, List.filter_append]
    split <;> rename_i h <;> simp [h]

theorem addAll_regions (ns : List N) :
    (addAll kind ns).regions = ns.filter (fun n => (kind n).isRegion) := by
  induction ns using List.reverseRecOn with
  | nil => simp [addAll, Nodes.init]
  | append_singleton ns n ih =>
    rw [addAll_append]
    simp only [Nodes.addNode, ih, List.filter_append]
    split <;> rename_i h <;> simp [h]

theorem parts_perm (ns : List N) :
    (ns.filter (kind · = .entry) ++ ns.filter (isBody kind) ++ ns.filter (kind · = .exit)).Perm ns := by
  induction ns with
  | nil => simp
  | cons n ns ih =>
    by_cases he : kind n = .entry
    · have : kind n ≠ .exit := by rw [he]; decide
      simp only [List.filter_cons, he, isBody]
      simpa using List.Perm.cons n (by simpa [isBody] using ih)
    · by_cases hx : kind n = .exit
      · simp only [List.filter_cons, hx, isBody]
        simp only [reduceCtorEq, decide_false, decide_true, if_true, ne_eq, not_true_eq_false,
          Bool.and_false, Bool.false_eq_true, if_false]
        refine List.perm_middle.trans (List.Perm.cons n ?_)
        simpa [isBody] using ih
      · have e3 : isBody kind n = true := by simp [isBody, he, hx]
        simp only [List.filter_cons, he, hx, e3, decide_false, Bool.false_eq_true, if_false, if_true]
        rw [List.append_assoc, List.cons_append]
        refine List.perm_middle.trans (List.Perm.cons n ?_)
        rw [← List.append_assoc]
        exact ih

/-- C52. Distinct nodes with at most one entry, exit and latch are added to a region in any
order. Then the region consists exactly of these nodes, each node belongs to it once, the entry is the first node, the exit is the last one, other
nodes are in the order of additions; the latch is the added latch node (if any) and the list of inner
regions contains exactly the added regions in the order of additions. -/
theorem region_nodes (ns : List N) (hn : ns.Nodup)
    (h1 : (ns.filter (kind · = .entry)).length ≤ 1)
    (h2 : (ns.filter (kind · = .exit)).length ≤ 1)
    (h3 : (ns.filter (kind · = .latch)).length ≤ 1) :
    (addAll kind ns).nodes.Nodup ∧ (addAll kind ns).nodes.Perm ns ∧
    (∀ e ∈ ns, kind e = .entry → (addAll kind ns).nodes.head? = some e) ∧
    (∀ e ∈ ns, kind e = .exit → (addAll kind ns).nodes.getLast? = some e) ∧
    (addAll kind ns).nodes.filter (isBody kind) = ns.filter (isBody kind) ∧
    (∀ l, (addAll kind ns).latch = some l ↔ l ∈ ns ∧ kind l = .latch) ∧
    (addAll kind ns).regions = ns.filter (fun n => (kind n).isRegion) := by
  have hN := addAll_nodes kind ns h1 h2
  have hp : (addAll kind ns).nodes.Perm ns := by rw [hN]; exact parts_perm kind ns
  have single : ∀ (p : N → Bool) e, (ns.filter p).length ≤ 1 → e ∈ ns → p e = true → ns.filter p = [e] := by
    intro p e hl he hk
    have hm : e ∈ ns.filter p := List.mem_filter.2 ⟨he, hk⟩
    match hf : ns.filter p, hl, hm with
    | [x], _, hm => simp at hm; rw [hm]
    | _ :: _ :: _, hl, _ => simp at hl
  refine ⟨hp.nodup_iff.2 hn, hp, ?_, ?_, ?_, ?_, addAll_regions kind ns⟩
  · intro e he hk
    rw [hN, single (kind · = .entry) e h1 he (by simpa using hk)]
    simp
  · intro e he hk
    rw [hN, single (kind · = .exit) e h2 he (by simpa using hk)]
    simp
  · rw [hN]
    simp only [List.filter_append, List.filter_filter]
    have a : ns.filter (fun n => isBody kind n && decide (kind n = .entry)) = [] := by
      rw [List.filter_eq_nil_iff]; intro n _; simp [isBody]; grind
    have b : ns.filter (fun n => isBody kind n && decide (kind n = .exit)) = [] := by
      rw [List.filter_eq_nil_iff]; intro n _; simp [isBody]
    rw [a, b]
    simp
  · intro l
    rw [addAll_latch]
    constructor
    · intro h
      have := List.mem_filter.1 (List.mem_of_getLast? h)
      exact ⟨this.1, by simpa using this.2⟩
    · rintro ⟨hl, hk⟩
      rw [single (kind · = .latch) l h3 hl (by simpa using hk)]
      simp

end

/-! ### Nodes of the built region -/

variable {B : Type} [DecidableEq B]

/-- The latch is added on the first back edge. -/
def withLatch (b : Bool) (t : Nodes (Node B)) : Nodes (Node B) :=
  if b && t.latch.isNone then t.addNode Node.kind .latch else t

theorem withLatch_twice (a b : Bool) (t : Nodes (Node B)) :
    withLatch a (withLatch b t) = withLatch (b || a) t := by
  unfold withLatch
  cases a <;> cases b <;> simp
  by_cases h : t.latch = none
  · simp only [h, if_true]
    simp [Nodes.addNode, Node.kind]
  · simp [h]

theorem visitSuccs_nodes (m : Blocks B) (header : B) (n : Node B)
    (hm : ∀ c cn, m.find c = some cn → cn ≠ .exit ∧ cn ≠ .latch) (cs : List B) (s : State B) :
    (visitSuccs m header n cs s).toNodes =
      withLatch ((targets m header n cs).contains .latch) s.toNodes := by
  induction cs generalizing s with
  | nil => simp [visitSuccs, targets, withLatch]
  | cons c cs ih =>
    rw [visitSuccs, targets, ih]
    cases hf : m.find c with
    | none => simp [State.link, State.addSucc, State.addPred]
    | some cn =>
      have hcn := (hm c cn hf).2
      simp only
      by_cases hc : c = header
      · rw [if_pos hc, if_pos hc]
        have : ((if s.latch.isNone then s.addNode .latch else s).link n .latch).toNodes =
            withLatch true s.toNodes := by
          unfold withLatch
          cases hl : s.latch.isNone <;> simp [State.link, State.addSucc, State.addPred, State.addNode]
        rw [this, withLatch_twice]
        simp
      · rw [if_neg hc, if_neg hc]
        by_cases hcn' : cn = n
        · simp [hcn']
        · rw [if_pos hcn', if_pos hcn']
          have : ¬ (Node.latch = cn) := fun h => hcn h.symm
          simp [State.addSucc, this]

theorem visit_nodes (cfg : Cfg B) (m : Blocks B) (header : B) (e : B × Node B)
    (hm : ∀ c cn, m.find c = some cn → cn ≠ .exit ∧ cn ≠ .latch) (s s' : State B)
    (h : visit cfg m header e s = some s') :
    s'.toNodes = withLatch ((outs cfg m header e).contains .latch) s.toNodes := by
  unfold visit at h
  have : (if (cfg.succ e.1).isEmpty then s.link e.2 .exit
      else visitSuccs m header e.2 (cfg.succ e.1) s).toNodes =
      withLatch ((outs cfg m header e).contains .latch) s.toNodes := by
    unfold outs
    split
    · simp [withLatch, State.link, State.addSucc, State.addPred]
    · exact visitSuccs_nodes m header e.2 hm _ s
  simp only at h
  split at h
  · rw [((visitPreds_spec m e.2 _ _).2 s' h).1, this]
  · rw [Option.some.injEq] at h
    rw [← h, this]

theorem visitAll_nodes (cfg : Cfg B) (m : Blocks B) (header : B)
    (hm : ∀ c cn, m.find c = some cn → cn ≠ .exit ∧ cn ≠ .latch) (es : List (B × Node B)) (s s' : State B)
    (h : visitAll cfg m header es s = some s') :
    s'.toNodes = withLatch (es.any fun e => (outs cfg m header e).contains .latch) s.toNodes := by
  induction es generalizing s with
  | nil =>
    simp only [visitAll, Option.some.injEq] at h
    subst h
    simp [withLatch]
  | cons e es ih =>
    rw [visitAll] at h
    split at h
    · simp at h
    · rename_i s1 h1
      rw [ih s1 h, visit_nodes cfg m header e hm s s1 h1, withLatch_twice]
      congr 1

theorem closeInner_spec (rs : List (Node B)) (s : State B) :
    (closeInner rs s).toNodes = s.toNodes ∧
    ∀ x, (closeInner rs s).succ x = s.succ x ++ (if x ∈ rs ∧ s.succ x = [] then [.exit] else []) := by
  induction rs generalizing s with
  | nil => simp [closeInner]
  | cons r rs ih =>
    rw [closeInner]
    obtain ⟨h1, h2⟩ := ih (if (s.succ r).isEmpty then s.link r .exit else s)
    refine ⟨?_, fun x => ?_⟩
    · rw [h1]; split <;> simp [State.link, State.addSucc, State.addPred]
    · rw [h2]
      by_cases hr : s.succ r = []
      · simp only [hr, List.isEmpty_nil, if_true, State.link, State.addSucc, State.addPred]
        by_cases hx : x = r
        · subst hx; simp [hr]
        · simp [hx]
      · have : (s.succ r).isEmpty = false := by simpa using hr
        simp only [this, Bool.false_eq_true, if_false]
        by_cases hx : x = r
        · subst hx; simp [hr]
        · simp [hx]

theorem addInner_nodes (ls : List (List B)) (i : Nat) (r : State B × Blocks B) :
    (addInner ls i r).1.toNodes =
      ((List.range' i ls.length).map Node.inner).foldl (Nodes.addNode Node.kind) r.1.toNodes ∧
    (addInner ls i r).1.succ = r.1.succ ∧ (addInner ls i r).1.pred = r.1.pred := by
  induction ls generalizing i r with
  | nil => simp [addInner]
  | cons bs ls ih =>
    obtain ⟨s, m⟩ := r
    rw [addInner]
    obtain ⟨h1, h2, h3⟩ := ih (i + 1) (s.addNode (.inner i), bs.foldl (fun m b => m.put b (.inner i)) m)
    refine ⟨?_, by rw [h2]; rfl, by rw [h3]; rfl⟩
    rw [h1, List.length_cons, List.range'_succ, List.map_cons, List.foldl_cons]
    rfl

theorem addBlocks_nodes (bs : List B) (r : State B × Blocks B) :
    (∃ bl : List B, (addBlocks bs r).1.toNodes =
      (bl.map Node.block).foldl (Nodes.addNode Node.kind) r.1.toNodes ∧ bl.Nodup ∧
      ∀ b, b ∈ bl ↔ b ∈ bs ∧ r.2.find b = none) ∧
    (addBlocks bs r).1.succ = r.1.succ ∧ (addBlocks bs r).1.pred = r.1.pred := by
  induction bs generalizing r with
  | nil => exact ⟨⟨[], by simp [addBlocks]⟩, rfl, rfl⟩
  | cons a bs ih =>
    obtain ⟨s, m⟩ := r
    rw [addBlocks]
    split
    · rename_i h
      obtain ⟨⟨bl, h1, h2, h3⟩, h4⟩ := ih (s, m)
      refine ⟨⟨bl, h1, h2, fun b => ?_⟩, h4⟩
      rw [h3, List.mem_cons]
      by_cases hb : b = a
      · subst hb
        obtain ⟨x, hx⟩ := Option.isSome_iff_exists.1 h
        simp [hx]
      · simp [hb]
    · rename_i h
      have hn : m.find a = none := by simpa using h
      obtain ⟨⟨bl, h1, h2, h3⟩, h4, h5⟩ := ih (s.addNode (.block a), m.put a (.block a))
      refine ⟨⟨a :: bl, by rw [h1]; rfl, ?_, fun b => ?_⟩, by rw [h4]; rfl, by rw [h5]; rfl⟩
      · rw [List.nodup_cons]
        refine ⟨fun hb => ?_, h2⟩
        have := ((h3 a).1 hb).2
        rw [find_put] at this
        simp [hn] at this
      · rw [List.mem_cons, h3, List.mem_cons]
        simp only [find_put]
        by_cases hb : b = a
        · subst hb; simp [hn]
        · have : ¬ a = b := fun h => hb h.symm
          simp [hb, this]

/-- Nodes which are added before edges. -/
theorem collect_nodes (L : Lp B) :
    (∃ bl : List B, (collect L).1.toNodes = addAll Node.kind
      (.entry :: ((List.range L.inner.length).map Node.inner ++ bl.map Node.block ++ [.exit])) ∧ bl.Nodup ∧
      ∀ b, b ∈ bl ↔ Rep L b (.block b)) ∧
    (collect L).1.succ = (fun _ => []) ∧ (collect L).1.pred = (fun _ => []) := by
  unfold collect
  simp only
  generalize hs : ({ Nodes.init with succ := fun _ => [], pred := fun _ => [] } : State B) = s
  obtain ⟨i1, i2, i3⟩ := addInner_nodes L.inner 0 (s.addNode .entry, [])
  obtain ⟨⟨bl, b1, b2, b3⟩, b4, b5⟩ := addBlocks_nodes L.blocks (addInner L.inner 0 (s.addNode .entry, []))
  refine ⟨⟨bl, ?_, b2, fun b => ?_⟩, ?_, ?_⟩
  · change Nodes.addNode Node.kind (addBlocks L.blocks (addInner L.inner 0 (s.addNode .entry, []))).1.toNodes .exit = _
    rw [b1, i1, List.range_eq_range', ← hs]
    simp only [addAll, List.foldl_cons, List.foldl_append, List.foldl_nil]
    rfl
  · rw [b3, addInner_find, find_nil, Option.none_or, firstInner_none]
    simp [Rep]
  · change (addBlocks L.blocks (addInner L.inner 0 (s.addNode .entry, []))).1.succ = _
    rw [b4, i2, ← hs]
    rfl
  · change (addBlocks L.blocks (addInner L.inner 0 (s.addNode .entry, []))).1.pred = _
    rw [b5, i3, ← hs]
    rfl

end Region
end Tsar
