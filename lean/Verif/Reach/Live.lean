import Verif.Reach.Props

/-!
# Live memory (C21)
-/

namespace Tsar.Reach

open Tsar.Range Tsar.MemSet Tsar.DFValue Tsar.DataFlow

variable {N : Type} [DecidableEq N]

set_option linter.unusedSectionVars false

theorem exposed_append {t u : Trace} {p : Option Nat} {b : Nat} (h : Exposed (t ++ u) p b) :
    Exposed t p b ∨ (¬ Written t p b ∧ Exposed u p b) := by
  obtain ⟨t1, t2, he, hn⟩ := h
  rcases List.append_eq_append_iff.1 he with ⟨as, h1, h2⟩ | ⟨bs, h1, h2⟩
  · refine .inr ⟨fun h => hn ?_, as, t2, h2, fun h => hn ?_⟩
    · rw [h1]; exact List.mem_append_left _ h
    · rw [h1]; exact List.mem_append_right _ h
  · cases bs with
    | nil =>
      simp only [List.append_nil] at h1
      simp only [List.nil_append] at h2
      subst h1
      exact .inr ⟨hn, [], t2, by simp [h2], by simp [Written]⟩
    | cons x bs =>
      simp only [List.cons_append, List.cons.injEq] at h2
      obtain ⟨rfl, h2⟩ := h2
      exact .inl ⟨t1, bs, h1, hn⟩

theorem exposed_append_left {t u : Trace} {p : Option Nat} {b : Nat} (h : Exposed t p b) :
    Exposed (t ++ u) p b := by
  obtain ⟨t1, t2, rfl, hn⟩ := h
  exact ⟨t1, t2 ++ u, by simp, hn⟩

theorem exposed_nil {p : Option Nat} {b : Nat} : ¬ Exposed [] p b := by
  rintro ⟨t1, t2, h, -⟩; simp at h

theorem eqSet_nil {s : MSet} (h : MemSet.eqSet [] s = true) : s = [] := by
  simp only [eqSet, List.length_nil, List.all_nil, Bool.and_true, decide_eq_true_eq] at h
  exact List.eq_nil_of_length_eq_zero h.symm

theorem liveTransfer_top (S : Solver) (R : Region N) (n : N) (out : MSet) :
    (liveTransfer S R n out []).1 = if n = R.entry then (MemSet.insertAll [] (allLocs out)).1
      else newIn S (R.du n) out := by
  unfold liveTransfer
  split
  · split
    · rfl
    · next h => rw [eqSet_nil (s := out) (by simpa using h)]; rfl
  · simp only
    split
    · rfl
    · next h => exact (eqSet_nil (by simpa using h)).symm

theorem newIn_bytes (ob : Option Nat → Obj) {S : Solver} (hS : SolverOK S) {du : DefUse}
    (hd : du.Wf ob) {out : MSet} (ho : SetWf ob out) :
    SetWf ob (newIn S du out) ∧ ∀ p b, SetByte du.uses p b ∨
      (SetByte out p b ∧ ¬ SetByte du.defs p b) → SetByte (newIn S du out) p b := by
  obtain ⟨a1, a2, -⟩ := insertAll_spec (s := []) (setWf_nil ob) (allLocs_wf hd.uses)
  obtain ⟨b1, b2, -⟩ := insertAll_spec (ls := (allLocs out).filter fun l =>
    !MemSet.contain S du.defs l) a1 fun l hl => allLocs_wf ho l (List.mem_filter.1 hl).1
  refine ⟨b1, ?_⟩
  rintro p b (h | ⟨h1, h2⟩)
  · exact (b2 p b).2 (.inl ((a2 p b).2 (.inr (setByte_all.1 h))))
  · refine (b2 p b).2 (.inr ?_)
    obtain ⟨l, hl, hp, hr⟩ := setByte_all.1 h1
    refine ⟨l, List.mem_filter.2 ⟨hl, ?_⟩, hp, hr⟩
    cases hc : MemSet.contain S du.defs l with
    | false => rfl
    | true =>
      subst hp
      exact absurd (contain_sound ob S hS _ l hd.defs (allLocs_wf ho l hl) hc b hr) h2

theorem liveBefore_bytes (ob : Option Nat → Obj) (S : Solver) (R : Region N) (inn out : MSet)
    (s : N → MSet) (n : N) (h : ∀ c ∈ R.succs n, SetWf ob (s c)) :
    SetWf ob ((liveFrame S R inn out).before s n) ∧
    ∀ p b, SetByte ((liveFrame S R inn out).before s n) p b ↔ ∃ c ∈ R.succs n, SetByte (s c) p b := by
  have key : ∀ (l : List N) (acc : MSet), SetWf ob acc → (∀ c ∈ l, SetWf ob (s c)) →
      SetWf ob (l.foldl (fun acc c => (MemSet.insertAll acc (allLocs (s c))).1) acc) ∧
      ∀ p b, SetByte (l.foldl (fun acc c => (MemSet.insertAll acc (allLocs (s c))).1) acc) p b ↔
        SetByte acc p b ∨ ∃ c ∈ l, SetByte (s c) p b := by
    intro l
    induction l with
    | nil => intro acc ha _; exact ⟨ha, by simp⟩
    | cons m l ih =>
      intro acc ha hl
      obtain ⟨a1, a2, -⟩ := insertAll_spec ha (allLocs_wf (hl m List.mem_cons_self))
      obtain ⟨i1, i2⟩ := ih _ a1 fun c hc => hl c (List.mem_cons_of_mem _ hc)
      refine ⟨i1, fun p b => ?_⟩
      rw [List.foldl_cons, i2, a2, ← setByte_all]
      simp [or_assoc]
  obtain ⟨h1, h2⟩ := key (R.succs n) [] (setWf_nil ob) h
  refine ⟨h1, fun p b => ?_⟩
  have := h2 p b
  simp only [setByte_nil, false_or] at this
  exact this

theorem liveBoundary_bytes (ob : Option Nat → Obj) {inn out : MSet} (hi : SetWf ob inn)
    (ho : SetWf ob out) : SetWf ob (liveBoundary inn out) ∧
    ∀ p b, SetByte (liveBoundary inn out) p b ↔ SetByte inn p b ∨ SetByte out p b := by
  obtain ⟨a1, a2, -⟩ := insertAll_spec (s := []) (setWf_nil ob) (allLocs_wf hi)
  obtain ⟨b1, b2, -⟩ := insertAll_spec a1 (allLocs_wf ho)
  refine ⟨b1, fun p b => ?_⟩
  unfold liveBoundary
  rw [b2, a2, ← setByte_all, ← setByte_all]
  simp [setByte_nil]

theorem ExecFrom.reach {R : Region N} {T : N → Trace → Prop} {all : List N}
    (ha : AcyclicBack R all) {n : N} {t : Trace} (h : ExecFrom R T n t) :
    Graph.Reach R.preds R.exit n := by
  induction h with
  | exit => exact .refl
  | node _ hm _ _ ih => exact ih.tail ((ha.inverse _ _).1 hm)
  | entry _ hm ih => exact ih.tail ((ha.inverse _ _).1 hm)

/-- Each byte read before it is written on some execution which starts in a node and which leaves the
region is in the set of the node. The part of the execution outside of the region may read bytes of the
sets `inn` and `out` only. -/
theorem solve_live (ob : Option Nat → Obj) {S : Solver} (hS : SolverOK S) (R : Region N)
    (all : List N) (ha : AcyclicBack R all) (hw : ∀ n, (R.du n).Wf ob) (T : N → Trace → Prop)
    (hT : ∀ n u, T n u → Fits (R.du n) u) (inn out : MSet) (hi : SetWf ob inn) (ho : SetWf ob out)
    (s0 : N → MSet) :
    ∃ s, (liveFrame S R inn out).solve all.length s0 = some s ∧
      (∀ n, Graph.Reach R.preds R.exit n → SetWf ob (s n)) ∧
      ∀ n t u, ExecFrom R T n t → (∀ p b, Exposed u p b → SetByte inn p b ∨ SetByte out p b) →
        ∀ p b, Exposed (t ++ u) p b → SetByte (s n) p b := by
  rw [solve_topological (liveFrame S R inn out) ha.exit]
  obtain ⟨ns, s, h1, h2, h3, h4⟩ := topological_equations (liveFrame S R inn out)
    (fun a b => (ha.inverse b a).symm) all ha.reach ha.acyclic s0
  obtain ⟨bw, bb⟩ := liveBoundary_bytes ob hi ho
  have eqn : ∀ n, n ≠ R.exit → Graph.Reach R.preds R.exit n →
      s n = (liveTransfer S R n ((liveFrame S R inn out).before s n) []).1 := fun n hn hr =>
    h4 n ((h2 n).2 ⟨hn, hr⟩)
  have wf : ∀ n, Graph.Reach R.preds R.exit n → SetWf ob (s n) := by
    refine acyclic_induction (liveFrame S R inn out) (fun a b => (ha.inverse b a).symm) all ha.reach
      ha.acyclic ha.succ _ ?_ ?_
    · rw [h3]; exact bw
    · intro n hn hr ih
      have hb := (liveBefore_bytes ob S R inn out s n ih).1
      rw [eqn n hn hr, liveTransfer_top]
      split
      · exact (insertAll_spec (setWf_nil ob) (allLocs_wf hb)).1
      · exact (newIn_bytes ob hS (hw n) hb).1
  refine ⟨s, h1, wf, ?_⟩
  intro n t u h hu
  induction h with
  | exit =>
    intro p b hb
    have : s R.exit = liveBoundary inn out := h3
    rw [this, bb]
    exact hu p b (by simpa using hb)
  | @node m n t v hm hmn hne hv ih =>
    intro p b hb
    have hnr := (hm.reach ha).tail ((ha.inverse _ _).1 hmn)
    have hnex : n ≠ R.exit := by rintro rfl; rw [ha.exit] at hmn; simp at hmn
    obtain ⟨b1, b2⟩ := liveBefore_bytes ob S R inn out s n fun c hc => wf c (ha.succ _ _ hnr hc)
    rw [eqn n hnex hnr, liveTransfer_top, if_neg hne]
    refine (newIn_bytes ob hS (hw n) b1).2 p b ?_
    rw [List.append_assoc] at hb
    rcases exposed_append hb with h | ⟨h', h⟩
    · exact .inl ((hT n v hv).uses p b h)
    · exact .inr ⟨(b2 p b).2 ⟨m, hmn, ih p b h⟩, fun hd => h' ((hT n v hv).defs p b hd)⟩
  | @entry m t hm hmn ih =>
    intro p b hb
    have hnr := (hm.reach ha).tail ((ha.inverse _ _).1 hmn)
    have hnex : R.entry ≠ R.exit := by
      intro h; rw [h, ha.exit] at hmn; simp at hmn
    obtain ⟨b1, b2⟩ := liveBefore_bytes ob S R inn out s R.entry fun c hc =>
      wf c (ha.succ _ _ hnr hc)
    rw [eqn _ hnex hnr, liveTransfer_top, if_pos rfl]
    obtain ⟨-, a2, -⟩ := insertAll_spec (s := []) (setWf_nil ob) (allLocs_wf b1)
    exact (a2 p b).2 (.inr (setByte_all.1 ((b2 p b).2 ⟨m, hmn, ih p b hb⟩)))

/-- C21. Live memory computed for a finite region without cycles: if no byte of the location is live
before a node then each execution from this node to the exit of the region and after it does not read
a byte of this location before it writes this byte. It is supposed that def-use sets of nodes summarise
their executions and that all bytes which are read before they are written after the region are live
before or after the region. -/
theorem live_acyclic_partial (ob : Option Nat → Obj) (S : Solver) (hS : SolverOK S) (R : Region N)
    (all : List N) (ha : AcyclicBack R all) (hw : ∀ n, (R.du n).Wf ob) (T : N → Trace → Prop)
    (hT : ∀ n u, T n u → Fits (R.du n) u) (inn out : MSet) (hi : SetWf ob inn) (ho : SetWf ob out)
    (s0 : N → MSet) :
    ∃ s, (liveFrame S R inn out).solve all.length s0 = some s ∧
      ∀ n t u loc, ExecFrom R T n t → WfLoc (ob loc.ptr) loc →
        (∀ p b, Exposed u p b → SetByte inn p b ∨ SetByte out p b) →
        MemSet.overlap S (s n) loc = false →
        ∀ b, MemSet.Reach loc b → ¬ Exposed (t ++ u) loc.ptr b := by
  obtain ⟨s, h1, h2, h3⟩ := solve_live ob hS R all ha hw T hT inn out hi ho s0
  refine ⟨s, h1, fun n t u loc ht hl hu hov b hb he => ?_⟩
  exact overlap_sound ob S hS _ loc (h2 n (ht.reach ha)) hl hov b hb (h3 n t u ht hu _ _ he)

theorem expand_fields (R : Region N) : (expand R).entry = R.entry ∧ (expand R).exit = R.exit ∧
    (expand R).du = R.du ∧ ∀ n m, m ∈ R.succs n → m ∈ (expand R).succs n := by
  unfold expand
  split
  · exact ⟨rfl, rfl, rfl, fun _ _ h => h⟩
  · refine ⟨rfl, rfl, rfl, fun n m h => ?_⟩
    simp only
    split
    · exact List.mem_append_left _ h
    · exact h

theorem until_exit {R : Region N} {T : N → Trace → Prop} {n : N} {t : Trace}
    (h : ExecUntil R T R.exit n t) : ExecFrom (expand R) T n t := by
  obtain ⟨e1, e2, -, e4⟩ := expand_fields R
  induction h with
  | stop => rw [← e2]; exact .exit
  | node _ hk hne hu ih => exact .node ih (e4 _ _ hk) (by rw [e1]; exact hne) hu

theorem until_latch {R : Region N} {T : N → Trace → Prop} {l : N} (hl : R.latch = some l)
    (hle : l ≠ R.entry) (hT : T l []) {n : N} {t : Trace} (h : ExecUntil R T l n t) :
    ExecFrom (expand R) T n t := by
  obtain ⟨e1, e2, -, e4⟩ := expand_fields R
  induction h with
  | stop =>
    refine ExecFrom.node (u := []) (m := (expand R).exit) (t := []) .exit ?_ (by rw [e1]; exact hle) hT
    rw [e2]
    unfold expand
    rw [hl]
    simp [addAdjacent]
  | node _ hk hne hu ih => exact .node ih (e4 _ _ hk) (by rw [e1]; exact hne) hu

/-- C21. Live memory inside of a loop. Let `du` be the def-use set of the loop and let `du.uses`
contain all bytes which obtain values from the outside of the loop on its executions. Let `out` be
live after the loop. An execution starts in a node of the loop. Either it comes to the exit or it comes
to the latch and executes any number of further iterations up to the exit. Then it continues as `u`. If
no byte of the location is live in the node then this execution does not read a byte of the location
before it writes this byte. -/
theorem live_loop_partial (ob : Option Nat → Obj) (S : Solver) (hS : SolverOK S) (R : Region N)
    (all : List N) (ha : AcyclicBack (expand R) all) (hw : ∀ n, (R.du n).Wf ob)
    (T : N → Trace → Prop) (hT : ∀ n u, T n u → Fits (R.du n) u)
    (hl : ∀ l, R.latch = some l → l ≠ R.entry ∧ T l []) (du : DefUse) (hd : du.Wf ob)
    (hdu : ∀ k t, Whole R T k t → ∀ p b, Exposed t p b → SetByte du.uses p b)
    (out : MSet) (ho : SetWf ob out) (s0 : N → MSet) :
    ∃ s, (liveFrame S (expand R) (newIn S du out) out).solve all.length s0 = some s ∧
      ∀ n t w u loc, (ExecUntil R T R.exit n t ∧ w = [] ∨
          ∃ l k, R.latch = some l ∧ ExecUntil R T l n t ∧ Whole R T k w) →
        WfLoc (ob loc.ptr) loc → (∀ p b, Exposed u p b → SetByte out p b) →
        MemSet.overlap S (s n) loc = false →
        ∀ b, MemSet.Reach loc b → ¬ Exposed (t ++ (w ++ u)) loc.ptr b := by
  obtain ⟨-, -, hdu', -⟩ := expand_fields R
  obtain ⟨s, h1, h2⟩ := live_acyclic_partial ob S hS (expand R) all ha (by rw [hdu']; exact hw) T
    (by rw [hdu']; exact hT) (newIn S du out) out (newIn_bytes ob hS hd ho).1 ho s0
  refine ⟨s, h1, fun n t w u loc hrun hl' hu => ?_⟩
  rcases hrun with ⟨ht, rfl⟩ | ⟨l, k, hlat, ht, hk⟩
  · exact h2 n t _ loc (until_exit ht) hl' fun p b hb => .inr (hu p b (by simpa using hb))
  · refine h2 n t _ loc (until_latch hlat (hl l hlat).1 (hl l hlat).2 ht) hl' fun p b hb => ?_
    rcases exposed_append hb with h | ⟨-, h⟩
    · exact .inl ((newIn_bytes ob hS hd ho).2 p b (.inl (hdu k w hk p b h)))
    · exact .inr (hu p b h)

end Tsar.Reach
