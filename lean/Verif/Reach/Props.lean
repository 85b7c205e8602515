import Verif.Reach.Hints
import Verif.DFValue.Props
import Verif.DataFlow.Props

/-!
# Reaching definitions (C20)
-/

namespace Tsar.Reach

open Tsar.Range Tsar.MemSet Tsar.DFValue Tsar.DataFlow

variable {N : Type} [DecidableEq N]

set_option linter.unusedSectionVars false

/-- Well-formed data-flow values. -/
def Info.Wf (ob : Option Nat → Obj) (i : Info) : Prop := i.must.Wf ob ∧ i.may.Wf ob

theorem top_wf (ob : Option Nat → Obj) : Info.top.Wf ob := ⟨trivial, setWf_nil ob⟩

theorem boundary_wf (ob : Option Nat → Obj) : Info.boundary.Wf ob := ⟨setWf_nil ob, setWf_nil ob⟩

theorem empty_byte (p : Option Nat) (b : Nat) : ¬ Val.empty.Byte p b := setByte_nil

theorem meet_sound (ob : Option Nat → Obj) {S : Solver} (hS : SolverOK S) {x acc : Info}
    (hx : x.Wf ob) (ha : acc.Wf ob) :
    (Info.meet S x acc).Wf ob ∧
    (∀ p b, (Info.meet S x acc).must.Byte p b → x.must.Byte p b ∧ acc.must.Byte p b) ∧
    (∀ p b, (Info.meet S x acc).may.Byte p b ↔ x.may.Byte p b ∨ acc.may.Byte p b) := by
  obtain ⟨h1, h2⟩ := intersect_sound ob S hS acc.must x.must ha.1 hx.1
  obtain ⟨h3, h4, -⟩ := DFValue.merge_exact ob acc.may x.may ha.2 hx.2
  exact ⟨⟨h1, h3⟩, fun p b h => (h2 p b h).symm, fun p b => (h4 p b).trans or_comm⟩

theorem before_sound (ob : Option Nat → Obj) {S : Solver} (hS : SolverOK S) (R : Region N)
    (s : N → Info) (n : N) (h : ∀ c ∈ R.preds n, (s c).Wf ob) :
    ((reachFrame S R).before s n).Wf ob ∧
    ∀ c ∈ R.preds n,
      (∀ p b, ((reachFrame S R).before s n).must.Byte p b → (s c).must.Byte p b) ∧
      (∀ p b, (s c).may.Byte p b → ((reachFrame S R).before s n).may.Byte p b) := by
  have key : ∀ (l : List N) (acc : Info), acc.Wf ob → (∀ c ∈ l, (s c).Wf ob) →
      (l.foldl (fun acc c => Info.meet S (s c) acc) acc).Wf ob ∧
      ((∀ p b, (l.foldl (fun acc c => Info.meet S (s c) acc) acc).must.Byte p b →
          acc.must.Byte p b) ∧
        (∀ p b, acc.may.Byte p b →
          (l.foldl (fun acc c => Info.meet S (s c) acc) acc).may.Byte p b)) ∧
      ∀ c ∈ l,
        (∀ p b, (l.foldl (fun acc c => Info.meet S (s c) acc) acc).must.Byte p b →
          (s c).must.Byte p b) ∧
        (∀ p b, (s c).may.Byte p b →
          (l.foldl (fun acc c => Info.meet S (s c) acc) acc).may.Byte p b) := by
    intro l
    induction l with
    | nil => intro acc ha _; exact ⟨ha, ⟨fun _ _ h => h, fun _ _ h => h⟩, by simp⟩
    | cons m l ih =>
      intro acc ha hl
      obtain ⟨m1, m2, m3⟩ := meet_sound ob hS (hl m List.mem_cons_self) ha
      obtain ⟨i1, ⟨i2, i3⟩, i4⟩ := ih _ m1 fun c hc => hl c (List.mem_cons_of_mem _ hc)
      refine ⟨i1, ⟨fun p b h => (m2 p b (i2 p b h)).2, fun p b h => i3 p b ((m3 p b).2 (.inr h))⟩,
        fun c hc => ?_⟩
      rcases List.mem_cons.1 hc with rfl | hc
      · exact ⟨fun p b h => (m2 p b (i2 p b h)).1, fun p b h => i3 p b ((m3 p b).2 (.inl h))⟩
      · exact i4 c hc
  obtain ⟨h1, -, h3⟩ := key (R.preds n) .top (top_wf ob) h
  exact ⟨h1, h3⟩

theorem before_noHint {ob : Option Nat → Obj} {S : Solver} (hS : SolverOK S) (R : Region N)
    (s : N → Info) (n : N) (h : ∀ c ∈ R.preds n, (s c).Wf ob)
    (hn : ∀ c ∈ R.preds n, ValNoHint (s c).must) :
    ValNoHint ((reachFrame S R).before s n).must := by
  have key : ∀ (l : List N) (acc : Info), acc.Wf ob → (∀ c ∈ l, (s c).Wf ob) →
      ValNoHint acc.must → (∀ c ∈ l, ValNoHint (s c).must) →
      ValNoHint (l.foldl (fun acc c => Info.meet S (s c) acc) acc).must := by
    intro l
    induction l with
    | nil => intro acc _ _ h _; exact h
    | cons m l ih =>
      intro acc ha hl hacc hls
      exact ih _ (meet_sound ob hS (hl m List.mem_cons_self) ha).1
        (fun c hc => hl c (List.mem_cons_of_mem _ hc))
        (val_intersect_noHint hS ha.1 (hl m List.mem_cons_self).1 hacc (hls m List.mem_cons_self))
        fun c hc => hls c (List.mem_cons_of_mem _ hc)
  exact key (R.preds n) .top (top_wf ob) h trivial hn

theorem newOut_bytes (ob : Option Nat → Obj) (du : DefUse) (hd : du.Wf ob) (inn : Info)
    (hi : inn.Wf ob) :
    (newOut du inn).Wf ob ∧
    (∀ p b, (newOut du inn).must.Byte p b ↔ SetByte du.defs p b ∨ inn.must.Byte p b) ∧
    (∀ p b, (newOut du inn).may.Byte p b ↔
      (SetByte du.defs p b ∨ SetByte du.mayDefs p b) ∨ inn.may.Byte p b) := by
  obtain ⟨a1, a2, -⟩ := insertAll_exact ob .empty (allLocs du.defs) (setWf_nil ob)
    (allLocs_wf hd.defs)
  obtain ⟨b1, b2, -⟩ := DFValue.merge_exact ob _ inn.must a1 hi.1
  obtain ⟨c1, c2, -⟩ := insertAll_exact ob _ (allLocs du.mayDefs) a1 (allLocs_wf hd.mayDefs)
  obtain ⟨d1, d2, -⟩ := DFValue.merge_exact ob _ inn.may c1 hi.2
  have e : ∀ p b, (Val.empty.insertAll (allLocs du.defs)).1.Byte p b ↔ SetByte du.defs p b := by
    intro p b; rw [a2, setByte_all]; simp [empty_byte]
  refine ⟨⟨b1, d1⟩, fun p b => ?_, fun p b => ?_⟩
  · exact (b2 p b).trans (by rw [e])
  · refine (d2 p b).trans ?_
    rw [c2, e, setByte_all (s := du.mayDefs)]

theorem full_eq {v : Val} (h : Val.full.eq v = true) : v = .full := by
  cases v with
  | full => rfl
  | mask s => simp [Val.eq] at h

theorem empty_eq {v : Val} (h : Val.empty.eq v = true) : v = .empty := by
  cases v with
  | full => simp [Val.eq, Val.empty] at h
  | mask s =>
    simp only [Val.eq, Val.empty, eqSet, List.length_nil, List.all_nil, Bool.and_true,
      decide_eq_true_eq] at h
    rw [List.eq_nil_of_length_eq_zero h.symm]; rfl

theorem top_eq {i : Info} (h : (!(Info.top.must.eq i.must) || !(Info.top.may.eq i.may)) = false) :
    i = .top := by
  simp only [Bool.or_eq_false_iff, Bool.not_eq_false'] at h
  obtain ⟨m, y⟩ := i
  have h1 := full_eq h.1
  have h2 := empty_eq h.2
  simp only at h1 h2
  rw [h1, h2]; rfl

/-- If a node has not been evaluated yet then the new value is stored. -/
theorem transfer_top (R : Region N) (n : N) (inn : Info) :
    (n ≠ R.exit → (transfer R n inn .top).1 = newOut (R.du n) inn) ∧
    (n = R.exit → (transfer R n inn .top).1 = ⟨inn.must.copy, inn.may.copy⟩ ∨
      (transfer R n inn .top).1 = inn) := by
  constructor
  · intro hn
    unfold transfer
    rw [if_neg hn]
    simp only
    split
    · rfl
    · next h => exact (top_eq (by simpa using h)).symm
  · intro hn
    unfold transfer
    rw [if_pos hn]
    split
    · exact .inl rfl
    · next h => exact .inr (top_eq (by simpa using h)).symm

/-- Values computed for all nodes which are reachable from the entry are correct: must defined bytes
are written by all executions and all written bytes are may defined. -/
structure Correct (ob : Option Nat → Obj) (R : Region N) (T : N → Trace → Prop) (s : N → Info) :
    Prop where
  wf : ∀ n, Graph.Reach R.succs R.entry n → (s n).Wf ob
  must : ∀ n t, Exec R T n t → ∀ p b, (s n).must.Byte p b → Written t p b
  may : ∀ n t, Exec R T n t → ∀ p b, Written t p b → (s n).may.Byte p b
  noHint : (∀ n, NoHint (R.du n).defs) → ∀ n, Graph.Reach R.succs R.entry n → ValNoHint (s n).must

theorem Exec.reach {R : Region N} {T : N → Trace → Prop} {all : List N} (ha : Acyclic R all) {n : N}
    {t : Trace} (h : Exec R T n t) : Graph.Reach R.succs R.entry n := by
  induction h with
  | entry => exact .refl
  | node _ hm _ _ ih => exact ih.tail ((ha.inverse _ _).2 hm)
  | exit _ hm ih => exact ih.tail ((ha.inverse _ _).2 hm)

theorem solve_correct (ob : Option Nat → Obj) {S : Solver} (hS : SolverOK S) (R : Region N)
    (all : List N) (ha : Acyclic R all) (hw : ∀ n, (R.du n).Wf ob) (T : N → Trace → Prop)
    (hT : ∀ n u, T n u → Fits (R.du n) u) (s0 : N → Info) :
    ∃ s, (reachFrame S R).solve all.length s0 = some s ∧ Correct ob R T s := by
  rw [solve_topological (reachFrame S R) ha.entry]
  obtain ⟨ns, s, h1, h2, h3, h4⟩ := topological_equations (reachFrame S R) ha.inverse all ha.reach
    ha.acyclic s0
  refine ⟨s, h1, ?_⟩
  have copyWf : ∀ {i : Info}, i.Wf ob →
      (⟨i.must.copy, i.may.copy⟩ : Info).Wf ob ∧ (∀ p b, i.must.copy.Byte p b ↔ i.must.Byte p b) ∧
      ∀ p b, i.may.copy.Byte p b ↔ i.may.Byte p b := fun hi =>
    ⟨⟨(copy_exact ob _ hi.1).1, (copy_exact ob _ hi.2).1⟩, (copy_exact ob _ hi.1).2,
      (copy_exact ob _ hi.2).2⟩
  have eqn : ∀ n, n ≠ R.entry → Graph.Reach R.succs R.entry n →
      s n = (transfer R n ((reachFrame S R).before s n) .top).1 := fun n hn hr =>
    h4 n ((h2 n).2 ⟨hn, hr⟩)
  -- all values are well-formed
  have wf : ∀ n, Graph.Reach R.succs R.entry n → (s n).Wf ob := by
    refine acyclic_induction (reachFrame S R) ha.inverse all ha.reach ha.acyclic ha.pred _ ?_ ?_
    · rw [h3]; exact boundary_wf ob
    · intro n hn hr ih
      have hb := (before_sound ob hS R s n ih).1
      rw [eqn n hn hr]
      by_cases he : n = R.exit
      · rcases (transfer_top R n _).2 he with h | h <;> rw [h]
        · exact (copyWf hb).1
        · exact hb
      · rw [(transfer_top R n _).1 he]
        exact (newOut_bytes ob _ (hw n) _ hb).1
  have exitBytes : Graph.Reach R.succs R.entry R.exit → R.exit ≠ R.entry →
      (∀ p b, (s R.exit).must.Byte p b ↔ ((reachFrame S R).before s R.exit).must.Byte p b) ∧
      ∀ p b, (s R.exit).may.Byte p b ↔ ((reachFrame S R).before s R.exit).may.Byte p b := by
    intro hr hne
    have hb := (before_sound ob hS R s R.exit fun c hc => wf c (ha.pred _ _ hr hc)).1
    rw [eqn _ hne hr]
    rcases (transfer_top R R.exit ((reachFrame S R).before s R.exit)).2 rfl with h | h <;> rw [h]
    · exact (copyWf hb).2
    · exact ⟨fun _ _ => Iff.rfl, fun _ _ => Iff.rfl⟩
  have main : ∀ n t, Exec R T n t →
      (∀ p b, (s n).must.Byte p b → Written t p b) ∧ ∀ p b, Written t p b → (s n).may.Byte p b := by
    intro n t h
    induction h with
    | entry =>
      have : s R.entry = .boundary := h3
      rw [this]
      exact ⟨fun p b h => absurd h (empty_byte p b), fun p b h => by simp [Written] at h⟩
    | @node m n t u hm hmn hne hu ih =>
      have hmr := hm.reach ha
      have hnr := hmr.tail ((ha.inverse _ _).2 hmn)
      have hnent : n ≠ R.entry := by rintro rfl; rw [ha.entry] at hmn; simp at hmn
      obtain ⟨b1, b2⟩ := before_sound ob hS R s n fun c hc => wf c (ha.pred _ _ hnr hc)
      obtain ⟨-, o2, o3⟩ := newOut_bytes ob _ (hw n) _ b1
      rw [eqn n hnent hnr, (transfer_top R n _).1 hne]
      refine ⟨fun p b hb => ?_, fun p b hb => ?_⟩
      · rcases (o2 p b).1 hb with h | h
        · exact List.mem_append_right _ ((hT n u hu).defs p b h)
        · exact List.mem_append_left _ (ih.1 p b ((b2 m hmn).1 p b h))
      · rw [o3]
        rcases List.mem_append.1 hb with h | h
        · exact .inr ((b2 m hmn).2 p b (ih.2 p b h))
        · exact .inl ((hT n u hu).mayDefs p b h)
    | @exit m t hm hmn ih =>
      have hmr := hm.reach ha
      have hnr := hmr.tail ((ha.inverse _ _).2 hmn)
      have hnent : R.exit ≠ R.entry := by
        intro h; rw [h, ha.entry] at hmn; simp at hmn
      obtain ⟨-, b2⟩ := before_sound ob hS R s R.exit fun c hc => wf c (ha.pred _ _ hnr hc)
      obtain ⟨e1, e2⟩ := exitBytes hnr hnent
      exact ⟨fun p b hb => ih.1 p b ((b2 m hmn).1 p b ((e1 p b).1 hb)),
        fun p b hb => (e2 p b).2 ((b2 m hmn).2 p b (ih.2 p b hb))⟩
  refine ⟨wf, fun n t h => (main n t h).1, fun n t h => (main n t h).2, fun hh => ?_⟩
  refine acyclic_induction (reachFrame S R) ha.inverse all ha.reach ha.acyclic ha.pred _ ?_ ?_
  · rw [h3]; exact noHint_nil
  · intro n hn hr ih
    have hb := (before_sound ob hS R s n fun c hc => wf c (ha.pred _ _ hr hc)).1
    have hbn := before_noHint hS R s n (fun c hc => wf c (ha.pred _ _ hr hc)) ih
    rw [eqn n hn hr]
    by_cases he : n = R.exit
    · rcases (transfer_top R n _).2 he with h | h <;> rw [h]
      · exact val_copy_noHint hb.1 hbn
      · exact hbn
    · rw [(transfer_top R n _).1 he]
      have w := insertAll_exact ob .empty (allLocs (R.du n).defs) (setWf_nil ob)
        (allLocs_wf (hw n).defs)
      exact val_merge_noHint w.1 hb.1 (insertAll_noHint (setWf_nil ob) (allLocs_wf (hw n).defs)
        noHint_nil (hh n)) hbn

theorem before_correct (ob : Option Nat → Obj) {S : Solver} (hS : SolverOK S) (R : Region N)
    (all : List N) (ha : Acyclic R all) (T : N → Trace → Prop) (s : N → Info)
    (hc : Correct ob R T s) (n : N) (hr : Graph.Reach R.succs R.entry n) :
    ((reachFrame S R).before s n).Wf ob ∧ ∀ t, ExecTo R T n t →
      (∀ p b, ((reachFrame S R).before s n).must.Byte p b → Written t p b) ∧
      (∀ p b, Written t p b → ((reachFrame S R).before s n).may.Byte p b) := by
  obtain ⟨b1, b2⟩ := before_sound ob hS R s n fun c h => hc.wf c (ha.pred _ _ hr h)
  refine ⟨b1, ?_⟩
  rintro t ⟨m, hm, ht⟩
  exact ⟨fun p b h => hc.must m t ht p b ((b2 m hm).1 p b h),
    fun p b h => (b2 m hm).2 p b (hc.may m t ht p b h)⟩

/-- C20. Reaching definitions computed for a finite region without cycles. Let def-use sets of nodes
summarise executions of nodes. If the location `loc` is must defined before a node then all its bytes
are written by every execution which comes from the entry to this node. If the location is not may
defined then none of its bytes is written by these executions. -/
theorem reach_acyclic_partial (ob : Option Nat → Obj) (S : Solver) (hS : SolverOK S) (R : Region N)
    (all : List N) (ha : Acyclic R all) (hw : ∀ n, (R.du n).Wf ob) (T : N → Trace → Prop)
    (hT : ∀ n u, T n u → Fits (R.du n) u) (s0 : N → Info) :
    ∃ s, (reachFrame S R).solve all.length s0 = some s ∧
      ∀ n t loc, ExecTo R T n t → WfLoc (ob loc.ptr) loc →
        (((reachFrame S R).before s n).must.contain S loc = true →
          ∀ b, MemSet.Reach loc b → Written t loc.ptr b) ∧
        (((reachFrame S R).before s n).may.overlap S loc = false →
          ∀ b, MemSet.Reach loc b → ¬ Written t loc.ptr b) := by
  obtain ⟨s, h1, h2⟩ := solve_correct ob hS R all ha hw T hT s0
  refine ⟨s, h1, fun n t loc ht hl => ?_⟩
  have hr : Graph.Reach R.succs R.entry n := by
    obtain ⟨m, hm, ht⟩ := ht
    exact (ht.reach ha).tail ((ha.inverse _ _).2 hm)
  obtain ⟨b1, b2⟩ := before_correct ob hS R all ha T s h2 n hr
  obtain ⟨c1, c2, -⟩ := contain_overlap_sound ob S hS _ loc b1.1 hl
  obtain ⟨d1, d2, -⟩ := contain_overlap_sound ob S hS _ loc b1.2 hl
  exact ⟨fun h b hb => (b2 t ht).1 _ _ (c1 h b hb),
    fun h b hb hwr => d2 h b hb ((b2 t ht).2 _ _ hwr)⟩

end Tsar.Reach
