import Verif.PtrReg.Redundant
import Mathlib.Data.List.Nodup

/-!
# The transformed loop is in static single assignment form
-/

namespace Tsar.PtrReg

variable {R : Type} {l : Loop R} {used : Var → Bool} {k : Links} {h : H}

/-- The transformed loop for given results of the pass. -/
def prom (l : Loop R) (used : Var → Bool) (k : Links) (h : H) : Loop R :=
  { l with blk := fun b => promoteB used k h b (l.blk b) }

theorem prom_path {π : List Lab} {c : Lab} : Path (prom l used k h) π c ↔ Path l π c := by
  constructor
  · intro h
    induction h with
    | nil => exact .nil
    | snoc _ hb hc ih => exact .snoc ih hb hc
  · intro hp
    induction hp with
    | nil => exact .nil
    | snoc _ hb hc ih => exact .snoc (l := prom l used k h) ih hb hc

theorem prom_phis {b : Lab} : ((prom l used k h).blk b).phis.map Prod.fst =
    (l.blk b).phis.map Prod.fst ++ if k b = some b then [Var.ph b] else [] := by
  simp only [prom, promoteB]
  split <;> simp

theorem prom_res {σ : Var → Opd} (is : List (Inst R)) :
    (is.filterMap (promoteI used σ)).filterMap Inst.res =
      is.filterMap fun a => match a with
        | .load x => if used x then none else some x
        | .store _ => none
        | .other x _ _ => x := by
  rw [List.filterMap_filterMap]
  apply List.filterMap_congr
  intro a _
  cases a with
  | load x =>
    by_cases hu : used x = true <;> simp [promoteI, hu, Inst.res]
  | store => rfl
  | other => rfl

theorem prom_res_sub {σ : Var → Opd} (is : List (Inst R)) :
    ((is.filterMap (promoteI used σ)).filterMap Inst.res).Sublist (is.filterMap Inst.res) := by
  rw [prom_res]
  induction is with
  | nil => simp
  | cons a is ih =>
    cases a with
    | load x =>
      by_cases hu : used x = true
      · simp only [List.filterMap_cons, hu, if_true, Inst.res]
        exact ih.cons _
      · simp only [List.filterMap_cons, hu, Inst.res]
        exact ih.cons_cons _
    | store o =>
      simp only [List.filterMap_cons, Inst.res]
      exact ih
    | other x args f =>
      cases x with
      | none => simp only [List.filterMap_cons, Inst.res]; exact ih
      | some x => simp only [List.filterMap_cons, Inst.res]; exact ih.cons_cons _

theorem mem_prom_res {σ : Var → Opd} {b : Lab} (hb : b ∈ l.blocks) {is : List (Inst R)}
    (hi : ∀ a ∈ is, a ∈ (l.blk b).insts) {x : Var} (hx : x ∈ is.filterMap Inst.res)
    (hul : ¬ UL l used x) : x ∈ (is.filterMap (promoteI used σ)).filterMap Inst.res := by
  rw [prom_res, List.mem_filterMap]
  obtain ⟨a, ha, e⟩ := List.mem_filterMap.1 hx
  refine ⟨a, ha, ?_⟩
  cases a with
  | load y =>
    simp only [Inst.res, Option.some.injEq] at e
    subst e
    have : used y = false := by
      cases hu : used y with
      | false => rfl
      | true => exact absurd ⟨b, hb, hi _ ha, hu⟩ hul
    simp [this]
  | store => simp [Inst.res] at e
  | other => exact e

theorem prom_defs_of {b : Lab} {y : Var} (hy : y ∈ ((prom l used k h).blk b).defs) :
    y ∈ (l.blk b).defs ∨ (y = .ph b ∧ k b = some b) := by
  simp only [Blk.defs, List.mem_append, prom_phis] at hy ⊢
  rcases hy with (hy | hy) | hy
  · exact .inl (.inl hy)
  · split at hy
    · rename_i hk; exact .inr ⟨by simpa using hy, hk⟩
    · simp at hy
  · exact .inl (.inr ((prom_res_sub _).subset hy))

theorem prom_defs {b : Lab} (hb : b ∈ l.blocks) {y : Var} (hy : y ∈ (l.blk b).defs)
    (hul : ¬ UL l used y) : y ∈ ((prom l used k h).blk b).defs := by
  simp only [Blk.defs, List.mem_append, prom_phis] at hy ⊢
  rcases hy with hy | hy
  · exact .inl (.inl hy)
  · exact .inr (mem_prom_res hb (fun _ h => h) hy hul)

theorem prom_out (w : WF l used) {z : Var}
    (hz : ∀ c ∈ l.blocks, z ∉ (l.blk c).defs) (hv : ∀ r, z ≠ .ph r) :
    ∀ c ∈ (prom l used k h).blocks, z ∉ ((prom l used k h).blk c).defs := by
  intro c hc hm
  rcases prom_defs_of hm with h1 | h1
  · exact hz c hc h1
  · exact hv c h1.1

/-- An operand which is known in the original loop is known in the transformed one. -/
theorem prom_in (w : WF l used) {b : Lab} {n : Nat} (hul : ¬ UL l used (.v n))
    (ha : AvailIn l b (.v n)) : AvailIn (prom l used k h) b (.v n) := by
  rcases ha with ha | ha
  · exact .inl (prom_out w ha (by simp))
  · refine .inr fun π hπ => ?_
    have hπ' := prom_path.1 hπ
    obtain ⟨c, hc, hx⟩ := ha π hπ'
    exact ⟨c, hc, prom_defs (hπ'.blocks c hc) hx hul⟩

theorem prom_in_ph {b r : Lab} (hk : k r = some r) (hπ : ∀ π, Path l π b → r ∈ π) :
    AvailIn (prom l used k h) b (.ph r) := by
  refine .inr fun π hp => ⟨r, hπ π (prom_path.1 hp), ?_⟩
  simp [Blk.defs, List.mem_append, prom_phis, hk]

theorem prom_ld (w : WF l used) {b : Lab} : AvailIn (prom l used k h) b .ld := by
  refine .inl (prom_out w ?_ (by simp))
  intro c hc hm
  obtain ⟨n, e⟩ := w.names c hc _ hm
  simp at e

theorem AvI.prom (w : WF l used) {b : Lab} {z : Var} (ha : AvI l used k b (.var z)) :
    AvailIn (prom l used k h) b z := by
  obtain ⟨h1, h2⟩ := ha z rfl
  cases z with
  | ld => exact prom_ld w
  | ph r => exact prom_in_ph h2.1 h2.2.2
  | v n => exact prom_in w h1 h2.2

theorem AvO.prom (w : WF l used) {b : Lab} (hb : b ∈ l.blocks) {i j : Nat} {z : Var}
    (hj : ((PtrReg.prom l used k h).blk b).insts.take j =
      ((l.blk b).insts.take i).filterMap (promoteI used h.sub))
    (ha : AvO l used k b i (.var z)) : Avail (PtrReg.prom l used k h) b j z := by
  obtain ⟨h1, h2⟩ := ha z rfl
  cases z with
  | ld => exact .inl (prom_ld w)
  | ph r =>
    obtain ⟨a1, a2, a3⟩ := h2
    rcases a3 with rfl | a3
    · refine .inr (.inl ?_)
      rw [prom_phis, if_pos a1]
      simp
    · exact .inl (prom_in_ph a1 a3)
  | v n =>
    rcases h2.2 with h | h | h
    · exact .inl (prom_in w h1 h)
    · refine .inr (.inl ?_)
      rw [prom_phis, List.mem_append]
      exact .inl h
    · refine .inr (.inr ?_)
      rw [hj]
      exact mem_prom_res hb (fun a ha => List.mem_of_mem_take ha) h h1

theorem AvO.promEnd (w : WF l used) {b : Lab} (hb : b ∈ l.blocks) {z : Var}
    (ha : AvO l used k b (l.blk b).insts.length (.var z)) :
    AvailEnd (PtrReg.prom l used k h) b z := by
  rw [availEnd_iff]
  refine ha.prom w hb ?_
  rw [List.take_length, List.take_length]
  rfl

theorem getElem?_filterMap {α β : Type} {f : α → Option β} {as : List α} : ∀ {j : Nat} {y : β},
    (as.filterMap f)[j]? = some y → ∃ (i : Nat) (x : α), as[i]? = some x ∧ f x = some y ∧
      (as.filterMap f).take j = (as.take i).filterMap f := by
  induction as with
  | nil => intro j y h; simp at h
  | cons a as ih =>
    intro j y hj
    cases hf : f a with
    | none =>
      rw [List.filterMap_cons_none hf] at hj ⊢
      obtain ⟨i, x, h1, h2, h3⟩ := ih hj
      refine ⟨i + 1, x, by simpa using h1, h2, ?_⟩
      rw [h3, List.take_succ_cons, List.filterMap_cons_none hf]
    | some c =>
      rw [List.filterMap_cons_some hf] at hj ⊢
      cases j with
      | zero =>
        simp only [List.getElem?_cons_zero, Option.some.injEq] at hj
        subst hj
        exact ⟨0, a, rfl, hf, rfl⟩
      | succ j =>
        rw [List.getElem?_cons_succ] at hj
        obtain ⟨i, x, h1, h2, h3⟩ := ih hj
        refine ⟨i + 1, x, by simpa using h1, h2, ?_⟩
        rw [List.take_succ_cons, h3, List.take_succ_cons, List.filterMap_cons_some hf]

theorem prom_wf (r : Res l used k h) : GWF (prom l used k h) := by
  have w := r.wf
  have opd : ∀ {c : Lab}, c ∈ l.blocks → ∀ {i : Nat} {u : Opd},
      (Orig u fun n => used (.v n) = true ∧ Avail l c i (.v n)) → ∀ {z : Var},
      u.subst h.sub = .var z → AvO l used k c i (.var z) := by
    intro c hc i u hu z hz
    obtain ⟨y, rfl, e⟩ := subst_var hz
    obtain ⟨n, rfl, h1, h2⟩ := hu y rfl
    rw [← e]
    exact sub_av r hc h1 h2
  refine ⟨⟨w.header, w.pre, w.nodup, w.succs, ?_, ?_⟩, ?_, ?_, ?_, ?_⟩
  · intro c hc
    obtain ⟨π, hπ⟩ := w.reach c hc
    exact ⟨π, prom_path.2 hπ⟩
  · rw [List.nodup_flatMap]
    constructor
    · intro c hc
      have hnd := defs_nodup w.toBase hc
      simp only [Blk.defs, List.nodup_append] at hnd
      have hname : ∀ x ∈ (l.blk c).defs, ∃ n, x = .v n := w.names c hc
      simp only [Blk.defs, List.mem_append] at hname
      simp only [Blk.defs, prom_phis]
      rw [List.nodup_append]
      refine ⟨?_, hnd.2.1.sublist (prom_res_sub _), ?_⟩
      · split
        · rw [List.nodup_append]
          refine ⟨hnd.1, by simp, ?_⟩
          intro x hx y hy
          obtain ⟨n, rfl⟩ := hname x (.inl hx)
          simp only [List.mem_singleton] at hy
          subst hy
          simp
        · simpa using hnd.1
      · intro x hx y hy
        have hy' := (prom_res_sub _).subset hy
        rw [List.mem_append] at hx
        rcases hx with hx | hx
        · exact hnd.2.2 x hx y hy'
        · obtain ⟨n, rfl⟩ := hname y (.inr hy')
          split at hx
          · simp only [List.mem_singleton] at hx
            subst hx
            simp
          · simp at hx
    · refine w.nodup.pairwise_of_forall_ne ?_
      intro c hc d hd hne
      simp only [Function.onFun]
      intro x hx hy
      rcases prom_defs_of hx with h1 | h1 <;> rcases prom_defs_of hy with h2 | h2
      · exact hne (site w.toBase hc hd h1 h2)
      · obtain ⟨n, e⟩ := w.names c hc x h1
        rw [h2.1] at e; simp at e
      · obtain ⟨n, e⟩ := w.names d hd x h2
        rw [h1.1] at e; simp at e
      · have := h1.1.symm.trans h2.1
        simp only [Var.ph.injEq] at this
        exact hne this
  · intro p hp z hz
    simp only [prom, promoteB, List.mem_append, List.mem_map] at hp
    rcases hp with ⟨q, hq, rfl⟩ | hp
    · obtain ⟨y, hy, e⟩ := subst_var hz
      obtain ⟨n, rfl, -, hn⟩ := w.phiEntry q hq y hy
      rw [sub_notUL r (outer_notUL hn)] at e
      simp only [Opd.var.injEq] at e
      subst e
      exact prom_out w hn (by simp)
    · split at hp
      · simp only [List.mem_singleton] at hp
        subst hp
        change (h.last l.pre).getD (.const 0) = .var z at hz
        rw [r.inv.pre] at hz
        simp only [Option.getD_some, Opd.var.injEq] at hz
        subst hz
        refine prom_out w ?_ (by simp)
        intro c hc hm
        obtain ⟨n, e⟩ := w.names c hc _ hm
        simp at e
      · simp at hp
  · intro b hb c hc hs p hp z hz
    simp only [prom, promoteB, List.mem_append, List.mem_map] at hp
    rcases hp with ⟨q, hq, rfl⟩ | hp
    · refine AvO.promEnd w hc (opd hc (u := q.2 c) ?_ hz)
      intro y hy
      obtain ⟨n, h1, h2, h3⟩ := w.phiIn b hb c hc hs q hq y hy
      exact ⟨n, h1, h2, availEnd_iff.1 h3⟩
    · split at hp
      · simp only [List.mem_singleton] at hp
        subst hp
        change (h.last c).getD (.const 0) = .var z at hz
        rw [r.inv.last c hc (r.comp c hc)] at hz
        simp only [Option.getD_some] at hz
        refine AvO.promEnd w hc ?_
        rw [← hz]
        exact r.inv.av c hc (r.comp c hc) _ (Nat.le_refl _)
      · simp at hp
  · intro b hb j a ha z hz
    obtain ⟨i, x, h1, h2, h3⟩ := getElem?_filterMap ha
    refine AvO.prom w hb h3 ?_
    have hx := w.inst b hb i x h1
    cases x with
    | load y =>
      simp only [promoteI] at h2
      split at h2
      · simp at h2
      · simp only [Option.some.injEq] at h2
        subst h2
        simp [Inst.ops] at hz
    | store u => simp [promoteI] at h2
    | other y args f =>
      simp only [promoteI, Option.some.injEq] at h2
      subst h2
      simp only [Inst.ops, List.mem_map] at hz
      obtain ⟨u, hu, e⟩ := hz
      exact opd hb (hx u (by simpa [Inst.ops] using hu)) e
  · intro b hb z hz
    simp only [prom, promoteB, List.mem_map] at hz
    obtain ⟨u, hu, e⟩ := hz
    refine AvO.promEnd w hb (opd hb (u := u) ?_ e)
    intro y hy
    obtain ⟨n, h1, h2, h3⟩ := w.term b hb u hu y hy
    exact ⟨n, h1, h2, availEnd_iff.1 h3⟩

end Tsar.PtrReg
