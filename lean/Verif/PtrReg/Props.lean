import Verif.PtrReg.Promoted

/-!
# Properties of promotion of a memory location to a register

The specification is the execution of blocks of a loop in `Verif.PtrReg.Model`
(`St`, `execB`, `run`) and the definition of a loop in static single assignment form
(`WF`).
-/

namespace Tsar.PtrReg

variable {R : Type}

theorem Path.last {l : Loop R} {π : List Lab} {e : Lab} (h : Path l π e) :
    e = l.header ∨ ∃ π' b, π = π' ++ [b] ∧ Path l π' b ∧ b ∈ l.blocks ∧
      e ∈ (l.blk b).succs := by
  cases h with
  | nil => exact .inl rfl
  | snoc h hb hc => exact .inr ⟨_, _, rfl, h, hb, hc⟩

/-- A loop after the pass visits the same blocks and has the same effects on other
memory as the original one after any number of blocks. If the store in an exit block
is defined then it writes the value which is in the promoted location at the end of
the original loop. A value of the original loop which is used after it is equal to the
operand which is used instead. It is assumed that an exit block is reached from a
single block of the loop. -/
theorem ptr2reg_partial {l : Loop R} {used : Var → Bool} (w : WF l used) (hx : Unshared l)
    (n : Nat) (s : St R) :
    let r := ptr2reg l used
    let c := run l n (enter l s)
    let c' := run r.loop n (enter r.loop (preload s))
    c'.prev = c.prev ∧ c'.cur = c.cur ∧ c'.st.rest = c.st.rest ∧
    (c.cur ∉ l.blocks →
      (∀ t, poststore l used c.cur c'.st = some t →
        t.cell = c.st.cell ∧ t.rest = c.st.rest ∧ t.env = c'.st.env) ∧
      ∀ m, used (.v m) = true → AvailIn l c.cur (.v m) →
        c.st.env (.v m) = (r.sub (.v m)).eval c'.st.env) := by
  intro r c c'
  have hr := Res.of w hx
  have W : GWF (promote l used) := prom_wf hr
  obtain ⟨τ, S, h1, -, h3⟩ := redundant_sim
    ((l.blocks.filter fun b => insertPhiNodes l b = some b).length + 1)
    (l.blocks.filter fun b => insertPhiNodes l b = some b)
    ⟨promote l used, (handleLoads l used (insertPhiNodes l)).sub, [], false⟩ W
    (w.nodup.sublist List.filter_sublist) fun b hb => List.mem_of_mem_filter hb
  change Sim (promote l used) r.loop τ at S
  change r.sub = _ at h1
  change ∀ y, (∀ b ∈ r.erased, y ≠ .ph b) → τ y = .var y at h3
  have he : Edge l used (insertPhiNodes l) (handleLoads l used (insertPhiNodes l)) l.pre l.header
      s (preload s) := by
    refine .outer rfl rfl rfl (by simp [preload]) ?_
    intro m _
    simp [preload]
  obtain ⟨p1, p2, p3⟩ := run_rel w hx n (enter l s) (enter (promote l used) (preload s))
    ⟨rfl, rfl, he⟩
  obtain ⟨q1, q2, q3, -, q5⟩ := S.run n (preload s)
  change c'.prev = _ at q1
  change c'.cur = _ at q2
  change c'.st.rest = _ at q3
  refine ⟨q1.trans p1, q2.trans p2, q3.trans p3.rest, ?_⟩
  intro hout
  have he' : Edge l used (insertPhiNodes l) (handleLoads l used (insertPhiNodes l)) c.prev c.cur
      c.st (run (promote l used) n (enter (promote l used) (preload s))).st := p3
  have hin : c.prev ∈ l.blocks ∧ c.cur ∈ (l.blk c.prev).succs := by
    cases he' with
    | inner hp hs q => exact ⟨hp, hs⟩
    | outer hp hb _ _ _ => exact absurd w.header (by rw [← hb]; exact hout)
  have tr : ∀ {u : Opd}, AvI l used (insertPhiNodes l) c.cur u →
      u.eval (run (promote l used) n (enter (promote l used) (preload s))).st.env =
      (u.subst τ).eval c'.st.env := by
    intro u hu
    cases u with
    | const => rfl
    | var z =>
      refine q5 z ?_
      rw [p2]
      exact hu.prom w
  constructor
  · intro t ht
    unfold poststore at ht
    split at ht
    · simp at ht
    · rename_i hd
      simp only [Option.some.injEq] at ht
      subst ht
      refine ⟨?_, q3.trans p3.rest, rfl⟩
      rw [he'.cell hr]
      have hl : (handleLoads l used (insertPhiNodes l)).last c.cur =
          (handleLoads l used (insertPhiNodes l)).last c.prev := hr.exit _ hin.1 _ hin.2 hout
      have hv : exitValue l used c.cur =
          ((handleLoads l used (insertPhiNodes l)).last c.prev).getD (.const 0) := by
        unfold exitValue; rw [hl]
      rw [← hv]
      have hav : AvI l used (insertPhiNodes l) c.cur (exitValue l used c.cur) := by
        rw [hv, hr.inv.last _ hin.1 (hr.comp _ hin.1)]
        refine AvO.toIn (hr.inv.av _ hin.1 (hr.comp _ hin.1) _ (Nat.le_refl _)) ?_
        intro π hπ
        rcases hπ.last with e | ⟨π', b, rfl, -, hbl, hs⟩
        · exact absurd w.header (by rw [← e]; exact hout)
        · rw [hx b hbl _ hin.1 _ hout hs hin.2]
          simp
      rw [tr hav]
      have : (exitValue l used c.cur).subst τ = exitValue l used c.cur := by
        cases e : exitValue l used c.cur with
        | const => rfl
        | var z =>
          refine h3 z ?_
          rintro b hb rfl
          rw [e] at hd
          exact hd (by simpa [dangling] using hb)
      rw [this]
  · intro m hu ha
    rw [he'.env hr hu ha, tr (sub_in hr hu ha), h1]

/-- There are no accesses to the promoted location in the loop after the pass, except
for loads without users. -/
theorem ptr2reg_no_access (l : Loop R) (used : Var → Bool) (b : Lab) :
    ∀ a ∈ ((ptr2reg l used).loop.blk b).insts,
      (∀ o, a ≠ .store o) ∧ ∀ x, a = .load x → used x = false := by
  intro a ha
  obtain ⟨y, hy, σ, rfl⟩ := redundant_insts _ _ _ b a ha
  change y ∈ (l.blk b).insts.filterMap
    (promoteI used (handleLoads l used (insertPhiNodes l)).sub) at hy
  obtain ⟨z, -, hz⟩ := List.mem_filterMap.1 hy
  cases z with
  | load x =>
    simp only [promoteI] at hz
    split at hz
    · simp at hz
    · rename_i hu
      simp only [Option.some.injEq] at hz
      subst hz
      exact ⟨by simp [substI], by simpa [substI] using hu⟩
  | store o => simp [promoteI] at hz
  | other x args f =>
    simp only [promoteI, Option.some.injEq] at hz
    subst hz
    exact ⟨by simp [substI], by simp [substI]⟩

/-- Each phi-node which is inserted and has not been erased joins at least two
different operands. -/
theorem ptr2reg_phi {l : Loop R} {used : Var → Bool} (w : WF l used) (hx : Unshared l)
    (b : Lab) (hb : b ∈ l.blocks) (p : Var × (Lab → Opd))
    (hp : p ∈ ((ptr2reg l used).loop.blk b).phis) (hpb : p.1 = .ph b) :
    ∃ c d : Lab, c ∈ preds l b ∧ d ∈ preds l b ∧ p.2 c ≠ p.2 d := by
  have hr := Res.of w hx
  have W : GWF (promote l used) := prom_wf hr
  have hnd := w.nodup.sublist (List.filter_sublist (p := fun b => insertPhiNodes l b = some b))
  have hm : Var.ph b ∈ ((ptr2reg l used).loop.blk b).phis.map Prod.fst :=
    List.mem_map.2 ⟨p, hp, hpb⟩
  have hsim := redundant_sim
    ((l.blocks.filter fun b => insertPhiNodes l b = some b).length + 1)
    (l.blocks.filter fun b => insertPhiNodes l b = some b)
    ⟨promote l used, (handleLoads l used (insertPhiNodes l)).sub, [], false⟩ W hnd
    fun b hb => List.mem_of_mem_filter hb
  obtain ⟨τ, S, -⟩ := hsim
  change Sim (promote l used) (ptr2reg l used).loop τ at S
  have hn : redundant (ptr2reg l used).loop b = false := by
    refine redundant_none _ _ _ (Nat.lt_succ_self _) W hnd
      (fun b hb => List.mem_of_mem_filter hb) ?_ b hb hm
    intro c hc hcm
    change Var.ph c ∈ ((prom l used (insertPhiNodes l)
      (handleLoads l used (insertPhiNodes l))).blk c).phis.map Prod.fst at hcm
    rw [prom_phis, List.mem_append] at hcm
    rw [List.mem_filter]
    refine ⟨hc, ?_⟩
    rcases hcm with h | h
    · obtain ⟨n, e⟩ := w.names c hc _ (by simp only [Blk.defs, List.mem_append]; exact .inl h)
      simp at e
    · split at h
      · rename_i hk; simpa using hk
      · simp at h
  have hpr : preds (ptr2reg l used).loop b = preds l b := by
    unfold preds
    rw [S.blocks, S.header, S.pre]
    congr 1
    apply List.filter_congr
    intro c _
    rw [S.succs]
    rfl
  have hbl : b ∈ (ptr2reg l used).loop.blocks := by rw [S.blocks]; exact hb
  have hnd' : (((ptr2reg l used).loop.blk b).phis.map Prod.fst).Nodup :=
    (List.nodup_append.1 (defs_nodup S.wf.toBase hbl)).1
  have hf : ((ptr2reg l used).loop.blk b).phis.find? (fun q => q.1 = .ph b) = some p := by
    cases e : ((ptr2reg l used).loop.blk b).phis.find? (fun q => q.1 = .ph b) with
    | none =>
      rw [List.find?_eq_none] at e
      exact absurd hpb (by simpa using e p hp)
    | some q =>
      have h1 := List.find?_some e
      have h2 := List.mem_of_find?_eq_some e
      simp only [decide_eq_true_eq] at h1
      rw [List.inj_on_of_nodup_map hnd' h2 hp (h1.trans hpb.symm)]
  have hops : phiOps (ptr2reg l used).loop b = (preds l b).map p.2 := by
    unfold phiOps
    rw [hf, ← hpr]
  unfold redundant at hn
  rw [hops] at hn
  obtain ⟨π, hπ⟩ := w.reach b hb
  have hne : ∃ c, c ∈ preds l b := by
    cases hπ with
    | nil => exact ⟨l.pre, mem_preds.2 (.inl ⟨rfl, rfl⟩)⟩
    | snoc _ hc hs => exact ⟨_, mem_preds.2 (.inr ⟨hc, hs⟩)⟩
  cases hpl : preds l b with
  | nil => rw [hpl] at hne; simp at hne
  | cons c ds =>
    rw [hpl] at hn
    simp only [List.map_cons, List.all_eq_false, List.mem_map, decide_eq_true_eq] at hn
    obtain ⟨u, ⟨d, hd, rfl⟩, hu⟩ := hn
    exact ⟨c, d, by simp, by simp [hd], fun e => hu e.symm⟩

end Tsar.PtrReg
