import Verif.PtrReg.Static

/-!
# Simulation of a loop by the transformed loop
-/

namespace Tsar.PtrReg

variable {R : Type}

/-- Facts about results of the pass. -/
structure Res (l : Loop R) (used : Var → Bool) (k : Links) (h : H) : Prop where
  wf : WF l used
  links : ∀ b ∈ l.blocks, k b = some b ↔ ¬ Single l b
  inv : HInv l used k h
  comp : ∀ b ∈ l.blocks, h.comp b = true
  exit : ∀ b ∈ l.blocks, ∀ e ∈ (l.blk b).succs, e ∉ l.blocks → h.last e = h.last b

theorem Res.of {l : Loop R} {used : Var → Bool} (w : WF l used) (hx : Unshared l) :
    Res l used (insertPhiNodes l) (handleLoads l used (insertPhiNodes l)) := by
  obtain ⟨h1, h2, h3⟩ := handle_ok w hx
  exact ⟨w, links_spec w, h1, h2, h3⟩

variable {l : Loop R} {used : Var → Bool} {k : Links} {h : H}

/-- An operand is known at the entry of a block, before phi-nodes. -/
def AvI (l : Loop R) (used : Var → Bool) (k : Links) (b : Lab) (o : Opd) : Prop :=
  ∀ z, o = .var z → ¬ UL l used z ∧ match z with
    | .ld => True
    | .ph r => k r = some r ∧ r ∈ l.blocks ∧ ∀ π, Path l π b → r ∈ π
    | .v n => used (.v n) = true ∧ AvailIn l b (.v n)

theorem AvO.toIn {b c : Lab} {i : Nat} {o : Opd}
    (h : AvO l used k c i o) (hc : ∀ π, Path l π b → c ∈ π) : AvI l used k b o := by
  intro z hz
  obtain ⟨h1, h2⟩ := h z hz
  refine ⟨h1, ?_⟩
  cases z with
  | ld => trivial
  | ph r =>
    obtain ⟨a1, a2, a3⟩ := h2
    refine ⟨a1, a2, ?_⟩
    intro π hπ
    rcases a3 with rfl | a3
    · exact hc π hπ
    · obtain ⟨π', p1, -, p3⟩ := hπ.split (hc π hπ)
      exact p3 _ (a3 π' p1)
  | v n =>
    refine ⟨h2.1, ?_⟩
    have : AvailEnd l c (.v n) := h2.2.toEnd
    rcases this with (h | h) | h
    · exact .inl h
    · refine .inr fun π hπ => ?_
      obtain ⟨π', p1, -, p3⟩ := hπ.split (hc π hπ)
      obtain ⟨d, hd, hx⟩ := h π' p1
      exact ⟨d, p3 d hd, hx⟩
    · exact .inr fun π hπ => ⟨c, hc π hπ, h⟩

theorem AvI.toAv {b : Lab} {i : Nat} {o : Opd} (h : AvI l used k b o) : AvO l used k b i o := by
  intro z hz
  obtain ⟨h1, h2⟩ := h z hz
  refine ⟨h1, ?_⟩
  cases z with
  | ld => trivial
  | ph r => exact ⟨h2.1, h2.2.1, .inr h2.2.2⟩
  | v n => exact ⟨h2.1, .inl h2.2⟩

theorem sub_notUL (r : Res l used k h) {y : Var} (hy : ¬ UL l used y) : h.sub y = .var y :=
  r.inv.unproc y fun ⟨c, hc, _, h1, h2⟩ => hy ⟨c, hc, h1, h2⟩

theorem ul_proc (r : Res l used k h) {y : Var} (hy : UL l used y) : Proc l used h y := by
  obtain ⟨c, hc, h1, h2⟩ := hy
  exact ⟨c, hc, r.comp c hc, h1, h2⟩

/-- The replacement of a value is known where the value is known. -/
theorem sub_in (r : Res l used k h) {b : Lab} {n : Nat}
    (hu : used (.v n) = true) (ha : AvailIn l b (.v n)) : AvI l used k b (h.sub (.v n)) := by
  by_cases hy : UL l used (.v n)
  · obtain ⟨c, hc, -, j, hj, -, hav⟩ := r.inv.proc (ul_proc r hy)
    exact hav.toIn (availIn_path r.wf.toBase hc (UL.mem (used := used) (List.mem_of_getElem? hj)) ha)
  · rw [sub_notUL r hy]
    intro z hz
    simp only [Opd.var.injEq] at hz
    subst hz
    exact ⟨hy, hu, ha⟩

theorem sub_av (r : Res l used k h) {b : Lab} (hb : b ∈ l.blocks) {i : Nat} {n : Nat}
    (hu : used (.v n) = true) (ha : Avail l b i (.v n)) : AvO l used k b i (h.sub (.v n)) := by
  by_cases hy : UL l used (.v n)
  · have hπ : ∃ π, Path l π b ∧ ∀ c ∈ π, h.comp c = true := by
      obtain ⟨π, hπ⟩ := r.wf.reach b hb
      exact ⟨π, hπ, fun c hc => r.comp c (hπ.blocks c hc)⟩
    rcases avail_proc r.wf hb hy ha hπ with ⟨-, hin⟩ | hl
    · exact (sub_in r hu hin).toAv
    · obtain ⟨j, hj⟩ := List.getElem?_of_mem hl
      have hji : j < i := by
        by_contra hge
        rw [List.getElem?_take_eq_none (by omega)] at hj
        simp at hj
      rw [List.getElem?_take_of_lt hji] at hj
      rw [r.inv.load b hb (r.comp b hb) j _ hj hu]
      have := (List.getElem?_eq_some_iff.1 hj).1
      exact (r.inv.av b hb (r.comp b hb) j (by omega)).mono (by omega)
  · rw [sub_notUL r hy]
    intro z hz
    simp only [Opd.var.injEq] at hz
    subst hz
    exact ⟨hy, hu, ha⟩

/-- An instruction does not change a known value. -/
theorem eval_update (w : WF l used) {b : Lab} (hb : b ∈ l.blocks) {i : Nat} {a : Inst R}
    (ha : (l.blk b).insts[i]? = some a) {x : Var} (hx : a.res = some x) {o : Opd}
    (ho : AvO l used k b i o) (env : Var → Int) (c : Int) :
    o.eval (Function.update env x c) = o.eval env := by
  cases o with
  | const => rfl
  | var z =>
    have h := (ho z rfl).2
    show Function.update env x c z = env z
    rw [Function.update_of_ne]
    rintro rfl
    obtain ⟨n, rfl⟩ := w.names b hb z (mem_defs_inst ha hx)
    exact not_avail w.toBase hb ha hx h.2

/-- States of the loop and of the transformed loop before instruction `i` of `b`. -/
structure Rel (l : Loop R) (used : Var → Bool) (k : Links) (h : H) (b : Lab) (i : Nat)
    (s s' : St R) : Prop where
  rest : s'.rest = s.rest
  cell : s.cell = (curB l k h b i).eval s'.env
  env : ∀ n, used (.v n) = true → Avail l b i (.v n) →
    s.env (.v n) = (h.sub (.v n)).eval s'.env

theorem Rel.opd {b : Lab} {i : Nat} {s s' : St R} (q : Rel l used k h b i s s') {o : Opd}
    (ho : Orig o fun n => used (.v n) = true ∧ Avail l b i (.v n)) :
    (o.subst h.sub).eval s'.env = o.eval s.env := by
  cases o with
  | const => rfl
  | var y =>
    obtain ⟨n, rfl, hu, ha⟩ := ho y rfl
    exact (q.env n hu ha).symm

theorem avail_succ {b : Lab} {i : Nat} {a : Inst R} (ha : (l.blk b).insts[i]? = some a) {y : Var}
    (h : Avail l b (i + 1) y) : Avail l b i y ∨ a.res = some y := by
  rcases h with h | h | h
  · exact .inl (.inl h)
  · exact .inl (.inr (.inl h))
  · rw [List.take_add_one, ha, List.filterMap_append, List.mem_append] at h
    rcases h with h | h
    · exact .inl (.inr (.inr h))
    · right
      simpa [List.mem_filterMap] using h

/-- Execution of an instruction after transformation. -/
def execO (s : St R) : Option (Inst R) → St R
  | some a => execI s a
  | none => s

theorem rel_inst (r : Res l used k h) {b : Lab} (hb : b ∈ l.blocks) {i : Nat} {a : Inst R}
    (ha : (l.blk b).insts[i]? = some a) {s s' : St R} (q : Rel l used k h b i s s') :
    Rel l used k h b (i + 1) (execI s a) (execO s' (promoteI used h.sub a)) := by
  have hil := (List.getElem?_eq_some_iff.1 ha).1
  have hcur := r.inv.av b hb (r.comp b hb) i (by omega)
  have ec : curB l k h b (i + 1) = curStep h.sub (curB l k h b i) a := cur_succ ha
  cases a with
  | store o =>
    refine ⟨q.rest, ?_, ?_⟩
    · rw [ec]
      exact (q.opd (r.wf.inst b hb i _ ha o (by simp [Inst.ops]))).symm
    · intro n hu hn
      rcases avail_succ ha hn with hn | hn
      · exact q.env n hu hn
      · simp [Inst.res] at hn
  | load x =>
    by_cases hu : used x = true
    · have e : promoteI used h.sub (Inst.load x : Inst R) = none := by simp [promoteI, hu]
      rw [e]
      refine ⟨q.rest, ?_, ?_⟩
      · rw [ec]; exact q.cell
      · intro n hun hn
        by_cases hnx : (Var.v n) = x
        · subst hnx
          rw [r.inv.load b hb (r.comp b hb) i _ ha hu]
          simp only [execI, execO, Function.update_self]
          exact q.cell
        · simp only [execI, execO, Function.update_of_ne hnx]
          rcases avail_succ ha hn with hn | hn
          · exact q.env n hun hn
          · simp only [Inst.res, Option.some.injEq] at hn
            exact absurd hn.symm hnx
    · have e : promoteI used h.sub (Inst.load x : Inst R) = some (.load x) := by
        simp [promoteI, hu]
      rw [e]
      refine ⟨q.rest, ?_, ?_⟩
      · rw [ec]
        simp only [execI, execO, curStep]
        rw [eval_update r.wf hb ha rfl hcur]
        exact q.cell
      · intro n hun hn
        have hnx : (Var.v n) ≠ x := by rintro rfl; exact hu hun
        simp only [execI, execO, Function.update_of_ne hnx]
        rcases avail_succ ha hn with hn | hn
        · rw [eval_update r.wf hb ha rfl (sub_av r hb hun hn)]
          exact q.env n hun hn
        · simp only [Inst.res, Option.some.injEq] at hn
          exact absurd hn.symm hnx
  | other x args f =>
    have hargs : (args.map (·.subst h.sub)).map (·.eval s'.env) = args.map (·.eval s.env) := by
      rw [List.map_map]
      apply List.map_congr_left
      intro o ho
      exact q.opd (r.wf.inst b hb i _ ha o (by simpa [Inst.ops] using ho))
    cases x with
    | none =>
      simp only [promoteI, execO, execI, hargs, q.rest]
      refine ⟨rfl, ?_, ?_⟩
      · rw [ec]; exact q.cell
      · intro n hun hn
        rcases avail_succ ha hn with hn | hn
        · exact q.env n hun hn
        · simp [Inst.res] at hn
    | some x =>
      simp only [promoteI, execO, execI, hargs, q.rest]
      refine ⟨rfl, ?_, ?_⟩
      · rw [ec]
        simp only [curStep]
        rw [eval_update r.wf hb ha rfl hcur]
        exact q.cell
      · intro n hun hn
        by_cases hnx : (Var.v n) = x
        · subst hnx
          have : ¬ UL l used (.v n) := by
            rintro ⟨c, hc, hl, -⟩
            have hbc : b = c := site r.wf.toBase hb hc (mem_defs_inst ha rfl) (UL.mem (used := used) hl)
            subst hbc
            obtain ⟨j, hj⟩ := List.getElem?_of_mem hl
            have h1 := not_take r.wf.toBase hb ha rfl
            have h2 := not_take r.wf.toBase hb hj rfl
            rcases Nat.lt_trichotomy j i with hlt | rfl | hlt
            · apply h1
              refine List.mem_filterMap.2 ⟨Inst.load (.v n), ?_, rfl⟩
              rw [List.mem_iff_getElem?]
              exact ⟨j, by rw [List.getElem?_take_of_lt hlt]; exact hj⟩
            · rw [ha] at hj; simp at hj
            · apply h2
              refine List.mem_filterMap.2 ⟨Inst.other (some (.v n)) args f, ?_, rfl⟩
              rw [List.mem_iff_getElem?]
              exact ⟨i, by rw [List.getElem?_take_of_lt hlt]; exact ha⟩
          rw [sub_notUL r this]
          simp [Opd.eval]
        · simp only [Function.update_of_ne hnx]
          rcases avail_succ ha hn with hn | hn
          · rw [eval_update r.wf hb ha rfl (sub_av r hb hun hn)]
            exact q.env n hun hn
          · simp only [Inst.res, Option.some.injEq] at hn
            exact absurd hn.symm hnx

theorem rel_insts (r : Res l used k h) {b : Lab} (hb : b ∈ l.blocks) {s s' : St R}
    (q : Rel l used k h b 0 s s') : ∀ i ≤ (l.blk b).insts.length,
    Rel l used k h b i (((l.blk b).insts.take i).foldl execI s)
      ((((l.blk b).insts.take i).filterMap (promoteI used h.sub)).foldl execI s') := by
  intro i
  induction i with
  | zero => intro _; simpa using q
  | succ i ih =>
    intro hi
    obtain ⟨a, ha⟩ : ∃ a, (l.blk b).insts[i]? = some a := ⟨_, List.getElem?_eq_getElem (by omega)⟩
    have := rel_inst r hb ha (ih (by omega))
    rw [List.take_add_one, ha, List.filterMap_append, List.foldl_append, List.foldl_append]
    cases hp : promoteI used h.sub a with
    | none => rw [hp] at this; simpa [hp, execO] using this
    | some a' => rw [hp] at this; simpa [hp, execO] using this

/-- States at the entry of `b` from `p`. -/
inductive Edge (l : Loop R) (used : Var → Bool) (k : Links) (h : H) (p b : Lab)
    (s s' : St R) : Prop
  | inner (hp : p ∈ l.blocks) (hs : b ∈ (l.blk p).succs)
      (q : Rel l used k h p (l.blk p).insts.length s s')
  | outer (hp : p = l.pre) (hb : b = l.header) (rest : s'.rest = s.rest)
      (cell : s.cell = s'.env .ld)
      (env : ∀ n, (∀ c ∈ l.blocks, .v n ∉ (l.blk c).defs) → s.env (.v n) = s'.env (.v n))

theorem availIn_pred {p b : Lab} {x : Var} (hp : p ∈ l.blocks) (hs : b ∈ (l.blk p).succs)
    (ha : AvailIn l b x) : AvailEnd l p x := by
  by_cases hx : x ∈ (l.blk p).defs
  · exact .inr hx
  left
  rcases ha with ha | ha
  · exact .inl ha
  · refine .inr fun π hπ => ?_
    obtain ⟨c, hc, h⟩ := ha _ (.snoc hπ hp hs)
    simp only [List.mem_append, List.mem_singleton] at hc
    rcases hc with hc | rfl
    · exact ⟨c, hc, h⟩
    · exact absurd h hx

theorem Edge.rest {p b : Lab} {s s' : St R} (e : Edge l used k h p b s s') :
    s'.rest = s.rest := by
  cases e with
  | inner hp hs q => exact q.rest
  | outer hp hb rest cell env => exact rest

theorem Edge.cell (r : Res l used k h) {p b : Lab} {s s' : St R} (e : Edge l used k h p b s s') :
    s.cell = ((h.last p).getD (.const 0)).eval s'.env := by
  cases e with
  | inner hp hs q => rw [r.inv.last p hp (r.comp p hp)]; exact q.cell
  | outer hp hb rest cell env => subst hp; rw [r.inv.pre]; exact cell

theorem outer_notUL {n : Nat} (hn : ∀ c ∈ l.blocks, .v n ∉ (l.blk c).defs) :
    ¬ UL l used (.v n) := by
  rintro ⟨c, hc, hl, -⟩
  exact hn c hc (UL.mem (used := used) hl)

theorem Edge.env (r : Res l used k h) {p b : Lab} {s s' : St R} (e : Edge l used k h p b s s')
    {n : Nat} (hu : used (.v n) = true) (ha : AvailIn l b (.v n)) :
    s.env (.v n) = (h.sub (.v n)).eval s'.env := by
  cases e with
  | inner hp hs q => exact q.env n hu (availEnd_iff.1 (availIn_pred hp hs ha))
  | outer hp hb rest cell env =>
    have hn : ∀ c ∈ l.blocks, .v n ∉ (l.blk c).defs := by
      rcases ha with ha | ha
      · exact ha
      · subst hb
        obtain ⟨c, hc, -⟩ := ha _ .nil
        simp at hc
    rw [sub_notUL r (outer_notUL hn)]
    exact env n hn

theorem Edge.phi (r : Res l used k h) {p b : Lab} (hb : b ∈ l.blocks) {s s' : St R}
    (e : Edge l used k h p b s s') {x : Var × (Lab → Opd)} (hx : x ∈ (l.blk b).phis) :
    (x.2 p).eval s.env = ((x.2 p).subst h.sub).eval s'.env := by
  cases e with
  | inner hp hs q =>
    refine (q.opd ?_).symm
    intro y hy
    obtain ⟨n, h1, h2, h3⟩ := r.wf.phiIn b hb p hp hs x hx y hy
    exact ⟨n, h1, h2, availEnd_iff.1 h3⟩
  | outer hp hbh rest cell env =>
    subst hp hbh
    cases ho : x.2 l.pre with
    | const => rfl
    | var y =>
      obtain ⟨n, rfl, -, hn⟩ := r.wf.phiEntry x hx y ho
      show s.env (.v n) = (h.sub (.v n)).eval s'.env
      rw [sub_notUL r (outer_notUL hn)]
      exact env n hn

/-- Phi-nodes of the transformed block. -/
def phis' (k : Links) (h : H) (b : Lab) (ps : List (Var × (Lab → Opd))) :
    List (Var × (Lab → Opd)) :=
  ps.map (fun p => (p.1, fun c => (p.2 c).subst h.sub)) ++
    (if k b = some b then [(.ph b, fun c => (h.last c).getD (.const 0))] else [])

theorem doPhis_ne {ps : List (Var × (Lab → Opd))} {p : Lab} {env : Var → Int} {x : Var}
    (hx : x ∉ ps.map Prod.fst) : doPhis ps p env x = env x := by
  unfold doPhis
  have : ps.find? (fun q => q.1 = x) = none := by
    rw [List.find?_eq_none]
    intro q hq e
    exact hx (List.mem_map.2 ⟨q, hq, by simpa using e⟩)
  rw [this]

theorem doPhis_mem {ps : List (Var × (Lab → Opd))} {p : Lab} {env : Var → Int}
    {q : Var × (Lab → Opd)} (hn : (ps.map Prod.fst).Nodup) (hq : q ∈ ps) :
    doPhis ps p env q.1 = (q.2 p).eval env := by
  unfold doPhis
  have : ps.find? (fun a => a.1 = q.1) = some q := by
    induction ps with
    | nil => simp at hq
    | cons a ps ih =>
      simp only [List.map_cons, List.nodup_cons] at hn
      rw [List.find?_cons]
      rcases List.mem_cons.1 hq with h1 | h1
      · subst h1; simp
      · have : a.1 ≠ q.1 := fun e => hn.1 (List.mem_map.2 ⟨q, h1, e.symm⟩)
        simp only [this, decide_false]
        exact ih hn.2 h1
  rw [this]

theorem rel_phis (r : Res l used k h) {p b : Lab} (hb : b ∈ l.blocks) {s s' : St R}
    (e : Edge l used k h p b s s') :
    Rel l used k h b 0 ⟨doPhis (l.blk b).phis p s.env, s.cell, s.rest⟩
      ⟨doPhis (phis' k h b (l.blk b).phis) p s'.env, s'.cell, s'.rest⟩ := by
  have hnd : ((l.blk b).phis.map Prod.fst).Nodup := (List.nodup_append.1 (defs_nodup r.wf.toBase hb)).1
  have hname : ∀ x ∈ (l.blk b).phis.map Prod.fst, ∃ n, x = .v n := fun x hx =>
    r.wf.names b hb x (by simp only [Blk.defs, List.mem_append]; exact .inl hx)
  have efst : (phis' k h b (l.blk b).phis).map Prod.fst =
      (l.blk b).phis.map Prod.fst ++ if k b = some b then [Var.ph b] else [] := by
    unfold phis'
    split <;> simp
  have hnd' : ((phis' k h b (l.blk b).phis).map Prod.fst).Nodup := by
    rw [efst]
    split
    · rw [List.nodup_append]
      refine ⟨hnd, by simp, ?_⟩
      intro x hx y hy
      simp only [List.mem_singleton] at hy
      subst hy
      obtain ⟨n, rfl⟩ := hname x hx
      simp
    · simpa using hnd
  have keep : ∀ {o : Opd}, AvI l used k b o →
      o.eval (doPhis (phis' k h b (l.blk b).phis) p s'.env) = o.eval s'.env := by
    intro o ho
    cases o with
    | const => rfl
    | var z =>
      show doPhis (phis' k h b (l.blk b).phis) p s'.env z = s'.env z
      apply doPhis_ne
      rw [efst, List.mem_append]
      have hz := (ho z rfl).2
      rintro (hm | hm)
      · obtain ⟨n, rfl⟩ := hname z hm
        exact not_availIn r.wf.toBase hb (by simp only [Blk.defs, List.mem_append]; exact .inl hm) hz.2
      · split at hm
        · simp only [List.mem_singleton] at hm
          subst hm
          obtain ⟨π, hπ⟩ := r.wf.reach b hb
          exact no_mutual hz.2.2 hz.2.2 π hπ
        · simp at hm
  refine ⟨e.rest, ?_, ?_⟩
  · show s.cell = (entryV l k h.last b).eval _
    rw [e.cell r]
    unfold entryV
    split
    · rename_i hk
      have hm : ((.ph b, fun c => (h.last c).getD (.const 0)) : Var × (Lab → Opd)) ∈
          phis' k h b (l.blk b).phis := by
        unfold phis'
        rw [if_pos hk]
        simp
      exact (doPhis_mem hnd' hm).symm
    · rename_i hk
      have hs : Single l b := by by_contra hs; exact hk ((r.links b hb).2 hs)
      have hp : p = singlePred l b := by
        cases e with
        | inner hp hsu q => exact single_pred r.wf hs hp hsu
        | outer hp hbh rest cell env => exact absurd hbh (single_ne r.wf hs)
      subst hp
      refine (keep ?_).symm
      rw [r.inv.last _ hs.2 (r.comp _ hs.2)]
      refine AvO.toIn (r.inv.av _ hs.2 (r.comp _ hs.2) _ (Nat.le_refl _)) ?_
      intro π hπ
      obtain ⟨π', rfl, -⟩ := path_single r.wf hs hπ
      simp
  · intro n hu ha
    show doPhis (l.blk b).phis p s.env (.v n) = _
    by_cases hm : Var.v n ∈ (l.blk b).phis.map Prod.fst
    · obtain ⟨q, hq, hqn⟩ := List.mem_map.1 hm
      rw [← hqn, doPhis_mem hnd hq, e.phi r hb hq]
      have hul : ¬ UL l used q.1 := by
        rintro ⟨c, hc, hl, -⟩
        have hbc : b = c := site r.wf.toBase hb hc (by
          rw [hqn]; simp only [Blk.defs, List.mem_append]; exact .inl hm) (UL.mem (used := used) hl)
        subst hbc
        refine not_phi r.wf.toBase hb (List.mem_filterMap.2 ⟨_, hl, rfl⟩) ?_
        rw [hqn]; exact hm
      rw [sub_notUL r hul]
      have hm' : ((q.1, fun c => (q.2 c).subst h.sub) : Var × (Lab → Opd)) ∈
          phis' k h b (l.blk b).phis := by
        unfold phis'
        rw [List.mem_append]
        exact .inl (List.mem_map.2 ⟨q, hq, rfl⟩)
      exact (doPhis_mem hnd' hm').symm
    · have ha' : AvailIn l b (.v n) := by
        rcases ha with ha | ha | ha
        · exact ha
        · exact absurd ha hm
        · simp at ha
      rw [doPhis_ne hm, keep (sub_in r hu ha')]
      exact e.env r hu ha'

/-- Execution of a block. -/
theorem edge_step (r : Res l used k h) {p b : Lab} (hb : b ∈ l.blocks) {s s' : St R}
    (e : Edge l used k h p b s s') :
    (execB (promoteB used k h b (l.blk b)) p s').1 = (execB (l.blk b) p s).1 ∧
      Edge l used k h b (execB (l.blk b) p s).1 (execB (l.blk b) p s).2
        (execB (promoteB used k h b (l.blk b)) p s').2 := by
  have q := rel_insts r hb (rel_phis r hb e) _ (Nat.le_refl _)
  rw [List.take_length] at q
  have q' : Rel l used k h b (l.blk b).insts.length (execB (l.blk b) p s).2
      (execB (promoteB used k h b (l.blk b)) p s').2 := q
  refine ⟨?_, .inner hb ?_ q'⟩
  · show (l.blk b).br (((l.blk b).targs.map (·.subst h.sub)).map
      (·.eval (execB (promoteB used k h b (l.blk b)) p s').2.env)) =
      (l.blk b).br ((l.blk b).targs.map (·.eval (execB (l.blk b) p s).2.env))
    congr 1
    rw [List.map_map]
    apply List.map_congr_left
    intro o ho
    refine q'.opd ?_
    intro y hy
    obtain ⟨n, h1, h2, h3⟩ := r.wf.term b hb o ho y hy
    exact ⟨n, h1, h2, availEnd_iff.1 h3⟩
  · exact r.wf.succs b hb _

/-- Configurations of both loops. -/
def ConfRel (l : Loop R) (used : Var → Bool) (k : Links) (h : H) (c c' : Conf R) : Prop :=
  c'.prev = c.prev ∧ c'.cur = c.cur ∧ Edge l used k h c.prev c.cur c.st c'.st

theorem run_rel (w : WF l used) (hx : Unshared l) (n : Nat) : ∀ c c' : Conf R,
    ConfRel l used (insertPhiNodes l) (handleLoads l used (insertPhiNodes l)) c c' →
    ConfRel l used (insertPhiNodes l) (handleLoads l used (insertPhiNodes l))
      (run l n c) (run (promote l used) n c') := by
  have r := Res.of w hx
  induction n with
  | zero => intro c c' h; exact h
  | succ n ih =>
    intro c c' hc
    refine ih _ _ ?_
    obtain ⟨h1, h2, h3⟩ := hc
    unfold step
    by_cases hb : c.cur ∈ l.blocks
    · have hb' : c'.cur ∈ (promote l used).blocks := by rw [h2]; exact hb
      rw [if_pos hb, if_pos hb']
      have := edge_step r hb h3
      refine ⟨h2, ?_, ?_⟩
      · show (execB ((promote l used).blk c'.cur) c'.prev c'.st).1 = _
        rw [h1, h2]
        exact this.1
      · show Edge l used _ _ c.cur _ _ (execB ((promote l used).blk c'.cur) c'.prev c'.st).2
        rw [h1, h2]
        exact this.2
    · have hb' : c'.cur ∉ (promote l used).blocks := by rw [h2]; exact hb
      rw [if_neg hb, if_neg hb']
      exact ⟨h1, h2, h3⟩

end Tsar.PtrReg
