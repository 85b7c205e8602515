import Verif.PtrReg.Dynamic

/-!
# Removal of redundant phi-nodes
-/

namespace Tsar.PtrReg

variable {R : Type}

/-- A loop in static single assignment form. -/
structure GWF (l : Loop R) : Prop extends Base l where
  phiEntry : ∀ p ∈ (l.blk l.header).phis, ∀ z, p.2 l.pre = .var z →
    ∀ c ∈ l.blocks, z ∉ (l.blk c).defs
  phiIn : ∀ b ∈ l.blocks, ∀ c ∈ l.blocks, b ∈ (l.blk c).succs → ∀ p ∈ (l.blk b).phis,
    ∀ z, p.2 c = .var z → AvailEnd l c z
  inst : ∀ b ∈ l.blocks, ∀ (i : Nat) x, (l.blk b).insts[i]? = some x → ∀ z, .var z ∈ x.ops →
    Avail l b i z
  term : ∀ b ∈ l.blocks, ∀ z, .var z ∈ (l.blk b).targs → AvailEnd l b z

/-- All operands of the phi-node `x` in `b` are `o`. -/
structure Red (l : Loop R) (b : Lab) (x : Var) (o : Opd) : Prop where
  mem : b ∈ l.blocks
  phi : ∃ p ∈ (l.blk b).phis, p.1 = x ∧ (b = l.header → p.2 l.pre = o) ∧
    ∀ c ∈ l.blocks, b ∈ (l.blk c).succs → p.2 c = o

section Delete

variable {l : Loop R} {b : Lab} {x : Var} {o : Opd}

theorem Red.defs (d : Red l b x o) : x ∈ (l.blk b).defs := by
  obtain ⟨p, hp, rfl, -⟩ := d.phi
  simp only [Blk.defs, List.mem_append]
  exact .inl (List.mem_map.2 ⟨p, hp, rfl⟩)

theorem Red.phis (d : Red l b x o) : x ∈ (l.blk b).phis.map Prod.fst := by
  obtain ⟨p, hp, rfl, -⟩ := d.phi
  exact List.mem_map.2 ⟨p, hp, rfl⟩

theorem Red.avail (w : GWF l) (d : Red l b x o) {z : Var} (hz : o = .var z) :
    AvailIn l b z := by
  obtain ⟨p, hp, -, h1, h2⟩ := d.phi
  by_cases hout : ∀ c ∈ l.blocks, z ∉ (l.blk c).defs
  · exact .inl hout
  refine .inr fun π hπ => ?_
  cases hπ with
  | nil => exact absurd (w.phiEntry p hp z ((h1 rfl).trans hz)) hout
  | @snoc π c _ hc hcb hs =>
    rcases w.phiIn b d.mem c hcb hs p hp z ((h2 c hcb hs).trans hz) with (h | h) | h
    · exact absurd h hout
    · obtain ⟨e, he, hx⟩ := h π hc
      exact ⟨e, by simp [he], hx⟩
    · exact ⟨c, by simp, h⟩

theorem Red.ne (w : GWF l) (d : Red l b x o) {z : Var} (hz : o = .var z) : z ≠ x := by
  rintro rfl
  exact not_availIn w.toBase d.mem d.defs (d.avail w hz)

/-- A value which is known in each path to `c` through `b`. -/
theorem AvailIn.through {c z : _} (h : AvailIn l b z) (hc : ∀ π, Path l π c → b ∈ π) :
    AvailIn l c z := by
  rcases h with h | h
  · exact .inl h
  · refine .inr fun π hπ => ?_
    obtain ⟨π', p1, -, p3⟩ := hπ.split (hc π hπ)
    obtain ⟨d, hd, hx⟩ := h π' p1
    exact ⟨d, p3 d hd, hx⟩

theorem tr_in (w : GWF l) (d : Red l b x o) {c : Lab} {y z : Var} (hy : AvailIn l c y)
    (hz : delSub x o y = .var z) : z ≠ x ∧ AvailIn l c z := by
  unfold delSub at hz
  split at hz
  · rename_i e
    subst e
    exact ⟨d.ne w hz, (d.avail w hz).through (availIn_path w.toBase d.mem d.defs hy)⟩
  · rename_i e
    simp only [Opd.var.injEq] at hz
    subst hz
    exact ⟨e, hy⟩

theorem tr_av (w : GWF l) (d : Red l b x o) {c : Lab} (hc : c ∈ l.blocks) {i : Nat} {y z : Var}
    (hy : Avail l c i y) (hz : delSub x o y = .var z) : z ≠ x ∧ Avail l c i z := by
  by_cases e : y = x
  · subst e
    have hz' : o = .var z := by simpa [delSub] using hz
    refine ⟨d.ne w hz', .inl ?_⟩
    rcases hy with hy | hy | hy
    · exact (tr_in w d hy hz).2
    · have : c = b := site w.toBase hc d.mem
        (by simp only [Blk.defs, List.mem_append]; exact .inl hy) d.defs
      subst this
      exact d.avail w hz'
    · have : c = b := by
        refine site w.toBase hc d.mem ?_ d.defs
        rw [List.mem_filterMap] at hy
        obtain ⟨a, ha, e⟩ := hy
        simp only [Blk.defs, List.mem_append]
        exact .inr (List.mem_filterMap.2 ⟨a, List.mem_of_mem_take ha, e⟩)
      subst this
      exact d.avail w hz'
  · have : z = y := by
      simp only [delSub, e, if_false, Opd.var.injEq] at hz
      exact hz.symm
    subst this
    exact ⟨e, hy⟩

theorem tr_end (w : GWF l) (d : Red l b x o) {c : Lab} (hc : c ∈ l.blocks) {y z : Var}
    (hy : AvailEnd l c y) (hz : delSub x o y = .var z) : z ≠ x ∧ AvailEnd l c z := by
  rw [availEnd_iff] at hy
  obtain ⟨h1, h2⟩ := tr_av w d hc hy hz
  exact ⟨h1, h2.toEnd⟩

/-! ### The loop without a phi-node -/

theorem res_subst {σ : Var → Opd} (is : List (Inst R)) :
    (is.map (substI σ)).filterMap Inst.res = is.filterMap Inst.res := by
  induction is with
  | nil => rfl
  | cons a is ih => cases a <;> simp [List.filterMap_cons, substI, Inst.res, ih]

theorem del_phis {c : Lab} : ((deletePhi l x o).blk c).phis.map Prod.fst =
    ((l.blk c).phis.map Prod.fst).filter fun y => y ≠ x := by
  simp only [deletePhi, List.map_map, List.filter_map]
  rfl

theorem del_mem (w : GWF l) (d : Red l b x o) {c : Lab} (hc : c ∈ l.blocks) {y : Var} :
    y ∈ ((deletePhi l x o).blk c).defs ↔ y ∈ (l.blk c).defs ∧ y ≠ x := by
  have h1 : y ∈ ((deletePhi l x o).blk c).defs ↔
      (y ∈ (l.blk c).phis.map Prod.fst ∧ y ≠ x) ∨ y ∈ (l.blk c).insts.filterMap Inst.res := by
    simp only [Blk.defs, List.mem_append, del_phis, List.mem_filter, decide_eq_true_eq]
    rw [show ((deletePhi l x o).blk c).insts = (l.blk c).insts.map (substI (delSub x o)) from rfl,
      res_subst]
  rw [h1]
  simp only [Blk.defs, List.mem_append]
  constructor
  · rintro (h | h)
    · exact ⟨.inl h.1, h.2⟩
    · refine ⟨.inr h, ?_⟩
      rintro rfl
      have : c = b := site w.toBase hc d.mem
        (by simp only [Blk.defs, List.mem_append]; exact .inr h) d.defs
      subst this
      exact not_phi w.toBase hc h d.phis
  · rintro ⟨h | h, hne⟩
    · exact .inl ⟨h, hne⟩
    · exact .inr h

theorem del_path {π : List Lab} {c : Lab} : Path (deletePhi l x o) π c ↔ Path l π c := by
  constructor
  · intro h
    induction h with
    | nil => exact .nil
    | snoc _ hb hc ih => exact .snoc ih hb hc
  · intro h
    induction h with
    | nil => exact .nil
    | snoc _ hb hc ih => exact .snoc (l := deletePhi l x o) ih hb hc

theorem del_in (w : GWF l) (d : Red l b x o) {c : Lab} {y : Var} (hy : y ≠ x)
    (h : AvailIn l c y) : AvailIn (deletePhi l x o) c y := by
  rcases h with h | h
  · exact .inl fun e he hm => h e he ((del_mem w d he).1 hm).1
  · refine .inr fun π hπ => ?_
    have hπ' := del_path.1 hπ
    obtain ⟨e, he, hm⟩ := h π hπ'
    exact ⟨e, he, (del_mem w d (hπ'.blocks e he)).2 ⟨hm, hy⟩⟩

theorem del_av (w : GWF l) (d : Red l b x o) {c : Lab} {i : Nat} {y : Var} (hy : y ≠ x)
    (h : Avail l c i y) : Avail (deletePhi l x o) c i y := by
  rcases h with h | h | h
  · exact .inl (del_in w d hy h)
  · refine .inr (.inl ?_)
    rw [del_phis, List.mem_filter]
    exact ⟨h, by simpa using hy⟩
  · refine .inr (.inr ?_)
    show y ∈ (((l.blk c).insts.map (substI (delSub x o))).take i).filterMap Inst.res
    rw [← List.map_take, res_subst]
    exact h

theorem del_end (w : GWF l) (d : Red l b x o) {c : Lab} (hc : c ∈ l.blocks) {y : Var} (hy : y ≠ x)
    (h : AvailEnd l c y) : AvailEnd (deletePhi l x o) c y := by
  rcases h with h | h
  · exact .inl (del_in w d hy h)
  · exact .inr ((del_mem w d hc).2 ⟨h, hy⟩)

theorem flatMap_sublist {α β : Type} {f g : α → List β} (as : List α)
    (h : ∀ a, (f a).Sublist (g a)) : (as.flatMap f).Sublist (as.flatMap g) := by
  induction as with
  | nil => simp
  | cons a as ih => simp only [List.flatMap_cons]; exact (h a).append ih

theorem subst_var {σ : Var → Opd} {u : Opd} {z : Var} (h : u.subst σ = .var z) :
    ∃ y, u = .var y ∧ σ y = .var z := by
  cases u with
  | const => simp [Opd.subst] at h
  | var y => exact ⟨y, rfl, h⟩

theorem substI_ops {σ : Var → Opd} {a : Inst R} {z : Var} (h : .var z ∈ (substI σ a).ops) :
    ∃ y, .var y ∈ a.ops ∧ σ y = .var z := by
  cases a with
  | load => simp [substI, Inst.ops] at h
  | store u =>
    simp only [substI, Inst.ops, List.mem_singleton] at h
    obtain ⟨y, rfl, e⟩ := subst_var h.symm
    exact ⟨y, by simp [Inst.ops], e⟩
  | other r args f =>
    simp only [substI, Inst.ops, List.mem_map] at h
    obtain ⟨u, hu, e⟩ := h
    obtain ⟨y, rfl, e⟩ := subst_var e
    exact ⟨y, hu, e⟩

theorem del_wf (w : GWF l) (d : Red l b x o) : GWF (deletePhi l x o) := by
  refine ⟨⟨w.header, w.pre, w.nodup, w.succs, ?_, ?_⟩, ?_, ?_, ?_, ?_⟩
  · intro c hc
    obtain ⟨π, hπ⟩ := w.reach c hc
    exact ⟨π, del_path.2 hπ⟩
  · refine List.Nodup.sublist (flatMap_sublist _ ?_) w.ssa
    intro c
    simp only [Blk.defs, del_phis]
    rw [show ((deletePhi l x o).blk c).insts = (l.blk c).insts.map (substI (delSub x o)) from rfl,
      res_subst]
    exact (List.filter_sublist).append (List.Sublist.refl _)
  · intro p hp z hz c hc hm
    simp only [deletePhi, List.mem_map, List.mem_filter] at hp
    obtain ⟨q, ⟨hq, -⟩, rfl⟩ := hp
    obtain ⟨y, hy, e⟩ := subst_var hz
    have hout := w.phiEntry q hq y hy
    have hne : y ≠ x := by rintro rfl; exact hout b d.mem d.defs
    have : z = y := by
      simp only [delSub, hne, if_false, Opd.var.injEq] at e
      exact e.symm
    subst this
    exact hout c hc ((del_mem w d hc).1 hm).1
  · intro c hc e he hs p hp z hz
    simp only [deletePhi, List.mem_map, List.mem_filter] at hp
    obtain ⟨q, ⟨hq, -⟩, rfl⟩ := hp
    obtain ⟨y, hy, hyz⟩ := subst_var hz
    obtain ⟨h1, h2⟩ := tr_end w d he (w.phiIn c hc e he hs q hq y hy) hyz
    exact del_end w d he h1 h2
  · intro c hc i a ha z hz
    change ((l.blk c).insts.map (substI (delSub x o)))[i]? = some a at ha
    rw [List.getElem?_map] at ha
    cases ha' : (l.blk c).insts[i]? with
    | none => rw [ha'] at ha; simp at ha
    | some a' =>
      rw [ha'] at ha
      simp only [Option.map_some, Option.some.injEq] at ha
      subst ha
      obtain ⟨y, hy, hyz⟩ := substI_ops hz
      obtain ⟨h1, h2⟩ := tr_av w d hc (w.inst c hc i a' ha' y hy) hyz
      exact del_av w d h1 h2
  · intro c hc z hz
    simp only [deletePhi, List.mem_map] at hz
    obtain ⟨u, hu, e⟩ := hz
    obtain ⟨y, rfl, hyz⟩ := subst_var e
    obtain ⟨h1, h2⟩ := tr_end w d hc (w.term c hc y hu) hyz
    exact del_end w d hc h1 h2

/-! ### Simulation -/

/-- Equal states except for the erased phi-node. -/
structure Eqv (x : Var) (o : Opd) (known : Var → Prop) (s s' : St R) : Prop where
  rest : s'.rest = s.rest
  cell : s'.cell = s.cell
  env : ∀ y, known y → s.env y = (delSub x o y).eval s'.env

theorem Eqv.opd {known : Var → Prop} {s s' : St R} (q : Eqv x o known s s') {u : Opd}
    (h : ∀ z, u = .var z → known z) : (u.subst (delSub x o)).eval s'.env = u.eval s.env := by
  cases u with
  | const => rfl
  | var y => exact (q.env y (h y rfl)).symm

theorem eqv_inst (w : GWF l) (d : Red l b x o) {c : Lab} (hc : c ∈ l.blocks) {i : Nat}
    {a : Inst R} (ha : (l.blk c).insts[i]? = some a) {s s' : St R}
    (q : Eqv x o (Avail l c i) s s') :
    Eqv x o (Avail l c (i + 1)) (execI s a) (execI s' (substI (delSub x o) a)) := by
  have upd : ∀ y v v', a.res = some y → v = v' → ∀ z, Avail l c (i + 1) z →
      Function.update s.env y v z = (delSub x o z).eval (Function.update s'.env y v') := by
    intro y v v' hy hv z hz
    subst hv
    have hyx : y ≠ x := by
      rintro rfl
      have : c = b := site w.toBase hc d.mem (mem_defs_inst ha hy) d.defs
      subst this
      exact not_phi w.toBase hc (List.mem_filterMap.2 ⟨a, List.mem_of_getElem? ha, hy⟩) d.phis
    by_cases hzy : z = y
    · subst hzy
      simp [delSub, hyx, Opd.eval]
    · rw [Function.update_of_ne hzy]
      have hz' : Avail l c i z := by
        rcases avail_succ ha hz with h | h
        · exact h
        · rw [hy] at h
          simp only [Option.some.injEq] at h
          exact absurd h.symm hzy
      rw [q.env z hz']
      cases e : delSub x o z with
      | const => rfl
      | var u =>
        have hu := (tr_av w d hc hz' e).2
        show _ = Function.update s'.env y v u
        rw [Function.update_of_ne]
        · rfl
        · rintro rfl
          exact not_avail w.toBase hc ha hy hu
  have same : a.res = none → ∀ z, Avail l c (i + 1) z → s.env z = (delSub x o z).eval s'.env := by
    intro hn z hz
    rcases avail_succ ha hz with h | h
    · exact q.env z h
    · rw [hn] at h; simp at h
  cases a with
  | load y =>
    exact ⟨q.rest, q.cell, upd y s.cell s'.cell rfl q.cell.symm⟩
  | store u =>
    refine ⟨q.rest, ?_, same rfl⟩
    exact q.opd fun z hz => w.inst c hc i _ ha z (by simp [Inst.ops, hz])
  | other r args f =>
    have hargs : (args.map (·.subst (delSub x o))).map (·.eval s'.env) =
        args.map (·.eval s.env) := by
      rw [List.map_map]
      apply List.map_congr_left
      intro u hu
      exact q.opd fun z hz => w.inst c hc i _ ha z (by rw [← hz]; exact hu)
    cases r with
    | none =>
      simp only [substI, execI, hargs, q.rest]
      exact ⟨rfl, q.cell, same rfl⟩
    | some y =>
      simp only [substI, execI, hargs, q.rest]
      exact ⟨rfl, q.cell, upd y _ _ rfl rfl⟩

theorem eqv_insts (w : GWF l) (d : Red l b x o) {c : Lab} (hc : c ∈ l.blocks) {s s' : St R}
    (q : Eqv x o (Avail l c 0) s s') : ∀ i ≤ (l.blk c).insts.length,
    Eqv x o (Avail l c i) (((l.blk c).insts.take i).foldl execI s)
      ((((l.blk c).insts.take i).map (substI (delSub x o))).foldl execI s') := by
  intro i
  induction i with
  | zero => intro _; simpa using q
  | succ i ih =>
    intro hi
    obtain ⟨a, ha⟩ : ∃ a, (l.blk c).insts[i]? = some a := ⟨_, List.getElem?_eq_getElem (by omega)⟩
    have := eqv_inst w d hc ha (ih (by omega))
    rw [List.take_add_one, ha, List.map_append, List.foldl_append, List.foldl_append]
    simpa using this

/-- Values which are known when the edge from `p` to `c` is passed. -/
def Known (l : Loop R) (p : Lab) (y : Var) : Prop :=
  (p ∈ l.blocks ∧ AvailEnd l p y) ∨ (p = l.pre ∧ ∀ c ∈ l.blocks, y ∉ (l.blk c).defs)

/-- The edge from `p` to `c` is an edge of the loop. -/
def IsEdge (l : Loop R) (p c : Lab) : Prop :=
  (p ∈ l.blocks ∧ c ∈ (l.blk p).succs) ∨ (p = l.pre ∧ c = l.header)

theorem known_of_in {p c : Lab} {y : Var} (he : IsEdge l p c) (h : AvailIn l c y) :
    Known l p y := by
  rcases he with ⟨hp, hs⟩ | ⟨hp, hs⟩
  · exact .inl ⟨hp, availIn_pred hp hs h⟩
  · refine .inr ⟨hp, ?_⟩
    rcases h with h | h
    · exact h
    · subst hs
      obtain ⟨e, he, -⟩ := h _ .nil
      simp at he

theorem eqv_phis (w : GWF l) (d : Red l b x o) {p c : Lab} (hc : c ∈ l.blocks)
    (he : IsEdge l p c) {s s' : St R} (q : Eqv x o (Known l p) s s') :
    Eqv x o (Avail l c 0) ⟨doPhis (l.blk c).phis p s.env, s.cell, s.rest⟩
      ⟨doPhis ((deletePhi l x o).blk c).phis p s'.env, s'.cell, s'.rest⟩ := by
  have hnd : ((l.blk c).phis.map Prod.fst).Nodup :=
    (List.nodup_append.1 (defs_nodup w.toBase hc)).1
  have hnd' : (((deletePhi l x o).blk c).phis.map Prod.fst).Nodup := by
    rw [del_phis]
    exact hnd.sublist List.filter_sublist
  have keep : ∀ z, AvailIn l c z →
      doPhis ((deletePhi l x o).blk c).phis p s'.env z = s'.env z := by
    intro z hz
    apply doPhis_ne
    intro hm
    rw [del_phis, List.mem_filter] at hm
    exact not_availIn w.toBase hc
      (by simp only [Blk.defs, List.mem_append]; exact .inl hm.1) hz
  have keepO : ∀ u : Opd, (∀ z, u = .var z → AvailIn l c z) →
      u.eval (doPhis ((deletePhi l x o).blk c).phis p s'.env) = u.eval s'.env := by
    intro u hu
    cases u with
    | const => rfl
    | var z => exact keep z (hu z rfl)
  have opk : ∀ r ∈ (l.blk c).phis, ∀ z, r.2 p = .var z → Known l p z := by
    intro r hr z hz
    rcases he with ⟨hp, hs⟩ | ⟨hp, hs⟩
    · exact .inl ⟨hp, w.phiIn c hc p hp hs r hr z hz⟩
    · subst hp hs
      exact .inr ⟨rfl, w.phiEntry r hr z hz⟩
  refine ⟨q.rest, q.cell, ?_⟩
  intro y hy
  by_cases hm : y ∈ (l.blk c).phis.map Prod.fst
  · obtain ⟨r, hr, rfl⟩ := List.mem_map.1 hm
    show doPhis (l.blk c).phis p s.env r.1 = _
    rw [doPhis_mem hnd hr]
    by_cases hrx : r.1 = x
    · have hcb : c = b := site w.toBase hc d.mem (by
        rw [← hrx]; simp only [Blk.defs, List.mem_append]; exact .inl hm) d.defs
      subst hcb
      obtain ⟨r', hr', hrx', h1, h2⟩ := d.phi
      have : r.2 p = o := by
        have e : r = r' := by
          have := List.inj_on_of_nodup_map hnd hr hr' (hrx.trans hrx'.symm)
          exact this
        subst e
        rcases he with ⟨hp, hs⟩ | ⟨hp, hs⟩
        · exact h2 p hp hs
        · rw [hp]; exact h1 hs
      have ex : delSub x o r.1 = o := by simp [delSub, hrx]
      rw [this, ex, keepO o fun z hz => d.avail w hz]
      cases ho : o with
      | const => rfl
      | var z =>
        show s.env z = s'.env z
        rw [q.env z (opk r hr z (this.trans ho))]
        simp [delSub, d.ne w ho, Opd.eval]
    · have ex : delSub x o r.1 = .var r.1 := by simp [delSub, hrx]
      rw [ex]
      have hm' : ((r.1, fun c => (r.2 c).subst (delSub x o)) : Var × (Lab → Opd)) ∈
          ((deletePhi l x o).blk c).phis := by
        simp only [deletePhi, List.mem_map, List.mem_filter]
        exact ⟨r, ⟨hr, by simpa using hrx⟩, rfl⟩
      have := doPhis_mem (p := p) (env := s'.env) hnd' hm'
      show _ = doPhis ((deletePhi l x o).blk c).phis p s'.env r.1
      rw [this]
      exact (q.opd (opk r hr)).symm
  · have hin : AvailIn l c y := by
      rcases hy with hy | hy | hy
      · exact hy
      · exact absurd hy hm
      · simp at hy
    show doPhis (l.blk c).phis p s.env y = _
    rw [doPhis_ne hm, keepO _ fun z hz => (tr_in w d hin hz).2]
    exact q.env y (known_of_in he hin)

theorem eqv_block (w : GWF l) (d : Red l b x o) {p c : Lab} (hc : c ∈ l.blocks)
    (he : IsEdge l p c) {s s' : St R} (q : Eqv x o (Known l p) s s') :
    (execB ((deletePhi l x o).blk c) p s').1 = (execB (l.blk c) p s).1 ∧
      Eqv x o (Known l c) (execB (l.blk c) p s).2 (execB ((deletePhi l x o).blk c) p s').2 := by
  have h := eqv_insts w d hc (eqv_phis w d hc he q) _ (Nat.le_refl _)
  rw [List.take_length] at h
  have h' : Eqv x o (Avail l c (l.blk c).insts.length) (execB (l.blk c) p s).2
      (execB ((deletePhi l x o).blk c) p s').2 := h
  refine ⟨?_, h'.rest, h'.cell, ?_⟩
  · show (l.blk c).br (((l.blk c).targs.map (·.subst (delSub x o))).map
      (·.eval (execB ((deletePhi l x o).blk c) p s').2.env)) =
      (l.blk c).br ((l.blk c).targs.map (·.eval (execB (l.blk c) p s).2.env))
    congr 1
    rw [List.map_map]
    apply List.map_congr_left
    intro u hu
    exact h'.opd fun z hz => availEnd_iff.1 (w.term c hc z (by rw [← hz]; exact hu))
  · rintro y (⟨-, hy⟩ | ⟨hp, hy⟩)
    · exact h'.env y (availEnd_iff.1 hy)
    · exact absurd hc (by rw [hp]; exact w.pre)

theorem del_run (w : GWF l) (d : Red l b x o) (n : Nat) : ∀ c c' : Conf R,
    c'.prev = c.prev → c'.cur = c.cur → IsEdge l c.prev c.cur →
    Eqv x o (Known l c.prev) c.st c'.st →
    (run (deletePhi l x o) n c').prev = (run l n c).prev ∧
    (run (deletePhi l x o) n c').cur = (run l n c).cur ∧
    IsEdge l (run l n c).prev (run l n c).cur ∧
    Eqv x o (Known l (run l n c).prev) (run l n c).st (run (deletePhi l x o) n c').st := by
  induction n with
  | zero => intro c c' h1 h2 h3 h4; exact ⟨h1, h2, h3, h4⟩
  | succ n ih =>
    intro c c' h1 h2 h3 h4
    by_cases hb : c.cur ∈ l.blocks
    · have hb' : c'.cur ∈ (deletePhi l x o).blocks := by rw [h2]; exact hb
      have e1 : step l c = ⟨c.cur, (execB (l.blk c.cur) c.prev c.st).1,
        (execB (l.blk c.cur) c.prev c.st).2⟩ := by unfold step; rw [if_pos hb]
      have e2 : step (deletePhi l x o) c' = ⟨c'.cur,
        (execB ((deletePhi l x o).blk c'.cur) c'.prev c'.st).1,
        (execB ((deletePhi l x o).blk c'.cur) c'.prev c'.st).2⟩ := by
        unfold step; rw [if_pos hb']
      have := eqv_block w d hb h3 h4
      refine ih _ _ ?_ ?_ ?_ ?_
      · rw [e1, e2]; exact h2
      · rw [e1, e2, h1, h2]; exact this.1
      · rw [e1]; exact .inl ⟨hb, w.succs _ hb _⟩
      · rw [e1, e2, h1, h2]; exact this.2
    · have hb' : c'.cur ∉ (deletePhi l x o).blocks := by rw [h2]; exact hb
      have e1 : step l c = c := by unfold step; rw [if_neg hb]
      have e2 : step (deletePhi l x o) c' = c' := by unfold step; rw [if_neg hb']
      refine ih _ _ ?_ ?_ ?_ ?_
      · rw [e1, e2]; exact h1
      · rw [e1, e2]; exact h2
      · rw [e1]; exact h3
      · rw [e1, e2]; exact h4

end Delete

/-! ### Sequences of removals -/

/-- A loop `l'` behaves like `l`, values of `l` are given by `τ`. -/
structure Sim (l l' : Loop R) (τ : Var → Opd) : Prop where
  wf : GWF l'
  blocks : l'.blocks = l.blocks
  header : l'.header = l.header
  pre : l'.pre = l.pre
  succs : ∀ b, (l'.blk b).succs = (l.blk b).succs
  avail : ∀ c y z, AvailIn l c y → τ y = .var z → AvailIn l' c z
  run : ∀ n s, (run l' n (enter l' s)).prev = (run l n (enter l s)).prev ∧
    (run l' n (enter l' s)).cur = (run l n (enter l s)).cur ∧
    (run l' n (enter l' s)).st.rest = (run l n (enter l s)).st.rest ∧
    (run l' n (enter l' s)).st.cell = (run l n (enter l s)).st.cell ∧
    ∀ y, AvailIn l (run l n (enter l s)).cur y →
      (run l n (enter l s)).st.env y = (τ y).eval (run l' n (enter l' s)).st.env

theorem Sim.refl {l : Loop R} (w : GWF l) : Sim l l .var :=
  ⟨w, rfl, rfl, rfl, fun _ => rfl, fun _ _ _ h e => by
    simp only [Opd.var.injEq] at e; subst e; exact h, fun _ _ => ⟨rfl, rfl, rfl, rfl, fun _ _ => rfl⟩⟩

theorem Sim.trans {l l' l'' : Loop R} {τ τ' : Var → Opd} (h : Sim l l' τ) (h' : Sim l' l'' τ') :
    Sim l l'' fun y => (τ y).subst τ' := by
  refine ⟨h'.wf, h'.blocks.trans h.blocks, h'.header.trans h.header, h'.pre.trans h.pre,
    fun b => (h'.succs b).trans (h.succs b), ?_, ?_⟩
  · intro c y z hy hz
    obtain ⟨u, hu, e⟩ := subst_var hz
    exact h'.avail c u z (h.avail c y u hy hu) e
  · intro n s
    obtain ⟨a1, a2, a3, a4, a5⟩ := h.run n s
    obtain ⟨b1, b2, b3, b4, b5⟩ := h'.run n s
    refine ⟨b1.trans a1, b2.trans a2, b3.trans a3, b4.trans a4, ?_⟩
    intro y hy
    rw [a5 y hy]
    cases e : τ y with
    | const => rfl
    | var z => exact b5 z (by rw [a2]; exact h.avail _ y z hy e)

theorem Sim.delete {l : Loop R} {b : Lab} {x : Var} {o : Opd} (w : GWF l) (d : Red l b x o) :
    Sim l (deletePhi l x o) (delSub x o) := by
  refine ⟨del_wf w d, rfl, rfl, rfl, fun _ => rfl, ?_, ?_⟩
  · intro c y z hy hz
    obtain ⟨h1, h2⟩ := tr_in w d hy hz
    exact del_in w d h1 h2
  · intro n s
    have h0 : Eqv x o (Known l l.pre) s s := by
      refine ⟨rfl, rfl, ?_⟩
      rintro y (⟨hp, -⟩ | ⟨-, hy⟩)
      · exact absurd hp w.pre
      · have : y ≠ x := by rintro rfl; exact hy b d.mem d.defs
        simp [delSub, this, Opd.eval]
    obtain ⟨h1, h2, h3, h4⟩ := del_run w d n (enter l s) (enter (deletePhi l x o) s) rfl rfl
      (.inr ⟨rfl, rfl⟩) h0
    exact ⟨h1, h2, h4.rest, h4.cell, fun y hy => h4.env y (known_of_in h3 hy)⟩

/-- A node which is redundant. -/
def IsRed (l : Loop R) (b : Lab) : Prop := ∃ o, ∃ os, phiOps l b = o :: os ∧ ∀ u ∈ os, u = o

theorem redundant_iff {l : Loop R} {b : Lab} : redundant l b = true ↔ IsRed l b := by
  unfold redundant IsRed
  cases phiOps l b with
  | nil => simp
  | cons o os => simp

theorem mem_preds {l : Loop R} {b c : Lab} :
    c ∈ preds l b ↔ (b = l.header ∧ c = l.pre) ∨ (c ∈ l.blocks ∧ b ∈ (l.blk c).succs) := by
  unfold preds
  simp only [List.mem_append, List.mem_filter, decide_eq_true_eq]
  by_cases h : b = l.header <;> simp [h]

theorem IsRed.red {l : Loop R} {b : Lab} (hb : b ∈ l.blocks) {o : Opd} {os : List Opd}
    (h : phiOps l b = o :: os) (ho : ∀ u ∈ os, u = o) : Red l b (.ph b) o := by
  refine ⟨hb, ?_⟩
  unfold phiOps at h
  cases hf : (l.blk b).phis.find? fun p => p.1 = .ph b with
  | none => rw [hf] at h; simp at h
  | some p =>
    rw [hf] at h
    simp only at h
    have hall : ∀ c ∈ preds l b, p.2 c = o := by
      intro c hc
      have : p.2 c ∈ o :: os := by rw [← h]; exact List.mem_map.2 ⟨c, hc, rfl⟩
      rcases List.mem_cons.1 this with e | e
      · exact e
      · exact ho _ e
    refine ⟨p, List.mem_of_find?_eq_some hf, by simpa using List.find?_some hf, ?_, ?_⟩
    · intro e
      exact hall _ (mem_preds.2 (.inl ⟨e, rfl⟩))
    · intro c hc hs
      exact hall _ (mem_preds.2 (.inr ⟨hc, hs⟩))

/-- Operands of other phi-nodes after removal. -/
theorem phiOps_delete {l : Loop R} {b c : Lab} {o : Opd} (hne : c ≠ b) :
    phiOps (deletePhi l (.ph b) o) c = (phiOps l c).map (·.subst (delSub (.ph b) o)) := by
  unfold phiOps
  have hp : preds (deletePhi l (.ph b) o) c = preds l c := rfl
  have hf : ((deletePhi l (.ph b) o).blk c).phis.find? (fun p => p.1 = .ph c) =
      ((l.blk c).phis.find? fun p => p.1 = .ph c).map fun p =>
        (p.1, fun d => (p.2 d).subst (delSub (.ph b) o)) := by
    simp only [deletePhi, List.find?_map]
    congr 1
    generalize (l.blk c).phis = ps
    induction ps with
    | nil => rfl
    | cons p ps ih =>
      rw [List.filter_cons]
      by_cases h1 : p.1 = .ph b
      · have h2 : p.1 ≠ .ph c := by
          rw [h1]; simp only [ne_eq, Var.ph.injEq]; exact fun e => hne e.symm
        rw [if_neg (by simp [h1]), ih, List.find?_cons]
        simp [h2]
      · rw [if_pos (by simp [h1]), List.find?_cons, List.find?_cons, ih]
        rfl
  rw [hp, hf]
  cases (l.blk c).phis.find? fun p => p.1 = .ph c with
  | none => rfl
  | some p => simp [List.map_map]

theorem isRed_delete {l : Loop R} {b c : Lab} {o : Opd} (hne : c ≠ b) (h : IsRed l c) :
    IsRed (deletePhi l (.ph b) o) c := by
  obtain ⟨u, us, e, hu⟩ := h
  refine ⟨u.subst (delSub (.ph b) o), us.map (·.subst (delSub (.ph b) o)), ?_, ?_⟩
  · rw [phiOps_delete hne, e]; rfl
  · intro v hv
    obtain ⟨v', hv', rfl⟩ := List.mem_map.1 hv
    rw [hu v' hv']

theorem subst_subst {σ τ : Var → Opd} (u : Opd) :
    (u.subst σ).subst τ = u.subst fun y => (σ y).subst τ := by
  cases u <;> rfl

/-- Names of phi-nodes are removed only. -/
theorem deleteNode_phis {a : Del R} {b c : Lab} {y : Var}
    (h : y ∈ ((deleteNode a b).loop.blk c).phis.map Prod.fst) :
    y ∈ (a.loop.blk c).phis.map Prod.fst ∧ (phiOps a.loop b ≠ [] → y ≠ .ph b) := by
  unfold deleteNode at h
  cases e : phiOps a.loop b with
  | nil => rw [e] at h; exact ⟨h, by simp⟩
  | cons o os =>
    rw [e] at h
    simp only at h
    rw [del_phis, List.mem_filter] at h
    exact ⟨h.1, fun _ => by simpa using h.2⟩

/-- A round of removals. -/
theorem round_sim : ∀ (del : List Lab) (a : Del R), GWF a.loop →
    del.Nodup → (∀ b ∈ del, b ∈ a.loop.blocks ∧ IsRed a.loop b) →
    ∃ τ, Sim a.loop (del.foldl deleteNode a).loop τ ∧
      (del.foldl deleteNode a).sub = (fun y => (a.sub y).subst τ) ∧
      (del.foldl deleteNode a).erased = a.erased ++ del ∧
      (∀ y, (∀ b ∈ del, y ≠ .ph b) → τ y = .var y) ∧
      ∀ c y, y ∈ ((del.foldl deleteNode a).loop.blk c).phis.map Prod.fst →
        y ∈ (a.loop.blk c).phis.map Prod.fst ∧ ∀ b ∈ del, y ≠ .ph b := by
  intro del
  induction del with
  | nil =>
    intro a w _ _
    refine ⟨_, .refl w, ?_, by simp, fun _ _ => rfl, fun _ _ h => ⟨h, by simp⟩⟩
    funext y
    show a.sub y = _
    cases a.sub y <;> rfl
  | cons b del ih =>
    intro a w hn hd
    simp only [List.nodup_cons] at hn
    obtain ⟨hb, hr⟩ := hd b (by simp)
    obtain ⟨o, os, e, ho⟩ := hr
    have e' : deleteNode a b = ⟨deletePhi a.loop (.ph b) o,
      fun y => (a.sub y).subst (delSub (.ph b) o), a.erased ++ [b], a.null || o.notInst⟩ := by
      unfold deleteNode; rw [e]
    have S := Sim.delete w (IsRed.red hb e ho)
    have hd' : ∀ c ∈ del, c ∈ (deleteNode a b).loop.blocks ∧ IsRed (deleteNode a b).loop c := by
      intro c hc
      obtain ⟨h1, h2⟩ := hd c (by simp [hc])
      rw [e']
      exact ⟨h1, isRed_delete (by rintro rfl; exact hn.1 hc) h2⟩
    obtain ⟨τ, S', h1, h2, h3, h4⟩ := ih (deleteNode a b) (by rw [e']; exact S.wf) hn.2 hd'
    rw [List.foldl_cons]
    refine ⟨fun y => (delSub (.ph b) o y).subst τ, ?_, ?_, ?_, ?_, ?_⟩
    · refine S.trans ?_
      rw [e'] at S' ⊢
      exact S'
    · rw [h1]
      funext y
      rw [e']
      exact subst_subst _
    · rw [h2, e']; simp
    · intro y hy
      have : delSub (.ph b) o y = .var y := by simp [delSub, hy b (by simp)]
      show (delSub (.ph b) o y).subst τ = _
      rw [this]
      exact h3 y fun c hc => hy c (by simp [hc])
    · intro c y hy
      obtain ⟨g1, g2⟩ := h4 c y hy
      obtain ⟨g3, g4⟩ := deleteNode_phis g1
      refine ⟨g3, ?_⟩
      intro d hd
      rcases List.mem_cons.1 hd with rfl | hd
      · exact g4 (by rw [e]; simp)
      · exact g2 d hd

/-- `deleteRedundant` preserves behaviour. -/
theorem redundant_sim : ∀ (n : Nat) (us : List Lab) (a : Del R), GWF a.loop → us.Nodup →
    (∀ b ∈ us, b ∈ a.loop.blocks) →
    ∃ τ, Sim a.loop (deleteRedundant n us a).loop τ ∧
      (deleteRedundant n us a).sub = (fun y => (a.sub y).subst τ) ∧
      (∀ b ∈ a.erased, b ∈ (deleteRedundant n us a).erased) ∧
      ∀ y, (∀ b ∈ (deleteRedundant n us a).erased, y ≠ .ph b) → τ y = .var y := by
  intro n
  have triv : ∀ a : Del R, a.sub = fun y => (a.sub y).subst .var := by
    intro a
    funext y
    show a.sub y = _
    cases a.sub y <;> rfl
  induction n with
  | zero => intro us a w _ _; exact ⟨_, .refl w, triv a, fun _ h => h, fun _ _ => rfl⟩
  | succ n ih =>
    intro us a w hn hu
    by_cases he : us.filter (redundant a.loop) = []
    · simp only [deleteRedundant, he, if_true]
      exact ⟨_, .refl w, triv a, fun _ h => h, fun _ _ => rfl⟩
    · simp only [deleteRedundant, he, if_false]
      have hd : ∀ b ∈ us.filter (redundant a.loop), b ∈ a.loop.blocks ∧ IsRed a.loop b := by
        intro b hb
        rw [List.mem_filter] at hb
        exact ⟨hu b hb.1, redundant_iff.1 hb.2⟩
      obtain ⟨τ, S, h1, h2, h3, -⟩ := round_sim _ a w (hn.sublist List.filter_sublist) hd
      obtain ⟨τ', S', g1, g2, g3⟩ := ih (us.filter fun b => b ∉ us.filter (redundant a.loop))
        ((us.filter (redundant a.loop)).foldl deleteNode a) S.wf
        (hn.sublist List.filter_sublist) (by
          intro b hb
          rw [S.blocks]
          exact hu b (List.mem_of_mem_filter hb))
      rw [h2] at g2
      refine ⟨_, S.trans S', ?_, fun b hb => g2 b (by simp [hb]), ?_⟩
      · rw [g1, h1]
        funext y
        exact subst_subst _
      intro y hy
      rw [h3 y fun b hb => hy b (g2 b (by rw [List.mem_append]; exact .inr hb))]
      exact g3 y hy

/-- There are no redundant phi-nodes after `deleteRedundant`. -/
theorem redundant_none : ∀ (n : Nat) (us : List Lab) (a : Del R), us.length < n →
    GWF a.loop → us.Nodup → (∀ b ∈ us, b ∈ a.loop.blocks) →
    (∀ b ∈ a.loop.blocks, .ph b ∈ (a.loop.blk b).phis.map Prod.fst → b ∈ us) →
    ∀ b ∈ a.loop.blocks,
      .ph b ∈ ((deleteRedundant n us a).loop.blk b).phis.map Prod.fst →
      redundant (deleteRedundant n us a).loop b = false := by
  intro n
  induction n with
  | zero => intro us a h; omega
  | succ n ih =>
    intro us a h w hn hu hp
    by_cases he : us.filter (redundant a.loop) = []
    · simp only [deleteRedundant, he, if_true]
      intro b hb hm
      cases hr : redundant a.loop b with
      | false => rfl
      | true =>
        have : b ∈ us.filter (redundant a.loop) := List.mem_filter.2 ⟨hp b hb hm, hr⟩
        rw [he] at this
        simp at this
    · simp only [deleteRedundant, he, if_false]
      have hd : ∀ b ∈ us.filter (redundant a.loop), b ∈ a.loop.blocks ∧ IsRed a.loop b := by
        intro b hb
        rw [List.mem_filter] at hb
        exact ⟨hu b hb.1, redundant_iff.1 hb.2⟩
      obtain ⟨τ, S, -, -, -, h4⟩ := round_sim _ a w (hn.sublist List.filter_sublist) hd
      have key := ih (us.filter fun b => b ∉ us.filter (redundant a.loop))
        ((us.filter (redundant a.loop)).foldl deleteNode a) ?_ S.wf
        (hn.sublist List.filter_sublist) ?_ ?_
      · rw [S.blocks] at key
        exact key
      · obtain ⟨d, hd⟩ := List.exists_mem_of_ne_nil _ he
        have hdu := (List.mem_filter.1 hd).1
        have : (us.filter fun b => b ∉ us.filter (redundant a.loop)).length < us.length := by
          rw [List.length_filter_lt_length_iff_exists]
          exact ⟨d, hdu, by simpa using hd⟩
        omega
      · intro b hb
        rw [S.blocks]
        exact hu b (List.mem_of_mem_filter hb)
      · intro b hb hm
        rw [S.blocks] at hb
        obtain ⟨h5, h6⟩ := h4 b _ hm
        rw [List.mem_filter]
        refine ⟨hp b hb h5, ?_⟩
        simp only [decide_not, Bool.not_eq_eq_eq_not, Bool.not_true, decide_eq_false_iff_not]
        exact fun hm' => h6 b hm' rfl

theorem substI_id (x : Inst R) : substI .var x = x := by
  have hs : ∀ u : Opd, u.subst .var = u := fun u => by cases u <;> rfl
  cases x with
  | load => rfl
  | store u => simp [substI, hs]
  | other r args f =>
    have : args.map (·.subst .var) = args := by
      conv_rhs => rw [← List.map_id args]
      exact List.map_congr_left fun u _ => hs u
    simp [substI, this]

theorem substI_comp (σ τ : Var → Opd) (y : Inst R) :
    substI σ (substI τ y) = substI (fun z => (τ z).subst σ) y := by
  cases y with
  | load => rfl
  | store u => simp [substI, subst_subst]
  | other r args f => simp [substI, List.map_map, Function.comp_def, subst_subst]

/-- Instructions of a block are changed by substitutions only. -/
theorem redundant_insts : ∀ (n : Nat) (us : List Lab) (a : Del R) (b : Lab),
    ∀ x ∈ ((deleteRedundant n us a).loop.blk b).insts, ∃ y ∈ (a.loop.blk b).insts, ∃ σ,
      x = substI σ y := by
  have one : ∀ (a : Del R) (c b : Lab),
      ∀ x ∈ ((deleteNode a c).loop.blk b).insts, ∃ y ∈ (a.loop.blk b).insts, ∃ σ,
        x = substI σ y := by
    intro a c b
    unfold deleteNode
    split
    · intro x hx
      simp only [deletePhi, List.mem_map] at hx
      obtain ⟨y, hy, rfl⟩ := hx
      exact ⟨y, hy, _, rfl⟩
    · exact fun x hx => ⟨x, hx, .var, (substI_id x).symm⟩
  have many : ∀ (del : List Lab) (a : Del R) (b : Lab),
      ∀ x ∈ ((del.foldl deleteNode a).loop.blk b).insts, ∃ y ∈ (a.loop.blk b).insts, ∃ σ,
        x = substI σ y := by
    intro del
    induction del with
    | nil => intro a b x hx; exact ⟨x, hx, .var, (substI_id x).symm⟩
    | cons c del ih =>
      intro a b x hx
      rw [List.foldl_cons] at hx
      obtain ⟨y, hy, σ, rfl⟩ := ih (deleteNode a c) b x hx
      obtain ⟨z, hz, τ, rfl⟩ := one a c b y hy
      exact ⟨z, hz, _, substI_comp σ τ z⟩
  intro n
  induction n with
  | zero => intro us a b; exact many [] a b
  | succ n ih =>
    intro us a b
    by_cases he : us.filter (redundant a.loop) = []
    · simp only [deleteRedundant, he, if_true]
      exact fun x hx => ⟨x, hx, .var, (substI_id x).symm⟩
    · simp only [deleteRedundant, he, if_false]
      intro x hx
      obtain ⟨y, hy, σ, rfl⟩ := ih (us.filter fun b => b ∉ us.filter (redundant a.loop))
        ((us.filter (redundant a.loop)).foldl deleteNode a) b x hx
      obtain ⟨z, hz, τ, rfl⟩ := many (us.filter (redundant a.loop)) a b y hy
      exact ⟨z, hz, _, substI_comp σ τ z⟩

end Tsar.PtrReg
