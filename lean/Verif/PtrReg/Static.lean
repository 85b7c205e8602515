import Verif.PtrReg.Lemmas

/-!
# Values which are known in registers
-/

namespace Tsar.PtrReg

variable {R : Type}

/-- A load from the promoted location with users. -/
def UL (l : Loop R) (used : Var → Bool) (x : Var) : Prop :=
  ∃ b ∈ l.blocks, Inst.load x ∈ (l.blk b).insts ∧ used x = true

theorem UL.mem {l : Loop R} {used : Var → Bool} {b : Lab} {x : Var}
    (h : Inst.load x ∈ (l.blk b).insts) : x ∈ (l.blk b).defs := by
  simp only [Blk.defs, List.mem_append, List.mem_filterMap]
  exact .inr ⟨_, h, rfl⟩

theorem UL.orig {l : Loop R} {used : Var → Bool} (w : WF l used) {x : Var} (h : UL l used x) :
    ∃ n, x = .v n := by
  obtain ⟨b, hb, h, -⟩ := h
  exact w.names b hb x (UL.mem (used := used) h)

/-- `z` keeps its value before instruction `i` of `b` in the transformed loop. -/
def Av (l : Loop R) (used : Var → Bool) (k : Links) (b : Lab) (i : Nat) : Var → Prop
  | .ld => True
  | .ph r => k r = some r ∧ r ∈ l.blocks ∧ (r = b ∨ ∀ π, Path l π b → r ∈ π)
  | .v n => used (.v n) = true ∧ Avail l b i (.v n)

/-- An operand is known. -/
def AvO (l : Loop R) (used : Var → Bool) (k : Links) (b : Lab) (i : Nat) (o : Opd) : Prop :=
  ∀ z, o = .var z → ¬ UL l used z ∧ Av l used k b i z

theorem AvO.mono {l : Loop R} {used : Var → Bool} {k : Links} {b : Lab} {i j : Nat} {o : Opd}
    (h : AvO l used k b i o) (hij : i ≤ j) : AvO l used k b j o := by
  intro z hz
  obtain ⟨h1, h2⟩ := h z hz
  refine ⟨h1, ?_⟩
  cases z with
  | ld => trivial
  | ph r => exact h2
  | v n => exact ⟨h2.1, h2.2.mono hij⟩

/-- If each path to `b` contains `c` then everything known in `c` is known in `b`. -/
theorem AvO.trans {l : Loop R} {used : Var → Bool} {k : Links} {b c : Lab} {i j : Nat} {o : Opd}
    (h : AvO l used k c i o) (hc : ∀ π, Path l π b → c ∈ π) : AvO l used k b j o := by
  intro z hz
  obtain ⟨h1, h2⟩ := h z hz
  refine ⟨h1, ?_⟩
  cases z with
  | ld => trivial
  | ph r =>
    obtain ⟨a1, a2, a3⟩ := h2
    refine ⟨a1, a2, .inr ?_⟩
    intro π hπ
    rcases a3 with rfl | a3
    · exact hc π hπ
    · obtain ⟨π', p1, -, p3⟩ := hπ.split (hc π hπ)
      exact p3 _ (a3 π' p1)
  | v n =>
    refine ⟨h2.1, .inl ?_⟩
    have : AvailEnd l c (.v n) := h2.2.toEnd
    rcases this with (h | h) | h
    · exact .inl h
    · refine .inr fun π hπ => ?_
      obtain ⟨π', p1, -, p3⟩ := hπ.split (hc π hπ)
      obtain ⟨d, hd, hx⟩ := h π' p1
      exact ⟨d, p3 d hd, hx⟩
    · exact .inr fun π hπ => ⟨c, hc π hπ, h⟩

/-- The value of the promoted location after an instruction. -/
def curStep (σ : Var → Opd) (v : Opd) : Inst R → Opd
  | .store o => o.subst σ
  | .load _ => v
  | .other _ _ _ => v

/-- The value of the promoted location after the first `i` instructions. -/
def cur (σ : Var → Opd) (v0 : Opd) (is : List (Inst R)) (i : Nat) : Opd :=
  (is.take i).foldl (curStep σ) v0

theorem cur_zero {σ : Var → Opd} {v0 : Opd} {is : List (Inst R)} : cur σ v0 is 0 = v0 := rfl

theorem cur_succ {σ : Var → Opd} {v0 : Opd} {is : List (Inst R)} {i : Nat} {a : Inst R}
    (h : is[i]? = some a) : cur σ v0 is (i + 1) = curStep σ (cur σ v0 is i) a := by
  unfold cur
  rw [List.take_add_one, h]
  simp only [Option.toList, List.foldl_append, List.foldl_cons, List.foldl_nil]

theorem cur_congr {σ σ' : Var → Opd} {v0 : Opd} {is : List (Inst R)} {i : Nat}
    (h : ∀ o, Inst.store o ∈ is → o.subst σ = o.subst σ') :
    cur σ v0 is i = cur σ' v0 is i := by
  unfold cur
  have h' : ∀ o, Inst.store o ∈ is.take i → o.subst σ = o.subst σ' :=
    fun o ho => h o (List.mem_of_mem_take ho)
  generalize is.take i = js at h'
  induction js generalizing v0 with
  | nil => rfl
  | cons a js ih =>
    simp only [List.foldl_cons]
    cases a with
    | store o =>
      simp only [curStep]
      rw [h' o (by simp)]
      exact ih fun o ho => h' o (by simp [ho])
    | load x => exact ih fun o ho => h' o (by simp [ho])
    | other => exact ih fun o ho => h' o (by simp [ho])

/-- The value of the promoted location at the entry of a block. -/
def entryV (l : Loop R) (k : Links) (last : Lab → Option Opd) (b : Lab) : Opd :=
  if k b = some b then .var (.ph b) else (last (singlePred l b)).getD (.const 0)

/-- The value of the promoted location before instruction `i` of `b`. -/
def curB (l : Loop R) (k : Links) (h : H) (b : Lab) (i : Nat) : Opd :=
  cur h.sub (entryV l k h.last b) (l.blk b).insts i

/-- A load has been processed. -/
def Proc (l : Loop R) (used : Var → Bool) (h : H) (x : Var) : Prop :=
  ∃ b ∈ l.blocks, h.comp b = true ∧ Inst.load x ∈ (l.blk b).insts ∧ used x = true

/-- The invariant of `handleLoads`. -/
structure HInv (l : Loop R) (used : Var → Bool) (k : Links) (h : H) : Prop where
  pre : h.last l.pre = some (.var .ld)
  unproc : ∀ y, ¬ Proc l used h y → h.sub y = .var y
  last : ∀ b ∈ l.blocks, h.comp b = true →
    h.last b = some (curB l k h b (l.blk b).insts.length)
  load : ∀ b ∈ l.blocks, h.comp b = true → ∀ (i : Nat) x,
    (l.blk b).insts[i]? = some (.load x) → used x = true → h.sub x = curB l k h b i
  av : ∀ b ∈ l.blocks, h.comp b = true → ∀ i ≤ (l.blk b).insts.length,
    AvO l used k b i (curB l k h b i)
  path : ∀ b ∈ l.blocks, h.comp b = true → ∃ π, Path l π b ∧ ∀ c ∈ π, h.comp c = true

theorem HInv.proc {l : Loop R} {used : Var → Bool} {k : Links} {h : H} (i : HInv l used k h)
    {y : Var} (hp : Proc l used h y) : ∃ b ∈ l.blocks, h.comp b = true ∧ ∃ j : Nat,
      (l.blk b).insts[j]? = some (.load y) ∧ h.sub y = curB l k h b j ∧
      AvO l used k b j (h.sub y) := by
  obtain ⟨b, hb, hc, hl, hu⟩ := hp
  obtain ⟨j, hj⟩ := List.getElem?_of_mem hl
  have e := i.load b hb hc j y hj hu
  refine ⟨b, hb, hc, j, hj, e, ?_⟩
  rw [e]
  refine i.av b hb hc j ?_
  have := (List.getElem?_eq_some_iff.1 hj).1
  omega

/-- If an operand is available and it is a promoted load then the load has been
processed or it is in the same block. -/
theorem avail_proc {l : Loop R} {used : Var → Bool} {h : H} (w : WF l used)
    {b : Lab} (hb : b ∈ l.blocks) {i : Nat} {y : Var} (hy : UL l used y) (ha : Avail l b i y)
    (hπ : ∃ π, Path l π b ∧ ∀ c ∈ π, h.comp c = true) :
    (Proc l used h y ∧ AvailIn l b y) ∨ Inst.load y ∈ (l.blk b).insts.take i := by
  obtain ⟨c, hc, hl, hu⟩ := hy
  have hm := UL.mem (used := used) hl
  rcases ha with ha | ha | ha
  · left
    refine ⟨?_, ha⟩
    obtain ⟨π, hπ, hd⟩ := hπ
    exact ⟨c, hc, hd c (availIn_path w.toBase hc hm ha π hπ), hl, hu⟩
  · exfalso
    have hbc : b = c := site w.toBase hb hc (by simp only [Blk.defs, List.mem_append]; exact .inl ha) hm
    subst hbc
    exact not_phi w.toBase hb (List.mem_filterMap.2 ⟨_, hl, rfl⟩) ha
  · right
    have hbc : b = c := site w.toBase hb hc (by
      rw [List.mem_filterMap] at ha
      obtain ⟨a, ha, e⟩ := ha
      simp only [Blk.defs, List.mem_append]
      exact .inr (List.mem_filterMap.2 ⟨a, List.mem_of_mem_take ha, e⟩)) hm
    subst hbc
    obtain ⟨j, hj⟩ := List.getElem?_of_mem hl
    have := take_lt w.toBase hb hj rfl ha
    rw [List.mem_iff_getElem?]
    exact ⟨j, by rw [List.getElem?_take_of_lt this]; exact hj⟩

/-- Processing of instructions of a block. -/
structure Fold (l : Loop R) (used : Var → Bool) (k : Links) (b : Lab) (σ : Var → Opd)
    (v0 : Opd) (i : Nat) (a : Opd × (Var → Opd)) : Prop where
  same : ∀ y, (used y = true → Inst.load y ∉ (l.blk b).insts.take i) → a.2 y = σ y
  load : ∀ (j : Nat) x, j < i → (l.blk b).insts[j]? = some (.load x) → used x = true →
    a.2 x = (((l.blk b).insts.take j).foldl (memInst used) (v0, σ)).1
  av : AvO l used k b i a.1

theorem fold_ok {l : Loop R} {used : Var → Bool} {k : Links} {h : H} (w : WF l used)
    (I : HInv l used k h) {b : Lab} (hb : b ∈ l.blocks) (hcb : h.comp b = false)
    (hπ : ∃ π, Path l π b ∧ ∀ c ∈ π, h.comp c = true) {v0 : Opd} (h0 : AvO l used k b 0 v0) :
    ∀ i ≤ (l.blk b).insts.length, Fold l used k b h.sub v0 i
      (((l.blk b).insts.take i).foldl (memInst used) (v0, h.sub)) := by
  intro i
  induction i using Nat.strongRecOn with
  | ind i ih =>
  intro hi
  cases i with
  | zero => exact ⟨fun _ _ => rfl, fun j x hj => by omega, by simpa using h0⟩
  | succ i =>
    have ihi := ih i (by omega) (by omega)
    obtain ⟨a, ha⟩ : ∃ a, (l.blk b).insts[i]? = some a := ⟨_, List.getElem?_eq_getElem (by omega)⟩
    have e : ((l.blk b).insts.take (i + 1)).foldl (memInst used) (v0, h.sub) =
        memInst used (((l.blk b).insts.take i).foldl (memInst used) (v0, h.sub)) a := by
      rw [List.take_add_one, ha]
      simp only [Option.toList, List.foldl_append, List.foldl_cons, List.foldl_nil]
    have et : (l.blk b).insts.take (i + 1) = (l.blk b).insts.take i ++ [a] := by
      rw [List.take_add_one, ha]; rfl
    rw [e]
    set A := ((l.blk b).insts.take i).foldl (memInst used) (v0, h.sub) with hA
    have notUL : ∀ {y : Var}, ¬ UL l used y → A.2 y = .var y := by
      intro y hy
      rw [ihi.same y (fun hu hl => hy ⟨b, hb, List.mem_of_mem_take hl, hu⟩)]
      exact I.unproc y fun hp => hy (by
        obtain ⟨c, hc, -, h1, h2⟩ := hp; exact ⟨c, hc, h1, h2⟩)
    cases a with
    | other x args f =>
      refine ⟨?_, ?_, ihi.av.mono (by omega)⟩
      · intro y hy
        refine ihi.same y fun hu hl => hy hu ?_
        rw [et]; simp [hl]
      · intro j x hj hjl hu
        rcases Nat.lt_succ_iff_lt_or_eq.1 hj with hj | rfl
        · exact ihi.load j x hj hjl hu
        · rw [ha] at hjl; simp at hjl
    | store o =>
      refine ⟨?_, ?_, ?_⟩
      · intro y hy
        refine ihi.same y fun hu hl => hy hu ?_
        rw [et]; simp [hl]
      · intro j x hj hjl hu
        rcases Nat.lt_succ_iff_lt_or_eq.1 hj with hj | rfl
        · exact ihi.load j x hj hjl hu
        · rw [ha] at hjl; simp at hjl
      · show AvO l used k b (i + 1) (o.subst A.2)
        cases o with
        | const c => intro z hz; simp [Opd.subst] at hz
        | var y =>
          obtain ⟨n, rfl, hu, hav⟩ := w.inst b hb i _ ha (.var y) (by simp [Inst.ops]) y rfl
          show AvO l used k b (i + 1) (A.2 (.v n))
          by_cases hy : UL l used (.v n)
          · rcases avail_proc w hb hy hav hπ with ⟨hp, hin⟩ | hl
            · have : A.2 (.v n) = h.sub (.v n) := by
                refine ihi.same _ fun _ hl => ?_
                exact not_availIn w.toBase hb (UL.mem (used := used) (List.mem_of_mem_take hl)) hin
              rw [this]
              obtain ⟨c, hc, hcc, j, hj, -, hav'⟩ := I.proc hp
              exact hav'.trans (availIn_path w.toBase hc
                (UL.mem (used := used) (List.mem_of_getElem? hj)) hin)
            · obtain ⟨j, hj⟩ := List.getElem?_of_mem hl
              have hji : j < i := by
                by_contra hge
                rw [List.getElem?_take_eq_none (by omega)] at hj
                simp at hj
              rw [List.getElem?_take_of_lt hji] at hj
              rw [ihi.load j _ hji hj hu]
              exact (ih j (by omega) (by omega)).av.mono (by omega)
          · rw [notUL hy]
            intro z hz
            simp only [Opd.var.injEq] at hz
            subst hz
            exact ⟨hy, hu, hav.mono (by omega)⟩
    | load x =>
      by_cases hu : used x = true
      · simp only [memInst, hu, if_true]
        have hux : UL l used x := ⟨b, hb, List.mem_of_getElem? ha, hu⟩
        have hxt : Inst.load x ∉ (l.blk b).insts.take i := fun hl =>
          not_take w.toBase hb ha rfl (List.mem_filterMap.2 ⟨_, hl, rfl⟩)
        have hxx : A.2 x = .var x := by
          rw [ihi.same x fun _ => hxt]
          refine I.unproc x ?_
          rintro ⟨c, hc, hcc, hl, -⟩
          have : b = c := site w.toBase hb hc (UL.mem (used := used) (List.mem_of_getElem? ha))
            (UL.mem (used := used) hl)
          subst this
          rw [hcb] at hcc; simp at hcc
        have hyx : ∀ y, y ≠ x → A.2 y ≠ .var x := by
          intro y hy h1
          by_cases hyl : used y = true ∧ Inst.load y ∈ (l.blk b).insts.take i
          · obtain ⟨j, hj⟩ := List.getElem?_of_mem hyl.2
            have hji : j < i := by
              by_contra hge
              rw [List.getElem?_take_eq_none (by omega)] at hj
              simp at hj
            rw [List.getElem?_take_of_lt hji] at hj
            rw [ihi.load j y hji hj hyl.1] at h1
            exact ((ih j (by omega) (by omega)).av x h1).1 hux
          · rw [ihi.same y fun h2 h3 => hyl ⟨h2, h3⟩] at h1
            by_cases hp : Proc l used h y
            · obtain ⟨c, hc, hcc, j, hj, -, hav'⟩ := I.proc hp
              exact (hav' x h1).1 hux
            · rw [I.unproc y hp] at h1
              simp only [Opd.var.injEq] at h1
              exact hy h1
        have hr : ∀ y, y ≠ x → rauw A.2 x A.1 y = A.2 y := by
          intro y hy
          simp only [rauw, if_neg (hyx y hy)]
        have hrx : rauw A.2 x A.1 x = A.1 := by simp [rauw, hxx]
        refine ⟨?_, ?_, ihi.av.mono (by omega)⟩
        · intro y hy
          have hne : y ≠ x := by
            rintro rfl
            exact hy hu (by rw [et]; simp)
          show rauw A.2 x A.1 y = _
          rw [hr y hne]
          refine ihi.same y fun hu hl => hy hu ?_
          rw [et]; simp [hl]
        · intro j y hj hjl huy
          show rauw A.2 x A.1 y = _
          rcases Nat.lt_succ_iff_lt_or_eq.1 hj with hj | rfl
          · have hne : y ≠ x := by
              rintro rfl
              apply hxt
              rw [List.mem_iff_getElem?]
              exact ⟨j, by rw [List.getElem?_take_of_lt hj]; exact hjl⟩
            rw [hr y hne]
            exact ihi.load j y hj hjl huy
          · rw [ha] at hjl
            simp only [Option.some.injEq, Inst.load.injEq] at hjl
            subst hjl
            rw [hrx]
      · have : memInst used A (Inst.load x : Inst R) = A := by simp [memInst, hu]
        rw [this]
        refine ⟨?_, ?_, ihi.av.mono (by omega)⟩
        · intro y hy
          refine ihi.same y fun hu hl => hy hu ?_
          rw [et]; simp [hl]
        · intro j y hj hjl huy
          rcases Nat.lt_succ_iff_lt_or_eq.1 hj with hj | rfl
          · exact ihi.load j y hj hjl huy
          · rw [ha] at hjl
            simp only [Option.some.injEq, Inst.load.injEq] at hjl
            subst hjl
            exact absurd huy hu

/-- The result of `fold` in terms of the final substitution. -/
theorem fold_cur {l : Loop R} {used : Var → Bool} {k : Links} {h : H} (w : WF l used)
    (I : HInv l used k h) {b : Lab} (hb : b ∈ l.blocks) (hcb : h.comp b = false)
    (hπ : ∃ π, Path l π b ∧ ∀ c ∈ π, h.comp c = true) {v0 : Opd} (h0 : AvO l used k b 0 v0) :
    ∀ i ≤ (l.blk b).insts.length,
      (((l.blk b).insts.take i).foldl (memInst used) (v0, h.sub)).1 =
      cur ((l.blk b).insts.foldl (memInst used) (v0, h.sub)).2 v0 (l.blk b).insts i := by
  have F := fold_ok w I hb hcb hπ h0
  have Fe := F _ (Nat.le_refl _)
  rw [List.take_length] at Fe
  intro i
  induction i with
  | zero => intro _; simp [cur]
  | succ i ih =>
    intro hi
    obtain ⟨a, ha⟩ : ∃ a, (l.blk b).insts[i]? = some a := ⟨_, List.getElem?_eq_getElem (by omega)⟩
    have e : ((l.blk b).insts.take (i + 1)).foldl (memInst used) (v0, h.sub) =
        memInst used (((l.blk b).insts.take i).foldl (memInst used) (v0, h.sub)) a := by
      rw [List.take_add_one, ha]
      simp only [Option.toList, List.foldl_append, List.foldl_cons, List.foldl_nil]
    rw [e, cur_succ ha]
    cases a with
    | other x args f => exact ih (by omega)
    | load x =>
      simp only [memInst]
      split
      · exact ih (by omega)
      · exact ih (by omega)
    | store o =>
      simp only [memInst]
      cases o with
      | const c => rfl
      | var y =>
        show (((l.blk b).insts.take i).foldl (memInst used) (v0, h.sub)).2 y =
          ((l.blk b).insts.foldl (memInst used) (v0, h.sub)).2 y
        obtain ⟨n, rfl, hu, hav⟩ := w.inst b hb i _ ha (.var y) (by simp [Inst.ops]) y rfl
        have Fi := F i (by omega)
        by_cases hl : Inst.load (.v n) ∈ (l.blk b).insts
        · obtain ⟨j, hj⟩ := List.getElem?_of_mem hl
          have hji : j < i := by
            by_contra hge
            exact not_avail w.toBase hb hj rfl (by
              rcases avail_proc (h := h) w hb ⟨b, hb, hl, hu⟩ hav hπ with ⟨-, hin⟩ | hl'
              · exact .inl hin
              · refine .inr (.inr (List.mem_filterMap.2 ⟨Inst.load (.v n), ?_, rfl⟩))
                exact (List.take_subset_take_left _ (by omega)) hl')
          have hjl := (List.getElem?_eq_some_iff.1 hj).1
          rw [Fi.load j _ hji hj hu, Fe.load j _ hjl hj hu]
        · rw [Fi.same _ fun _ h => hl (List.mem_of_mem_take h), Fe.same _ fun _ h => hl (by
            simpa using h)]

theorem memBlock_inv {l : Loop R} {used : Var → Bool} {k : Links} {h : H} (w : WF l used)
    (hk : ∀ b ∈ l.blocks, k b = some b ↔ ¬ Single l b)
    (I : HInv l used k h) {b : Lab} (hb : b ∈ l.blocks) (hcb : h.comp b = false)
    (hπ : ∃ π, Path l π b ∧ ∀ c ∈ π, h.comp c = true) :
    HInv l used k (memBlock l used k h b) := by
  set v0 := entryV l k h.last b with hv0
  have single : k b ≠ some b → Single l b := fun hne => by
    by_contra hs; exact hne ((hk b hb).2 hs)
  have predc : ∀ c ∈ l.blocks, (∃ π, Path l π c ∧ ∀ c ∈ π, h.comp c = true) → k c ≠ some c →
      Single l c ∧ h.comp (singlePred l c) = true := by
    intro c hc hπ' hne
    have hs : Single l c := by by_contra hs; exact hne ((hk c hc).2 hs)
    obtain ⟨π, hπ', hd⟩ := hπ'
    obtain ⟨π', rfl, -⟩ := path_single w hs hπ'
    exact ⟨hs, hd _ (by simp)⟩
  have h0 : AvO l used k b 0 v0 := by
    rw [hv0, entryV]
    split
    · rename_i hkb
      intro z hz
      simp only [Opd.var.injEq] at hz
      subst hz
      refine ⟨fun hu => ?_, hkb, hb, .inl rfl⟩
      obtain ⟨n, e⟩ := UL.orig w hu
      simp at e
    · rename_i hkb
      obtain ⟨hs, hpc⟩ := predc b hb hπ hkb
      rw [I.last _ hs.2 hpc]
      refine AvO.trans (I.av _ hs.2 hpc _ (Nat.le_refl _)) ?_
      intro π hp
      obtain ⟨π', rfl, -⟩ := path_single w hs hp
      simp
  have F := fold_ok w I hb hcb hπ h0
  have C := fold_cur w I hb hcb hπ h0
  set A := (l.blk b).insts.foldl (memInst used) (v0, h.sub) with hA
  have Fe := F _ (Nat.le_refl _)
  rw [List.take_length, ← hA] at Fe
  have em : memBlock l used k h b =
      ⟨Function.update h.comp b true, Function.update h.last b (some A.1), A.2⟩ := rfl
  rw [em]
  have hcomp : ∀ c, c ≠ b → (Function.update h.comp b true) c = h.comp c :=
    fun c hc => Function.update_of_ne hc _ _
  have hlast : ∀ c, c ≠ b → (Function.update h.last b (some A.1)) c = h.last c :=
    fun c hc => Function.update_of_ne hc _ _
  -- entries and values of processed blocks are the same
  have hsub : ∀ y, Inst.load y ∉ (l.blk b).insts → A.2 y = h.sub y := by
    intro y hy
    exact Fe.same y fun _ hl => hy (by simpa using hl)
  have stable : ∀ c ∈ l.blocks, h.comp c = true → ∀ i,
      curB l k ⟨Function.update h.comp b true, Function.update h.last b (some A.1), A.2⟩ c i =
      curB l k h c i := by
    intro c hc hcc i
    have hne : c ≠ b := by rintro rfl; rw [hcb] at hcc; simp at hcc
    have hpath := I.path c hc hcc
    have e1 : entryV l k (Function.update h.last b (some A.1)) c = entryV l k h.last c := by
      unfold entryV
      split
      · rfl
      · rename_i hkc
        obtain ⟨hs, hpc⟩ := predc c hc hpath hkc
        have : singlePred l c ≠ b := by rintro e; rw [e, hcb] at hpc; simp at hpc
        rw [hlast _ this]
    unfold curB
    rw [e1]
    apply cur_congr
    intro o ho
    cases o with
    | const => rfl
    | var y =>
      show A.2 y = h.sub y
      obtain ⟨j, hj⟩ := List.getElem?_of_mem ho
      obtain ⟨n, rfl, hu, hav⟩ := w.inst c hc j _ hj (.var y) (by simp [Inst.ops]) y rfl
      apply hsub
      intro hl
      rcases avail_proc w hc ⟨b, hb, hl, hu⟩ hav hpath with ⟨⟨d, hd, hdc, hdl, -⟩, -⟩ | hl'
      · have : d = b := site w.toBase hd hb (UL.mem (used := used) hdl) (UL.mem (used := used) hl)
        subst this
        rw [hcb] at hdc; simp at hdc
      · exact hne (site w.toBase hc hb (UL.mem (used := used) (List.mem_of_mem_take hl'))
          (UL.mem (used := used) hl))
  have hself : singlePred l b = b → k b = some b := by
    intro e
    by_contra hne
    obtain ⟨hs, hpc⟩ := predc b hb hπ hne
    rw [e, hcb] at hpc; simp at hpc
  have curb : ∀ i, curB l k ⟨Function.update h.comp b true, Function.update h.last b (some A.1),
      A.2⟩ b i = cur A.2 v0 (l.blk b).insts i := by
    intro i
    have e1 : entryV l k (Function.update h.last b (some A.1)) b = v0 := by
      rw [hv0]
      unfold entryV
      split
      · rfl
      · rename_i hkb
        rw [hlast _ fun e => hkb (hself e)]
    unfold curB
    rw [e1]
  refine ⟨?_, ?_, ?_, ?_, ?_, ?_⟩
  · show (Function.update h.last b (some A.1)) l.pre = _
    rw [hlast _ (fun e => w.pre (by rw [e]; exact hb))]
    exact I.pre
  · intro y hy
    by_cases hl : Inst.load y ∈ (l.blk b).insts ∧ used y = true
    · exact absurd ⟨b, hb, by simp, hl.1, hl.2⟩ hy
    · have : A.2 y = h.sub y := Fe.same y fun h1 h2 => hl ⟨by simpa using h2, h1⟩
      show A.2 y = _
      rw [this]
      refine I.unproc y ?_
      rintro ⟨c, hc, hcc, hcl, hcu⟩
      refine hy ⟨c, hc, ?_, hcl, hcu⟩
      by_cases hne : c = b
      · subst hne; simp
      · show (Function.update h.comp b true) c = true
        rw [hcomp c hne]; exact hcc
  · intro c hc hcc
    by_cases hne : c = b
    · subst hne
      rw [curb]
      simp only [Function.update_self]
      have := C _ (Nat.le_refl _)
      rw [List.take_length] at this
      rw [← this]
    · have hcc' : h.comp c = true := by rw [← hcomp c hne]; exact hcc
      rw [stable c hc hcc']
      show (Function.update h.last b (some A.1)) c = _
      rw [hlast c hne]
      exact I.last c hc hcc'
  · intro c hc hcc i x hx hu
    by_cases hne : c = b
    · subst hne
      rw [curb]
      have hil := (List.getElem?_eq_some_iff.1 hx).1
      show A.2 x = _
      rw [Fe.load i x hil hx hu, C i (by omega)]
    · have hcc' : h.comp c = true := by rw [← hcomp c hne]; exact hcc
      rw [stable c hc hcc']
      show A.2 x = _
      rw [hsub x fun hl => hne (site w.toBase hc hb
        (UL.mem (used := used) (List.mem_of_getElem? hx)) (UL.mem (used := used) hl))]
      exact I.load c hc hcc' i x hx hu
  · intro c hc hcc i hi
    by_cases hne : c = b
    · subst hne
      rw [curb, ← C i hi]
      exact (F i hi).av
    · have hcc' : h.comp c = true := by rw [← hcomp c hne]; exact hcc
      rw [stable c hc hcc']
      exact I.av c hc hcc' i hi
  · intro c hc hcc
    have lift : (∃ π, Path l π c ∧ ∀ d ∈ π, h.comp d = true) →
        ∃ π, Path l π c ∧ ∀ d ∈ π, (Function.update h.comp b true) d = true := by
      rintro ⟨π, p1, p2⟩
      refine ⟨π, p1, fun d hd => ?_⟩
      by_cases e : d = b
      · subst e; simp
      · rw [hcomp d e]; exact p2 d hd
    by_cases hne : c = b
    · subst hne; exact lift hπ
    · have hcc' : h.comp c = true := by rw [← hcomp c hne]; exact hcc
      exact lift (I.path c hc hcc')

/-- Results of `handleLoads`. -/
theorem handle_ok {l : Loop R} {used : Var → Bool} (w : WF l used) (hx : Unshared l) :
    let h := handleLoads l used (insertPhiNodes l)
    HInv l used (insertPhiNodes l) h ∧ (∀ b ∈ l.blocks, h.comp b = true) ∧
      ∀ b ∈ l.blocks, ∀ e ∈ (l.blk b).succs, e ∉ l.blocks → h.last e = h.last b := by
  have hk := links_spec w
  have edge_last : ∀ (h : H) (b e c : Lab), e ∉ l.blocks → c ∈ l.blocks →
      (exitEdge h b e).last c = h.last c := by
    intro h b e c he hc
    have : c ≠ e := by rintro rfl; exact he hc
    simp [exitEdge, Function.update_of_ne this]
  have edge_cur : ∀ (h : H) (b e c : Lab), e ∉ l.blocks → c ∈ l.blocks → ∀ i,
      curB l (insertPhiNodes l) (exitEdge h b e) c i = curB l (insertPhiNodes l) h c i := by
    intro h b e c he hc i
    unfold curB
    have : entryV l (insertPhiNodes l) (exitEdge h b e).last c =
        entryV l (insertPhiNodes l) h.last c := by
      unfold entryV
      split
      · rfl
      · rename_i hne
        have hs : Single l c := by by_contra hs; exact hne ((hk c hc).2 hs)
        rw [edge_last h b e _ he hs.2]
    rw [this]
    rfl
  have ok : DfsOK l (fun (h : H) b => h.comp b) (memBlock l used (insertPhiNodes l)) exitEdge
      (HInv l used (insertPhiNodes l))
      (fun h b c => if c ∈ l.blocks then h.comp c = true else h.last c = h.last b) := by
    refine ⟨?_, fun _ _ _ _ => rfl, ?_, ?_, ?_, ?_, ?_, ?_⟩
    · intro s b x
      simp only [memBlock]
      by_cases hx : x = b
      · subst hx; simp
      · simp [hx]
    · intro s b I hb hd hπ
      exact memBlock_inv w hk I hb hd hπ
    · intro s b e I hb hd he hel
      refine ⟨?_, I.unproc, ?_, ?_, ?_, I.path⟩
      · have : l.pre ≠ e := by rintro rfl; exact w.preNotExit b hb he
        simp only [exitEdge, Function.update_of_ne this]
        exact I.pre
      · intro c hc hcc
        rw [edge_last s b e c hel hc, edge_cur s b e c hel hc]
        exact I.last c hc hcc
      · intro c hc hcc i x hx hu
        rw [edge_cur s b e c hel hc]
        exact I.load c hc hcc i x hx hu
      · intro c hc hcc i hi
        rw [edge_cur s b e c hel hc]
        exact I.av c hc hcc i hi
    · intro s b c d _ hb hd hc hcd hs hK
      by_cases hdl : d ∈ l.blocks
      · simp only [hdl, if_true] at hK ⊢
        simp only [memBlock]
        by_cases e : d = b
        · subst e; simp
        · rw [Function.update_of_ne e]; exact hK
      · simp only [hdl, if_false] at hK ⊢
        have h1 : d ≠ b := by rintro rfl; exact hdl hb
        have h2 : c ≠ b := by rintro rfl; rw [hd] at hcd; simp at hcd
        simp only [memBlock, Function.update_of_ne h1, Function.update_of_ne h2]
        exact hK
    · intro s b e c d _ hb hd he hel hc hcd hs hK
      by_cases hdl : d ∈ l.blocks
      · simp only [hdl, if_true] at hK ⊢
        exact hK
      · simp only [hdl, if_false] at hK ⊢
        rw [edge_last s b e c hel hc]
        by_cases hde : d = e
        · subst hde
          have := hx b hb c hc d hdl he hs
          subst this
          simp [exitEdge]
        · simp only [exitEdge, Function.update_of_ne hde]
          exact hK
    · intro s b c hc
      simp [hc]
    · intro s b c _ hb _ _ hcl
      simp only [hcl, if_false]
      rw [edge_last s b c b hcl hb]
      simp [exitEdge]
  have := dfs_all w ok (s := ⟨fun _ => false,
    Function.update (fun _ => none) l.pre (some (.var .ld)), .var⟩)
    ⟨by simp, fun _ _ => rfl, by simp, by simp, by simp, by simp⟩ (fun _ => rfl)
  obtain ⟨h1, h2, h3⟩ := this
  refine ⟨h1, h2, ?_⟩
  intro b hb e he hel
  have := h3 b hb e he
  simpa [hel, handleLoads] using this

end Tsar.PtrReg
