import Verif.PtrReg.Props

/-!
# Examples for promotion of a memory location to a register
-/

namespace Tsar.PtrReg

/-- Operands `v0`, `v1`, ... -/
abbrev V (n : Nat) : Opd := .var (.v n)

/-! ### `for (i = 0; i < 3; ++i) *p += i;` -/

def sumBlk : Lab → Blk Int
  | 1 => ⟨[(.v 0, fun c => if c = 0 then .const 0 else V 1)], [], [V 0],
      fun a => if a.headD 0 < 3 then 2 else 3, [2, 3]⟩
  | 2 => ⟨[], [.load (.v 2), .other (some (.v 3)) [V 2, V 0] fun a r => (a.sum, r),
      .store (V 3), .other (some (.v 1)) [V 0] fun a r => (a.sum + 1, r + 1)], [],
      fun _ => 1, [1]⟩
  | _ => ⟨[], [], [], fun _ => 0, []⟩

def sumLoop : Loop Int := ⟨sumBlk, [1, 2], 1, 0⟩

def all : Var → Bool := fun _ => true

theorem sum_path {π : List Lab} (h : Path sumLoop π 2) : 1 ∈ π := by
  rcases h.last with h | ⟨π', b, rfl, -, hb, hs⟩
  · simp [sumLoop] at h
  · simp only [sumLoop, List.mem_cons, List.not_mem_nil, or_false] at hb
    rcases hb with rfl | rfl
    · simp
    · simp [sumLoop, sumBlk] at hs

theorem sum_wf : WF sumLoop all where
  header := by decide
  pre := by decide
  nodup := by decide
  succs := by
    intro b hb a
    simp only [sumLoop, List.mem_cons, List.not_mem_nil, or_false] at hb
    rcases hb with rfl | rfl
    · simp only [sumLoop, sumBlk]; split <;> simp
    · simp [sumLoop, sumBlk]
  reach := by
    intro b hb
    simp only [sumLoop, List.mem_cons, List.not_mem_nil, or_false] at hb
    rcases hb with rfl | rfl
    · exact ⟨_, .nil⟩
    · exact ⟨_, .snoc (l := sumLoop) (c := 2) .nil (by decide) (by decide)⟩
  ssa := by decide
  preNotExit := by decide
  names := by
    intro b hb x hx
    simp only [sumLoop, List.mem_cons, List.not_mem_nil, or_false] at hb
    rcases hb with rfl | rfl <;> simp [sumLoop, sumBlk, Blk.defs, Inst.res] at hx
    · exact ⟨0, hx⟩
    · rcases hx with rfl | rfl | rfl <;> exact ⟨_, rfl⟩
  phiEntry := by
    intro p hp x hx
    simp only [sumLoop, sumBlk, List.mem_singleton] at hp
    subst hp
    simp [sumLoop] at hx
  phiIn := by
    intro b hb c hc hs p hp
    simp only [sumLoop, List.mem_cons, List.not_mem_nil, or_false] at hb hc
    rcases hb with rfl | rfl
    · rcases hc with rfl | rfl
      · simp [sumLoop, sumBlk] at hs
      · simp only [sumLoop, sumBlk, List.mem_singleton] at hp
        subst hp
        rintro x ⟨⟩
        exact ⟨1, rfl, rfl, .inr (by decide)⟩
    · simp [sumLoop, sumBlk] at hp
  inst := by
    intro b hb i a ha o ho
    simp only [sumLoop, List.mem_cons, List.not_mem_nil, or_false] at hb
    have h0 : ∀ i, Avail sumLoop 2 i (.v 0) := fun i =>
      .inl (.inr fun π hπ => ⟨1, sum_path hπ, by decide⟩)
    rcases hb with rfl | rfl
    · simp [sumLoop, sumBlk] at ha
    · match i, ha with
      | 0, ha =>
        simp only [sumLoop, sumBlk, List.getElem?_cons_zero, Option.some.injEq] at ha
        subst ha; simp [Inst.ops] at ho
      | 1, ha =>
        simp only [sumLoop, sumBlk, List.getElem?_cons_zero, List.getElem?_cons_succ,
          Option.some.injEq] at ha
        subst ha
        simp only [Inst.ops, List.mem_cons, List.not_mem_nil, or_false] at ho
        rcases ho with rfl | rfl
        · rintro x ⟨⟩; exact ⟨2, rfl, rfl, .inr (.inr (by decide))⟩
        · rintro x ⟨⟩; exact ⟨0, rfl, rfl, h0 _⟩
      | 2, ha =>
        simp only [sumLoop, sumBlk, List.getElem?_cons_zero, List.getElem?_cons_succ,
          Option.some.injEq] at ha
        subst ha
        simp only [Inst.ops, List.mem_cons, List.not_mem_nil, or_false] at ho
        subst ho
        rintro x ⟨⟩; exact ⟨3, rfl, rfl, .inr (.inr (by decide))⟩
      | 3, ha =>
        simp only [sumLoop, sumBlk, List.getElem?_cons_zero, List.getElem?_cons_succ,
          Option.some.injEq] at ha
        subst ha
        simp only [Inst.ops, List.mem_cons, List.not_mem_nil, or_false] at ho
        subst ho
        rintro x ⟨⟩; exact ⟨0, rfl, rfl, h0 _⟩
      | n + 4, ha => simp [sumLoop, sumBlk] at ha
  term := by
    intro b hb o ho
    simp only [sumLoop, List.mem_cons, List.not_mem_nil, or_false] at hb
    rcases hb with rfl | rfl
    · simp only [sumLoop, sumBlk, List.mem_singleton] at ho
      subst ho
      rintro x ⟨⟩
      exact ⟨0, rfl, rfl, .inr (by decide)⟩
    · simp [sumLoop, sumBlk] at ho

theorem sum_unshared : Unshared sumLoop := by
  intro b hb c hc e he h1 h2
  simp only [sumLoop, List.mem_cons, List.not_mem_nil, or_false] at hb hc he
  rcases hb with rfl | rfl <;> rcases hc with rfl | rfl <;>
    simp_all [sumLoop, sumBlk]

/-- The initial state. -/
def st0 : St Int := ⟨fun _ => 0, 100, 0⟩

/-- The original loop leaves the sum in memory. -/
example : (run sumLoop 7 (enter sumLoop st0)).cur = 3 ∧
    (run sumLoop 7 (enter sumLoop st0)).st.cell = 103 := by decide +kernel

/-- The transformed loop does not access memory, the sum is stored after the loop. -/
example : (run (ptr2reg sumLoop all).loop 7
      (enter (ptr2reg sumLoop all).loop (preload st0))).cur = 3 ∧
    (run (ptr2reg sumLoop all).loop 7
      (enter (ptr2reg sumLoop all).loop (preload st0))).st.cell = 100 ∧
    (poststore sumLoop all 3 (run (ptr2reg sumLoop all).loop 7
      (enter (ptr2reg sumLoop all).loop (preload st0))).st).map (·.cell) = some 103 := by
  decide +kernel

/-- Hypotheses of `ptr2reg_partial` are satisfied. -/
example : ((ptr2reg sumLoop all).loop.blk 2).insts.length = 2 ∧
    insertPhiNodes sumLoop 1 = some 1 ∧ insertPhiNodes sumLoop 2 = some 1 := by decide +kernel

/-! ### An exit block which is shared by two blocks -/

/-- `while (*p) { *p = 5; if (c) break; }` -/
def breakBlk : Lab → Blk Int
  | 1 => ⟨[], [.load (.v 0)], [V 0], fun a => if a.headD 0 = 0 then 3 else 2, [2, 3]⟩
  | 2 => ⟨[], [.other (some (.v 1)) [] fun _ r => (r, r), .store (.const 5)], [V 1],
      fun a => if a.headD 0 = 0 then 3 else 1, [1, 3]⟩
  | _ => ⟨[], [], [], fun _ => 0, []⟩

def breakLoop : Loop Int := ⟨breakBlk, [1, 2], 1, 0⟩

theorem break_wf : WF breakLoop all where
  header := by decide
  pre := by decide
  nodup := by decide
  succs := by
    intro b hb a
    simp only [breakLoop, List.mem_cons, List.not_mem_nil, or_false] at hb
    rcases hb with rfl | rfl <;> simp only [breakLoop, breakBlk] <;> split <;> simp
  reach := by
    intro b hb
    simp only [breakLoop, List.mem_cons, List.not_mem_nil, or_false] at hb
    rcases hb with rfl | rfl
    · exact ⟨_, .nil⟩
    · exact ⟨_, .snoc (l := breakLoop) (c := 2) .nil (by decide) (by decide)⟩
  ssa := by decide
  preNotExit := by decide
  names := by
    intro b hb x hx
    simp only [breakLoop, List.mem_cons, List.not_mem_nil, or_false] at hb
    rcases hb with rfl | rfl <;> simp [breakLoop, breakBlk, Blk.defs, Inst.res] at hx
    · exact ⟨0, hx⟩
    · exact ⟨1, hx⟩
  phiEntry := by intro p hp; simp [breakLoop, breakBlk] at hp
  phiIn := by
    intro b hb c _ _ p hp
    simp only [breakLoop, List.mem_cons, List.not_mem_nil, or_false] at hb
    rcases hb with rfl | rfl <;> simp [breakLoop, breakBlk] at hp
  inst := by
    intro b hb i a ha o ho
    simp only [breakLoop, List.mem_cons, List.not_mem_nil, or_false] at hb
    rcases hb with rfl | rfl
    · match i, ha with
      | 0, ha => simp [breakLoop, breakBlk] at ha; subst ha; simp [Inst.ops] at ho
      | n + 1, ha => simp [breakLoop, breakBlk] at ha
    · match i, ha with
      | 0, ha => simp [breakLoop, breakBlk] at ha; subst ha; simp [Inst.ops] at ho
      | 1, ha =>
        simp [breakLoop, breakBlk] at ha; subst ha
        simp only [Inst.ops, List.mem_singleton] at ho
        subst ho
        rintro x ⟨⟩
      | n + 2, ha => simp [breakLoop, breakBlk] at ha
  term := by
    intro b hb o ho
    simp only [breakLoop, List.mem_cons, List.not_mem_nil, or_false] at hb
    rcases hb with rfl | rfl
    · simp only [breakLoop, breakBlk, List.mem_singleton] at ho
      subst ho
      rintro x ⟨⟩
      exact ⟨0, rfl, rfl, .inr (by decide)⟩
    · simp only [breakLoop, breakBlk, List.mem_singleton] at ho
      subst ho
      rintro x ⟨⟩
      exact ⟨1, rfl, rfl, .inr (by decide)⟩

/-- The promoted value of one of exiting blocks is lost if an exit block is shared. -/
theorem ptr2reg_shared_fails : ∃ (l : Loop Int) (used : Var → Bool) (n : Nat) (s t : St Int),
    WF l used ∧ (run l n (enter l s)).cur ∉ l.blocks ∧
    poststore l used (run l n (enter l s)).cur
      (run (ptr2reg l used).loop n (enter (ptr2reg l used).loop (preload s))).st = some t ∧
    t.cell ≠ (run l n (enter l s)).st.cell := by
  refine ⟨breakLoop, all, 2, ⟨fun _ => 0, 1, 0⟩, _, break_wf, by decide +kernel, rfl, ?_⟩
  decide +kernel

/-! ### A redundant phi-node in a block before an exit -/

/-- `do { *p = f(); if (c) g(); } while (c);` -/
def doBlk (o : Opd) : Lab → Blk Int
  | 1 => ⟨[], [.other (some (.v 0)) [] fun _ r => (r + 7, r), .store o], [V 0],
      fun a => if a.headD 0 = 0 then 2 else 3, [2, 3]⟩
  | 2 => ⟨[], [.other none [] fun _ r => (0, r + 1)], [], fun _ => 3, [3]⟩
  | 3 => ⟨[], [], [V 0], fun a => if a.headD 0 = 0 then 1 else 4, [1, 4]⟩
  | _ => ⟨[], [], [], fun _ => 0, []⟩

def doLoop (o : Opd) : Loop Int := ⟨doBlk o, [1, 2, 3], 1, 0⟩

theorem do_path2 {o : Opd} {π : List Lab} (h : Path (doLoop o) π 2) : 1 ∈ π := by
  rcases h.last with e | ⟨π', b, rfl, -, hb, hs⟩
  · simp [doLoop] at e
  · simp only [doLoop, List.mem_cons, List.not_mem_nil, or_false] at hb
    rcases hb with rfl | rfl | rfl
    · simp
    · simp [doLoop, doBlk] at hs
    · simp [doLoop, doBlk] at hs

theorem do_path {o : Opd} {π : List Lab} (h : Path (doLoop o) π 3) : 1 ∈ π := by
  rcases h.last with e | ⟨π', b, rfl, hp, hb, hs⟩
  · simp [doLoop] at e
  · simp only [doLoop, List.mem_cons, List.not_mem_nil, or_false] at hb
    rcases hb with rfl | rfl | rfl
    · simp
    · have := do_path2 hp
      simp [this]
    · simp [doLoop, doBlk] at hs

theorem do_wf {o : Opd} (ho : o = V 0 ∨ o = .const 5) : WF (doLoop o) all where
  header := by simp [doLoop]
  pre := by simp [doLoop]
  nodup := by simp [doLoop]
  succs := by
    intro b hb a
    simp only [doLoop, List.mem_cons, List.not_mem_nil, or_false] at hb
    rcases hb with rfl | rfl | rfl <;> simp only [doLoop, doBlk]
    · split <;> simp
    · simp
    · split <;> simp
  reach := by
    intro b hb
    simp only [doLoop, List.mem_cons, List.not_mem_nil, or_false] at hb
    rcases hb with rfl | rfl | rfl
    · exact ⟨_, .nil⟩
    · exact ⟨_, .snoc (l := doLoop o) (c := 2) .nil (by simp [doLoop]) (by simp [doLoop, doBlk])⟩
    · exact ⟨_, .snoc (l := doLoop o) (c := 3) .nil (by simp [doLoop]) (by simp [doLoop, doBlk])⟩
  ssa := by rcases ho with rfl | rfl <;> decide
  preNotExit := by
    intro b hb
    simp only [doLoop, List.mem_cons, List.not_mem_nil, or_false] at hb
    rcases hb with rfl | rfl | rfl <;> simp [doLoop, doBlk]
  names := by
    intro b hb x hx
    simp only [doLoop, List.mem_cons, List.not_mem_nil, or_false] at hb
    rcases hb with rfl | rfl | rfl <;> simp [doLoop, doBlk, Blk.defs, Inst.res] at hx
    exact ⟨0, hx⟩
  phiEntry := by intro p hp; simp [doLoop, doBlk] at hp
  phiIn := by
    intro b hb c _ _ p hp
    simp only [doLoop, List.mem_cons, List.not_mem_nil, or_false] at hb
    rcases hb with rfl | rfl | rfl <;> simp [doLoop, doBlk] at hp
  inst := by
    intro b hb i a ha u hu
    simp only [doLoop, List.mem_cons, List.not_mem_nil, or_false] at hb
    rcases hb with rfl | rfl | rfl
    · match i, ha with
      | 0, ha => simp [doLoop, doBlk] at ha; subst ha; simp [Inst.ops] at hu
      | 1, ha =>
        simp [doLoop, doBlk] at ha; subst ha
        simp only [Inst.ops, List.mem_singleton] at hu
        subst hu
        rcases ho with rfl | rfl
        · rintro x ⟨⟩
          exact ⟨0, rfl, rfl, .inr (.inr (by simp [doLoop, doBlk, Inst.res]))⟩
        · rintro x ⟨⟩
      | n + 2, ha => simp [doLoop, doBlk] at ha
    · match i, ha with
      | 0, ha => simp [doLoop, doBlk] at ha; subst ha; simp [Inst.ops] at hu
      | n + 1, ha => simp [doLoop, doBlk] at ha
    · simp [doLoop, doBlk] at ha
  term := by
    intro b hb u hu
    simp only [doLoop, List.mem_cons, List.not_mem_nil, or_false] at hb
    rcases hb with rfl | rfl | rfl
    · simp only [doLoop, doBlk, List.mem_singleton] at hu
      subst hu
      rintro x ⟨⟩
      exact ⟨0, rfl, rfl, .inr (by simp [doLoop, doBlk, Blk.defs, Inst.res])⟩
    · simp [doLoop, doBlk] at hu
    · simp only [doLoop, doBlk, List.mem_singleton] at hu
      subst hu
      rintro x ⟨⟩
      exact ⟨0, rfl, rfl, .inl (.inr fun π hπ => ⟨1, do_path hπ, by
        simp [doLoop, doBlk, Blk.defs, Inst.res]⟩)⟩

theorem do_unshared {o : Opd} : Unshared (doLoop o) := by
  intro b hb c hc e he h1 h2
  simp only [doLoop, List.mem_cons, List.not_mem_nil, or_false] at hb hc he
  rcases hb with rfl | rfl | rfl <;> rcases hc with rfl | rfl | rfl <;>
    simp_all [doLoop, doBlk]

/-- The store after a loop uses a phi-node which has been erased. -/
theorem ptr2reg_dangling_fails : ∃ (l : Loop Int) (used : Var → Bool) (n : Nat) (s : St Int),
    WF l used ∧ Unshared l ∧ (run l n (enter l s)).cur ∉ l.blocks ∧
    poststore l used (run l n (enter l s)).cur
      (run (ptr2reg l used).loop n (enter (ptr2reg l used).loop (preload s))).st = none := by
  refine ⟨doLoop (V 0), all, 2, ⟨fun _ => 0, 1, 0⟩, do_wf (.inl rfl), do_unshared, ?_, ?_⟩
  · decide +kernel
  · rfl

/-- The null pointer is dereferenced if a constant is an operand of an erased phi-node. -/
theorem ptr2reg_null_fails : ∃ (l : Loop Int) (used : Var → Bool),
    WF l used ∧ Unshared l ∧ (ptr2reg l used).null = true :=
  ⟨doLoop (.const 5), all, do_wf (.inr rfl), do_unshared, by decide +kernel⟩

/-- Removal of a redundant phi-node: the header joins the load and the stored value. -/
example : (ptr2reg (doLoop (V 0)) all).erased = [3] ∧
    (((ptr2reg (doLoop (V 0)) all).loop.blk 1).phis.map fun p => (p.1, p.2 0, p.2 3)) =
      [(.ph 1, .var .ld, V 0)] ∧
    (((ptr2reg (doLoop (V 0)) all).loop.blk 3).phis.map Prod.fst) = [] := by decide +kernel

end Tsar.PtrReg
