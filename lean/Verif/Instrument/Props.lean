import Verif.Instrument.Model
import Mathlib.Data.List.Basic
import Mathlib.Data.List.Nodup
import Mathlib.Tactic.SplitIfs

/-!
# Properties of instrumentation of loops
-/

namespace Tsar.Instrument

/-! ### Specification -/

/-- A dynamic analyzer: a stack of loops. An iteration and an exit are accepted for the innermost loop only. -/
def accept : Ev → List Nat → Option (List Nat)
  | .enter l, s => some (l :: s)
  | .iter l, s => if s.head? = some l then some s else none
  | .leave l, s => if s.head? = some l then some s.tail else none

/-- A dynamic analyzer processes a trace. -/
def exec : List Ev → List Nat → Option (List Nat)
  | [], s => some s
  | e :: es, s => (accept e s).bind (exec es)

/-- Control flow: each block is a successor of the previous one. -/
def Path (g : Graph) : List Nat → Prop
  | [] => True
  | [_] => True
  | u :: v :: p => v ∈ g.succ u ∧ Path g (v :: p)

/-- Events which occur when blocks are executed. -/
def trace (g : Graph) (p : List Nat) : List Ev := p.flatMap g.events

/-- Loops which contain a block, the innermost loop is the first one. -/
def nest (loops : List Lp) (u : Nat) : List Nat := ((loops.filter fun M => u ∈ M.blocks).map Lp.header).reverse

/-- An outer loop precedes its inner loops, other loops have no common blocks. A header of an outer loop is not in an inner loop. -/
def Before (L M : Lp) : Prop := (M.blocks ⊆ L.blocks ∧ L.header ∉ M.blocks) ∨ ∀ u ∈ L.blocks, u ∉ M.blocks

/-- A natural loop of a function. -/
structure Natural (g : Graph) (L : Lp) : Prop where
  header : L.header ∈ L.blocks
  nodup : L.blocks.Nodup
  known : ∀ u ∈ L.blocks, u < g.next
  inside : ∀ u ∈ L.blocks, ∃ t ∈ g.succ u, t ∈ L.blocks
  entry : ∀ u t, u ∉ L.blocks → t ∈ g.succ u → t ∈ L.blocks → t = L.header

/-- A function before instrumentation. -/
structure Fn (g : Graph) (entry : Nat) : Prop where
  closed : ∀ u t, t ∈ g.succ u → t < g.next
  fresh : ∀ u, g.next ≤ u → g.succ u = []
  events : ∀ u, g.events u = []
  entry : entry < g.next

/-- There is at most one way to leave a loop from each of its blocks to each block outside of it. -/
def Simple (g : Graph) (L : Lp) : Prop := ∀ u ∈ L.blocks, ∀ t, t ∉ L.blocks → (g.succ u).count t ≤ 1

mutual
/-- Loops of a tree. -/
def flat : LTree → List Lp
  | .node l subs => l :: flatAll subs

/-- Loops of a function. -/
def flatAll : List LTree → List Lp
  | [] => []
  | t :: ts => flat t ++ flatAll ts
end

mutual
/-- Headers of loops which contain a block, the innermost loop is the first one. -/
def around (u : Nat) : LTree → List Nat
  | .node l subs => if u ∈ l.blocks then aroundAll u subs ++ [l.header] else []

/-- A block is in a single tree. -/
def aroundAll (u : Nat) : List LTree → List Nat
  | [] => []
  | t :: ts => around u t ++ aroundAll u ts
end

mutual
/-- A correct tree: inner loops are inside of a loop, they do not contain its header. -/
def Wf : LTree → Prop
  | .node l subs => (∀ M ∈ flatAll subs, M.blocks ⊆ l.blocks ∧ l.header ∉ M.blocks) ∧ WfAll subs

/-- Loops from different trees have no common blocks. -/
def WfAll : List LTree → Prop
  | [] => True
  | t :: ts => Wf t ∧ WfAll ts ∧ ∀ L ∈ flatAll ts, ∀ M ∈ flat t, ∀ u ∈ L.blocks, u ∉ M.blocks
end

/-- Hypotheses: a function and its loops. -/
structure Input (g0 : Graph) (entry : Nat) (ts : List LTree) : Prop where
  fn : Fn g0 entry
  tree : WfAll ts
  natural : ∀ L ∈ flatAll ts, Natural g0 L
  outside : ∀ L ∈ flatAll ts, entry ∉ L.blocks

/-- New blocks have no choice: an execution from a block `u` reaches an original block `w`. -/
inductive Leads (g : Graph) (n : Nat) : Nat → Nat → Prop
  | here {u : Nat} (h : u < n) : Leads g n u u
  | step {u t w : Nat} (h : n ≤ u) (hs : g.succ u = [t]) (ht : Leads g n t w) : Leads g n u w

/-! ### Auxiliary statements -/

theorem exec_append : ∀ (a b : List Ev) (s : List Nat), exec (a ++ b) s = (exec a s).bind (exec b)
  | [], _, _ => rfl
  | e :: a, b, s => by
    show (accept e s).bind (exec (a ++ b)) = ((accept e s).bind (exec a)).bind (exec b)
    cases accept e s with
    | none => rfl
    | some s' => exact exec_append a b s'

theorem map_repl_of_not_mem {a b : Nat} {l : List Nat} (h : a ∉ l) : l.map (repl a b) = l := by
  rw [List.map_congr_left (g := id), List.map_id]
  intro t ht
  unfold repl
  rw [if_neg (fun e : t = a => h (e ▸ ht))]
  rfl

theorem count_map_repl {a b t : Nat} (hab : a ≠ b) : ∀ {l : List Nat}, b ∉ l →
    (l.map (repl a b)).count t = if t = b then l.count a else if t = a then 0 else l.count t
  | [], _ => by simp
  | c :: l, h => by
    have hc : c ≠ b := fun e => h (e ▸ List.mem_cons_self ..)
    have hl : b ∉ l := fun e => h (List.mem_cons_of_mem _ e)
    rw [List.map_cons, List.count_cons, count_map_repl hab hl]
    unfold repl
    by_cases h1 : c = a
    · subst h1
      by_cases h2 : t = b
      · subst h2; simp
      · by_cases h3 : t = c
        · subst h3; simp [h2, Ne.symm h2]
        · simp [h2, h3, List.count_cons, Ne.symm h2, Ne.symm h3]
    · by_cases h2 : t = b
      · subst h2; simp [h1, hc, List.count_cons]
      · by_cases h3 : t = a
        · subst h3; simp [h1, h2]
        · simp [h1, h2, h3, List.count_cons]

/-- A state of instrumentation: `dst` is an original block at the end of a chain of new blocks. -/
structure Core (g0 g : Graph) (done rest : List Lp) (dst : Nat → Nat) : Prop where
  le : g0.next ≤ g.next
  closed : ∀ u t, t ∈ g.succ u → t < g.next
  fresh : ∀ u, g.next ≤ u → g.succ u = []
  dstId : ∀ u, u < g0.next → dst u = u
  sem : ∀ u, u < g0.next → (g.succ u).map dst = g0.succ u
  semNew : ∀ u, g0.next ≤ u → u < g.next → ∃ t, g.succ u = [t] ∧ dst t = dst u
  rank : ∃ rk : Nat → Nat, (∀ u, u < g0.next → rk u = 0) ∧ ∀ u, g0.next ≤ u → ∀ t ∈ g.succ u, rk t < rk u
  ret : ∀ u, g.succ u = [] → g.events u = []
  n1 : ∀ M ∈ rest, ∀ u t, g0.next ≤ u → t ∈ g.succ u → t ∈ M.blocks → t = M.header
  n4 : ∀ M ∈ rest, ∀ u ∈ M.blocks, g.events u = []
  n5 : ∀ M ∈ rest, ∀ u ∈ M.blocks, ∃ t ∈ g.succ u, t ∈ M.blocks
  n6 : ∀ M ∈ rest, Simple g M
  it : ∀ u l, (g.events u).count (.iter l) = if u = l ∧ l ∈ done.map Lp.header then 1 else 0

/-- `pre` is a stack before a block, some edges are not processed yet. -/
structure Lab (g0 g : Graph) (done : List Lp) (pre : Nat → List Nat) (h : Nat) (Bad : Nat → Nat → Prop) : Prop where
  orig : ∀ u, u < g0.next → pre u = nest done u
  good : ∀ u t, t ∈ g.succ u → ¬Bad u t → exec (g.events u) (pre u) = some (pre t)
  bad : ∀ u t, t ∈ g.succ u → Bad u t → exec (g.events u) (pre u) = some (h :: pre t)

theorem Before.header_not {L M : Lp} (h : Before L M) (hL : L.header ∈ L.blocks) : L.header ∉ M.blocks := by
  rcases h with h | h
  · exact h.2
  · exact h _ hL

theorem Before.sub {L M : Lp} (h : Before L M) {u : Nat} (h1 : u ∈ L.blocks) (h2 : u ∈ M.blocks) : M.blocks ⊆ L.blocks := by
  rcases h with h | h
  · exact h.1
  · exact absurd h2 (h u h1)

theorem nest_snoc (done : List Lp) (L : Lp) (u : Nat) :
    nest (done ++ [L]) u = if u ∈ L.blocks then L.header :: nest done u else nest done u := by
  unfold nest
  by_cases h : u ∈ L.blocks <;> simp [List.filter_append, h]

/-- An edge into a loop which is not instrumented yet. -/
theorem Core.enter {g0 g : Graph} {done rest : List Lp} {dst : Nat → Nat} (hC : Core g0 g done rest dst) {M : Lp}
    (hM : M ∈ rest) (hN : Natural g0 M) {u t : Nat} (hu : u ∉ M.blocks) (ht : t ∈ g.succ u) (htM : t ∈ M.blocks) :
    t = M.header := by
  by_cases h : u < g0.next
  · refine hN.entry u t hu ?_ htM
    rw [← hC.sem u h]
    exact List.mem_map.2 ⟨t, ht, hC.dstId t (hN.known t htM)⟩
  · exact hC.n1 M hM u t (by omega) ht htM

/-! ### Entries -/

theorem begin_stage {g0 g : Graph} {done rest : List Lp} {L : Lp} {pre : Nat → List Nat} {dst : Nat → Nat}
    (hN : ∀ M ∈ L :: rest, Natural g0 M) (hB : ∀ M ∈ rest, Before L M) (hC : Core g0 g done (L :: rest) dst)
    {h : Nat} (hP : Lab g0 g done pre h fun _ _ => False) :
    ∃ pre' dst', Core g0 (beginInstr L g) done rest dst' ∧ (∀ u ∈ L.blocks, (beginInstr L g).events u = []) ∧
      Simple (beginInstr L g) L ∧
      Lab g0 (beginInstr L g) (done ++ [L]) pre' L.header fun u t => u ∈ L.blocks ∧ t ∉ L.blocks := by
  have hL := hN L (List.mem_cons_self ..)
  have hlt : ∀ M ∈ L :: rest, ∀ u ∈ M.blocks, u < g.next := fun M hM u hu => Nat.lt_of_lt_of_le ((hN M hM).known u hu) hC.le
  have hrest : ∀ M ∈ rest, M ∈ L :: rest := fun M hM => List.mem_cons_of_mem _ hM
  have hin : ∀ u t, u ∉ L.blocks → t ∈ g.succ u → t ∈ L.blocks → t = L.header := fun u t h1 h2 h3 =>
    hC.enter (List.mem_cons_self ..) hL h1 h2 h3
  have hev := hC.n4 L (List.mem_cons_self ..)
  -- Edges which start inside of the loop.
  have hinside : ∀ u t, u ∈ L.blocks → t ∈ g.succ u → pre u = pre t := by
    intro u t hu ht
    have := hP.good u t ht (fun h => h)
    rw [hev u hu] at this
    exact Option.some.inj this
  unfold beginInstr
  cases hp : preheader L g with
  | some p =>
    obtain ⟨houts, hsp⟩ : ((List.range g.next).filter fun u => u ∉ L.blocks ∧ L.header ∈ g.succ u) = [p] ∧
        g.succ p = [L.header] := by
      unfold preheader at hp
      split at hp
      · rename_i q hq
        by_cases hc : g.succ q = [L.header]
        · rw [if_pos hc] at hp
          rw [← Option.some.inj hp]
          exact ⟨hq, hc⟩
        · rw [if_neg hc] at hp
          cases hp
      · cases hp
    have hmem : ∀ u, u = p ↔ u ∉ L.blocks ∧ L.header ∈ g.succ u := by
      intro u
      have h1 : u ∈ (List.range g.next).filter (fun u => u ∉ L.blocks ∧ L.header ∈ g.succ u) ↔ u = p := by
        rw [houts]; simp
      rw [← h1, List.mem_filter, List.mem_range]
      simp only [decide_eq_true_eq]
      constructor
      · exact fun h => h.2
      · intro h
        refine ⟨?_, h⟩
        by_contra hh
        rw [hC.fresh u (by omega)] at h
        cases h.2
    have hpL : p ∉ L.blocks := ((hmem p).1 rfl).1
    refine ⟨fun u => if u ∈ L.blocks then L.header :: pre u else pre u, dst, ?_, ?_, ?_, ?_⟩
    · refine ⟨hC.le, hC.closed, hC.fresh, hC.dstId, hC.sem, hC.semNew, hC.rank, ?_, fun M hM => hC.n1 M (hrest M hM), ?_,
        fun M hM => hC.n5 M (hrest M hM), fun M hM => hC.n6 M (hrest M hM), ?_⟩
      · intro u hu
        have : u ≠ p := by
          rintro rfl
          rw [hsp] at hu
          cases hu
        simp only [if_neg this]
        exact hC.ret u hu
      · intro M hM u hu
        have : u ≠ p := by
          rintro rfl
          obtain ⟨t, ht, htM⟩ := hC.n5 M (hrest M hM) u hu
          rw [hsp] at ht
          rw [List.mem_singleton.1 ht] at htM
          exact (hB M hM).header_not hL.header htM
        simp only [if_neg this]
        exact hC.n4 M (hrest M hM) u hu
      · intro u l
        by_cases hup : u = p
        · subst hup
          simp only [if_true, List.count_append]
          rw [hC.it]
          simp
        · simp only [if_neg hup]
          exact hC.it u l
    · intro u hu
      have : u ≠ p := fun e => hpL (e ▸ hu)
      simp only [if_neg this]
      exact hev u hu
    · exact hC.n6 L (List.mem_cons_self ..)
    · refine ⟨?_, ?_, ?_⟩
      · intro u hu
        rw [nest_snoc, ← hP.orig u hu]
      · intro u t ht hb
        by_cases hu : u ∈ L.blocks
        · have htL : t ∈ L.blocks := by
            by_contra hh
            exact hb ⟨hu, hh⟩
          have : u ≠ p := fun e => hpL (e ▸ hu)
          simp only [if_neg this, if_pos hu, if_pos htL, hev u hu]
          rw [hinside u t hu ht]
          rfl
        · by_cases htL : t ∈ L.blocks
          · have hth := hin u t hu ht htL
            subst hth
            have hup : u = p := (hmem u).2 ⟨hu, ht⟩
            subst hup
            simp only [if_true, if_neg hu, if_pos htL]
            rw [exec_append, hP.good u _ ht (fun h => h)]
            rfl
          · have : u ≠ p := by
              rintro rfl
              change t ∈ g.succ u at ht
              rw [hsp] at ht
              rw [List.mem_singleton.1 ht] at htL
              exact htL hL.header
            simp only [if_neg this, if_neg hu, if_neg htL]
            exact hP.good u t ht (fun h => h)
      · rintro u t ht ⟨hu, htL⟩
        have : u ≠ p := fun e => hpL (e ▸ hu)
        simp only [if_neg this, if_pos hu, if_neg htL, hev u hu]
        rw [hinside u t hu ht]
        rfl
  | none =>
    have hnot : ∀ M ∈ L :: rest, g.next ∉ M.blocks := fun M hM hh => absurd (hlt M hM _ hh) (by omega)
    have hnL := hnot L (List.mem_cons_self ..)
    have hns : ∀ u, g.next ∉ g.succ u := fun u hh => absurd (hC.closed u _ hh) (by omega)
    have hhn : L.header ≠ g.next := fun e => hnL (e ▸ hL.header)
    have hne : ∀ {u}, u ∈ L.blocks → u ≠ g.next := fun hu e => hnL (e ▸ hu)
    have hne0 : ∀ {u}, u < g0.next → u ≠ g.next := fun hu e => by have := hC.le; omega
    have hdst : ∀ t, t ≠ g.next → (fun u => if u = g.next then L.header else dst u) (repl L.header g.next t) = dst t := by
      intro t ht
      unfold repl
      by_cases h1 : t = L.header
      · subst h1
        simp [hC.dstId _ (hL.known _ hL.header)]
      · simp [h1, ht]
    have hmap : ∀ u, ((g.succ u).map (repl L.header g.next)).map (fun u => if u = g.next then L.header else dst u) =
        (g.succ u).map dst := by
      intro u
      rw [List.map_map]
      apply List.map_congr_left
      intro t ht
      exact hdst t (fun e => hns u (e ▸ ht))
    have hmap' : ∀ u, (g.succ u).map (fun u => if u = g.next then L.header else dst u) = (g.succ u).map dst := by
      intro u
      apply List.map_congr_left
      intro t ht
      rw [if_neg (fun e : t = g.next => hns u (e ▸ ht))]
    refine ⟨fun u => if u = g.next then pre L.header else if u ∈ L.blocks then L.header :: pre u else pre u,
      fun u => if u = g.next then L.header else dst u, ?_, ?_, ?_, ?_⟩
    · refine ⟨Nat.le_succ_of_le hC.le, ?_, ?_, ?_, ?_, ?_, ?_, ?_, ?_, ?_, ?_, ?_, ?_⟩
      · intro u t ht
        show t < g.next + 1
        change t ∈ (if u = g.next then _ else _) at ht
        by_cases hu : u = g.next
        · rw [if_pos hu] at ht
          rw [List.mem_singleton.1 ht]
          have := hlt L (List.mem_cons_self ..) _ hL.header
          omega
        · rw [if_neg hu] at ht
          by_cases hu2 : u ∈ L.blocks
          · rw [if_pos hu2] at ht
            have := hC.closed u t ht
            omega
          · rw [if_neg hu2] at ht
            obtain ⟨t0, ht0, rfl⟩ := List.mem_map.1 ht
            have := hC.closed u t0 ht0
            unfold repl
            by_cases h1 : t0 = L.header
            · rw [if_pos h1]; omega
            · rw [if_neg h1]; omega
      · intro u hu
        change g.next + 1 ≤ u at hu
        show (if u = g.next then _ else _) = _
        rw [if_neg (by omega), hC.fresh u (by omega)]
        simp
      · intro u hu
        show (if u = g.next then _ else _) = _
        rw [if_neg (hne0 hu), hC.dstId u hu]
      · intro u hu
        show (if u = g.next then _ else _ : List Nat).map _ = _
        rw [if_neg (hne0 hu)]
        by_cases hu2 : u ∈ L.blocks
        · rw [if_pos hu2, hmap', hC.sem u hu]
        · rw [if_neg hu2, hmap, hC.sem u hu]
      · intro u h1 h2
        change u < g.next + 1 at h2
        show ∃ t, (if u = g.next then _ else _) = [t] ∧ _
        by_cases hu : u = g.next
        · refine ⟨L.header, by rw [if_pos hu], ?_⟩
          show (if L.header = g.next then _ else _) = (if u = g.next then _ else _)
          rw [if_neg hhn, if_pos hu, hC.dstId _ (hL.known _ hL.header)]
        · obtain ⟨t, ht, hd⟩ := hC.semNew u h1 (by omega)
          have huL : u ∉ L.blocks := fun hh => absurd (hL.known u hh) (by omega)
          refine ⟨repl L.header g.next t, by rw [if_neg hu, if_neg huL, ht]; rfl, ?_⟩
          have htn : t ≠ g.next := fun e => hns u (by rw [ht, e]; simp)
          refine (hdst t htn).trans ?_
          show _ = (if u = g.next then _ else _)
          rw [if_neg hu, hd]
      · obtain ⟨rk, hr0, hr⟩ := hC.rank
        refine ⟨fun u => if u = g.next then 1 else 2 * rk u, ?_, ?_⟩
        · intro u hu
          show (if u = g.next then _ else _) = _
          rw [if_neg (hne0 hu), hr0 u hu]
        · intro u hu t ht
          change t ∈ (if u = g.next then _ else _) at ht
          show (if t = g.next then _ else _) < (if u = g.next then _ else _)
          by_cases h1 : u = g.next
          · rw [if_pos h1] at ht ⊢
            rw [List.mem_singleton.1 ht, if_neg hhn, hr0 _ (hL.known _ hL.header)]
            omega
          · have huL : u ∉ L.blocks := fun hh => absurd (hL.known u hh) (by omega)
            rw [if_neg h1, if_neg huL] at ht
            rw [if_neg h1]
            obtain ⟨t0, ht0, rfl⟩ := List.mem_map.1 ht
            have := hr u hu t0 ht0
            unfold repl
            by_cases h2 : t0 = L.header
            · rw [if_pos h2, if_pos rfl]
              omega
            · rw [if_neg h2, if_neg (fun e : t0 = g.next => hns u (e ▸ ht0))]
              omega
      · intro u hu
        change (if u = g.next then _ else _ : List Nat) = [] at hu
        show (if u = g.next then _ else _) = []
        by_cases h1 : u = g.next
        · rw [if_pos h1] at hu
          cases hu
        · rw [if_neg h1] at hu ⊢
          apply hC.ret u
          by_cases h2 : u ∈ L.blocks
          · rwa [if_pos h2] at hu
          · rw [if_neg h2] at hu
            exact List.map_eq_nil_iff.1 hu
      · intro M hM u t hu ht htM
        change t ∈ (if u = g.next then _ else _) at ht
        by_cases h1 : u = g.next
        · rw [if_pos h1] at ht
          rw [List.mem_singleton.1 ht] at htM
          exact absurd htM ((hB M hM).header_not hL.header)
        · have huL : u ∉ L.blocks := fun hh => absurd (hL.known u hh) (by omega)
          rw [if_neg h1, if_neg huL] at ht
          obtain ⟨t0, ht0, rfl⟩ := List.mem_map.1 ht
          unfold repl at htM ⊢
          by_cases h2 : t0 = L.header
          · rw [if_pos h2] at htM
            exact absurd htM (hnot M (hrest M hM))
          · rw [if_neg h2] at htM ⊢
            exact hC.n1 M (hrest M hM) u t0 hu ht0 htM
      · intro M hM u hu
        show (if u = g.next then _ else _) = []
        rw [if_neg (fun e : u = g.next => hnot M (hrest M hM) (e ▸ hu))]
        exact hC.n4 M (hrest M hM) u hu
      · intro M hM u hu
        obtain ⟨t, ht, htM⟩ := hC.n5 M (hrest M hM) u hu
        refine ⟨t, ?_, htM⟩
        show t ∈ (if u = g.next then _ else _)
        rw [if_neg (fun e : u = g.next => hnot M (hrest M hM) (e ▸ hu))]
        by_cases h2 : u ∈ L.blocks
        · rwa [if_pos h2]
        · rw [if_neg h2]
          refine List.mem_map.2 ⟨t, ht, ?_⟩
          unfold repl
          rw [if_neg]
          rintro rfl
          exact (hB M hM).header_not hL.header htM
      · intro M hM u hu t ht
        show (if u = g.next then _ else _ : List Nat).count t ≤ 1
        rw [if_neg (fun e : u = g.next => hnot M (hrest M hM) (e ▸ hu))]
        have h6 := hC.n6 M (hrest M hM) u hu
        by_cases h2 : u ∈ L.blocks
        · rw [if_pos h2]
          exact h6 t ht
        · rw [if_neg h2, count_map_repl hhn (hns u)]
          by_cases h3 : t = g.next
          · rw [if_pos h3]
            exact h6 _ ((hB M hM).header_not hL.header)
          · rw [if_neg h3]
            by_cases h4 : t = L.header
            · rw [if_pos h4]; omega
            · rw [if_neg h4]
              exact h6 t ht
      · intro u l
        show (if u = g.next then _ else _ : List Ev).count _ = _
        by_cases h1 : u = g.next
        · have h0 := hC.it u l
          rw [hC.ret u (hC.fresh u (by omega))] at h0
          rw [if_pos h1, ← h0]
          simp
        · rw [if_neg h1]
          exact hC.it u l
    · intro u hu
      show (if u = g.next then _ else _) = []
      rw [if_neg (hne hu)]
      exact hev u hu
    · intro u hu t ht
      show (if u = g.next then _ else _ : List Nat).count t ≤ 1
      rw [if_neg (hne hu), if_pos hu]
      exact hC.n6 L (List.mem_cons_self ..) u hu t ht
    · refine ⟨?_, ?_, ?_⟩
      · intro u hu
        show (if u = g.next then _ else _) = _
        rw [if_neg (hne0 hu), nest_snoc, hP.orig u hu]
      · intro u t ht hb
        change t ∈ (if u = g.next then _ else _) at ht
        show exec (if u = g.next then _ else _) (if u = g.next then _ else _) = some (if t = g.next then _ else _)
        by_cases h1 : u = g.next
        · rw [if_pos h1] at ht
          rw [List.mem_singleton.1 ht, if_pos h1, if_pos h1, if_neg hhn, if_pos hL.header]
          rfl
        · rw [if_neg h1] at ht
          rw [if_neg h1, if_neg h1]
          by_cases hu : u ∈ L.blocks
          · rw [if_pos hu] at ht
            have htL : t ∈ L.blocks := by
              by_contra hh
              exact hb ⟨hu, hh⟩
            rw [if_pos hu, if_neg (hne htL), if_pos htL, hev u hu, hinside u t hu ht]
            rfl
          · rw [if_neg hu] at ht
            rw [if_neg hu]
            obtain ⟨t0, ht0, rfl⟩ := List.mem_map.1 ht
            have hg := hP.good u t0 ht0 (fun h => h)
            unfold repl
            by_cases h2 : t0 = L.header
            · rw [if_pos h2, if_pos rfl, ← h2]
              exact hg
            · have htL : t0 ∉ L.blocks := fun hh => h2 (hin u t0 hu ht0 hh)
              rw [if_neg h2, if_neg (fun e : t0 = g.next => hns u (e ▸ ht0)), if_neg htL]
              exact hg
      · rintro u t ht ⟨hu, htL⟩
        change t ∈ (if u = g.next then _ else _) at ht
        show exec (if u = g.next then _ else _) (if u = g.next then _ else _) = some (_ :: if t = g.next then _ else _)
        rw [if_neg (hne hu), if_pos hu] at ht
        rw [if_neg (hne hu), if_neg (hne hu), if_pos hu, if_neg (fun e : t = g.next => hns u (e ▸ ht)), if_neg htL, hev u hu,
          hinside u t hu ht]
        rfl

/-! ### Exits -/

/-- Processing of a single exit. -/
theorem exit_stage {g0 g : Graph} {done rest : List Lp} {L : Lp} {pre : Nat → List Nat} {dst : Nat → Nat}
    (hL : Natural g0 L) (hN : ∀ M ∈ rest, Natural g0 M) (hB : ∀ M ∈ rest, Before L M) (hC : Core g0 g done rest dst)
    (hev : ∀ u ∈ L.blocks, g.events u = []) (hS : Simple g L) {u t : Nat} {dn rs todo : List Nat} (hu : u ∈ L.blocks)
    (htodo : u ∉ todo) (hsub : ∀ v ∈ todo, v ∈ L.blocks) (hsucc : g.succ u = dn ++ t :: rs) (ht : t ∉ L.blocks)
    (hP : Lab g0 g (done ++ [L]) pre L.header fun v w => (v ∈ todo ∧ w ∉ L.blocks) ∨ (v = u ∧ w ∈ t :: rs ∧ w ∉ L.blocks)) :
    let g' := exitSlot L u dn.length g
    ∃ pre' dst', Core g0 g' done rest dst' ∧ (∀ u ∈ L.blocks, g'.events u = []) ∧ Simple g' L ∧
      g'.succ u = dn ++ [g.next] ++ rs ∧
      Lab g0 g' (done ++ [L]) pre' L.header fun v w => (v ∈ todo ∧ w ∉ L.blocks) ∨ (v = u ∧ w ∈ rs ∧ w ∉ L.blocks) := by
  have hi : (g.succ u)[dn.length]? = some t := by rw [hsucc]; simp
  have hg : exitSlot L u dn.length g =
      { succ := fun v => if v = g.next then [t] else if v = u then (g.succ u).map (repl t g.next) else g.succ v
        events := fun v => if v = g.next then [.leave L.header] else g.events v
        next := g.next + 1 } := by
    unfold exitSlot
    rw [hi]
    simp only [if_neg ht]
  have hcount := hS u hu t ht
  have htd : t ∉ dn ∧ t ∉ rs := by
    rw [hsucc] at hcount
    constructor
    · intro hh
      have := List.count_pos_iff.2 hh
      simp only [List.count_append, List.count_cons_self] at hcount
      omega
    · intro hh
      have := List.count_pos_iff.2 hh
      simp only [List.count_append, List.count_cons_self] at hcount
      omega
  have hnew : (g.succ u).map (repl t g.next) = dn ++ [g.next] ++ rs := by
    rw [hsucc, List.map_append, List.map_cons, map_repl_of_not_mem htd.1, map_repl_of_not_mem htd.2]
    simp [repl]
  have hns : ∀ v, g.next ∉ g.succ v := fun v hh => absurd (hC.closed v _ hh) (by omega)
  have htg : t ∈ g.succ u := by rw [hsucc]; simp
  have htlt := hC.closed u t htg
  have hult : u < g0.next := hL.known u hu
  have hle := hC.le
  have hun : u ≠ g.next := by omega
  have hnotM : ∀ M, Natural g0 M → g.next ∉ M.blocks := fun M hM hh => absurd (hM.known _ hh) (by omega)
  have hdst : ∀ v, v ≠ g.next → (fun v => if v = g.next then dst t else dst v) v = dst v := by
    intro v hv
    simp [hv]
  have hmap : ∀ v, (g.succ v).map (fun v => if v = g.next then dst t else dst v) = (g.succ v).map dst := by
    intro v
    apply List.map_congr_left
    intro w hw
    rw [if_neg (fun e : w = g.next => hns v (e ▸ hw))]
  have hpre : pre u = L.header :: pre t := by
    have := hP.bad u t htg (Or.inr ⟨rfl, List.mem_cons_self .., ht⟩)
    rw [hev u hu] at this
    exact Option.some.inj this
  have hcnt : ∀ w, w ≠ g.next → ((g.succ u).map (repl t g.next)).count w ≤ (g.succ u).count w := by
    intro w hw
    rw [count_map_repl (by omega) (hns u), if_neg hw]
    by_cases h1 : w = t
    · rw [if_pos h1]; omega
    · rw [if_neg h1]; exact Nat.le_refl _
  have hcntn : ((g.succ u).map (repl t g.next)).count g.next ≤ 1 := by
    rw [count_map_repl (by omega) (hns u), if_pos rfl]
    exact hcount
  simp only [hg]
  refine ⟨fun v => if v = g.next then pre u else pre v, fun v => if v = g.next then dst t else dst v, ?_, ?_, ?_, ?_, ?_⟩
  · refine ⟨Nat.le_succ_of_le hle, ?_, ?_, ?_, ?_, ?_, ?_, ?_, ?_, ?_, ?_, ?_, ?_⟩
    · intro v w hw
      show w < g.next + 1
      change w ∈ (if v = g.next then _ else _) at hw
      by_cases h1 : v = g.next
      · rw [if_pos h1] at hw
        rw [List.mem_singleton.1 hw]
        omega
      · rw [if_neg h1] at hw
        by_cases h2 : v = u
        · rw [if_pos h2] at hw
          obtain ⟨w0, hw0, rfl⟩ := List.mem_map.1 hw
          have := hC.closed u w0 hw0
          unfold repl
          by_cases h3 : w0 = t
          · rw [if_pos h3]; omega
          · rw [if_neg h3]; omega
        · rw [if_neg h2] at hw
          have := hC.closed v w hw
          omega
    · intro v hv
      change g.next + 1 ≤ v at hv
      show (if v = g.next then _ else _) = _
      rw [if_neg (by omega), if_neg (by omega), hC.fresh v (by omega)]
    · intro v hv
      show (if v = g.next then _ else _) = _
      rw [if_neg (by omega), hC.dstId v hv]
    · intro v hv
      show (if v = g.next then _ else _ : List Nat).map _ = _
      rw [if_neg (by omega)]
      by_cases h2 : v = u
      · subst h2
        rw [if_pos rfl, ← hC.sem v hv, List.map_map]
        apply List.map_congr_left
        intro w hw
        show (if repl t g.next w = g.next then _ else _) = _
        unfold repl
        by_cases h3 : w = t
        · rw [if_pos h3, if_pos rfl, h3]
        · rw [if_neg h3, if_neg (fun e : w = g.next => hns v (e ▸ hw))]
      · rw [if_neg h2, hmap, hC.sem v hv]
    · intro v h1 h2
      change v < g.next + 1 at h2
      show ∃ w, (if v = g.next then _ else _) = [w] ∧ _
      by_cases h3 : v = g.next
      · refine ⟨t, by rw [if_pos h3], ?_⟩
        show (if t = g.next then _ else _) = (if v = g.next then _ else _)
        rw [if_neg (by omega), if_pos h3]
      · obtain ⟨w, hw, hd⟩ := hC.semNew v h1 (by omega)
        refine ⟨w, by rw [if_neg h3, if_neg (by omega), hw], ?_⟩
        show (if w = g.next then _ else _) = (if v = g.next then _ else _)
        rw [if_neg (fun e : w = g.next => hns v (by rw [hw, e]; simp)), if_neg h3, hd]
    · obtain ⟨rk, hr0, hr⟩ := hC.rank
      refine ⟨fun v => if v = g.next then rk t + 1 else rk v, ?_, ?_⟩
      · intro v hv
        show (if v = g.next then _ else _) = _
        rw [if_neg (by omega), hr0 v hv]
      · intro v hv w hw
        change w ∈ (if v = g.next then _ else _) at hw
        show (if w = g.next then _ else _) < (if v = g.next then _ else _)
        by_cases h1 : v = g.next
        · rw [if_pos h1] at hw ⊢
          rw [List.mem_singleton.1 hw, if_neg (by omega)]
          omega
        · rw [if_neg h1, if_neg (by omega)] at hw
          rw [if_neg h1, if_neg (fun e : w = g.next => hns v (e ▸ hw))]
          exact hr v hv w hw
    · intro v hv
      change (if v = g.next then _ else _ : List Nat) = [] at hv
      show (if v = g.next then _ else _) = []
      by_cases h1 : v = g.next
      · rw [if_pos h1] at hv
        cases hv
      · rw [if_neg h1] at hv ⊢
        by_cases h2 : v = u
        · rw [if_pos h2, hnew] at hv
          simp at hv
        · rw [if_neg h2] at hv
          exact hC.ret v hv
    · intro M hM v w hv hw hwM
      change w ∈ (if v = g.next then _ else _) at hw
      by_cases h1 : v = g.next
      · rw [if_pos h1] at hw
        rw [List.mem_singleton.1 hw] at hwM ⊢
        have huM : u ∉ M.blocks := fun hh => ht ((hB M hM).sub hu hh hwM)
        exact hC.enter hM (hN M hM) huM htg hwM
      · rw [if_neg h1, if_neg (by omega)] at hw
        exact hC.n1 M hM v w hv hw hwM
    · intro M hM v hv
      show (if v = g.next then _ else _) = []
      rw [if_neg (fun e : v = g.next => hnotM M (hN M hM) (e ▸ hv))]
      exact hC.n4 M hM v hv
    · intro M hM v hv
      obtain ⟨w, hw, hwM⟩ := hC.n5 M hM v hv
      refine ⟨w, ?_, hwM⟩
      show w ∈ (if v = g.next then _ else _)
      rw [if_neg (fun e : v = g.next => hnotM M (hN M hM) (e ▸ hv))]
      by_cases h2 : v = u
      · subst h2
        rw [if_pos rfl]
        refine List.mem_map.2 ⟨w, hw, ?_⟩
        unfold repl
        rw [if_neg]
        rintro rfl
        exact ht ((hB M hM).sub hu hv hwM)
      · rwa [if_neg h2]
    · intro M hM v hv w hw
      show (if v = g.next then _ else _ : List Nat).count w ≤ 1
      rw [if_neg (fun e : v = g.next => hnotM M (hN M hM) (e ▸ hv))]
      by_cases h2 : v = u
      · subst h2
        rw [if_pos rfl]
        by_cases h3 : w = g.next
        · rw [h3]; exact hcntn
        · exact Nat.le_trans (hcnt w h3) (hC.n6 M hM v hv w hw)
      · rw [if_neg h2]
        exact hC.n6 M hM v hv w hw
    · intro v l
      show (if v = g.next then _ else _ : List Ev).count _ = _
      by_cases h1 : v = g.next
      · have h0 := hC.it v l
        rw [hC.ret v (hC.fresh v (by omega))] at h0
        rw [if_pos h1, ← h0]
        simp
      · rw [if_neg h1]
        exact hC.it v l
  · intro v hv
    show (if v = g.next then _ else _) = []
    rw [if_neg (fun e : v = g.next => hnotM L hL (e ▸ hv))]
    exact hev v hv
  · intro v hv w hw
    show (if v = g.next then _ else _ : List Nat).count w ≤ 1
    rw [if_neg (fun e : v = g.next => hnotM L hL (e ▸ hv))]
    by_cases h2 : v = u
    · subst h2
      rw [if_pos rfl]
      by_cases h3 : w = g.next
      · rw [h3]; exact hcntn
      · exact Nat.le_trans (hcnt w h3) (hS v hv w hw)
    · rw [if_neg h2]
      exact hS v hv w hw
  · show (if u = g.next then _ else _) = _
    rw [if_neg hun]
    simp only [if_true]
    exact hnew
  · refine ⟨?_, ?_, ?_⟩
    · intro v hv
      show (if v = g.next then _ else _) = _
      rw [if_neg (by omega)]
      exact hP.orig v hv
    · intro v w hw hb
      change w ∈ (if v = g.next then _ else _) at hw
      show exec (if v = g.next then _ else _) (if v = g.next then _ else _) = some (if w = g.next then _ else _)
      by_cases h1 : v = g.next
      · rw [if_pos h1] at hw
        rw [List.mem_singleton.1 hw, if_pos h1, if_pos h1, if_neg (by omega), hpre]
        show (accept (.leave L.header) (L.header :: pre t)).bind (exec []) = _
        simp [accept, exec]
      · rw [if_neg h1] at hw
        rw [if_neg h1, if_neg h1]
        by_cases h2 : v = u
        · subst h2
          rw [if_pos rfl, hnew] at hw
          rw [hev v hu]
          by_cases h3 : w = g.next
          · rw [if_pos h3]
            rfl
          · rw [if_neg h3]
            have hw' : w ∈ g.succ v := by
              rw [hsucc]
              simp only [List.mem_append, List.mem_cons, List.not_mem_nil, or_false] at hw ⊢
              rcases hw with (hw | hw) | hw
              · exact Or.inl hw
              · exact absurd hw h3
              · exact Or.inr (Or.inr hw)
            have hwt : w ≠ t := by
              rintro rfl
              simp only [List.mem_append, List.mem_singleton] at hw
              rcases hw with (hw | hw) | hw
              · exact htd.1 hw
              · exact h3 hw
              · exact htd.2 hw
            have := hP.good v w hw' (by
              rintro (⟨h4, _⟩ | ⟨_, h4, h5⟩)
              · exact htodo h4
              · rcases List.mem_cons.1 h4 with h4 | h4
                · exact hwt h4
                · exact hb (Or.inr ⟨rfl, h4, h5⟩))
            rwa [hev v hu] at this
        · rw [if_neg h2] at hw
          rw [if_neg (fun e : w = g.next => hns v (e ▸ hw))]
          refine hP.good v w hw ?_
          rintro (h4 | ⟨h4, _⟩)
          · exact hb (Or.inl h4)
          · exact h2 h4
    · intro v w hw hb
      change w ∈ (if v = g.next then _ else _) at hw
      show exec (if v = g.next then _ else _) (if v = g.next then _ else _) = some (_ :: if w = g.next then _ else _)
      have h1 : v ≠ g.next := by
        rcases hb with ⟨h4, _⟩ | ⟨h4, _⟩
        · exact fun e => hnotM L hL (e ▸ hsub v h4)
        · omega
      rw [if_neg h1] at hw
      rw [if_neg h1, if_neg h1]
      rcases hb with ⟨h4, h5⟩ | ⟨h4, h5, h6⟩
      · rw [if_neg (fun e : v = u => htodo (e ▸ h4))] at hw
        rw [if_neg (fun e : w = g.next => hns v (e ▸ hw))]
        exact hP.bad v w hw (Or.inl ⟨h4, h5⟩)
      · subst h4
        have hw' : w ∈ g.succ v := by rw [hsucc]; simp [h5]
        rw [if_neg (fun e : w = g.next => hns v (e ▸ hw'))]
        exact hP.bad v w hw' (Or.inr ⟨rfl, List.mem_cons_of_mem _ h5, h6⟩)

/-- Processing of all exits from a block. -/
theorem slots_stage {g0 : Graph} {done rest : List Lp} {L : Lp}
    (hL : Natural g0 L) (hN : ∀ M ∈ rest, Natural g0 M) (hB : ∀ M ∈ rest, Before L M) {u : Nat} {todo : List Nat}
    (hu : u ∈ L.blocks) (htodo : u ∉ todo) (hsub : ∀ v ∈ todo, v ∈ L.blocks) : ∀ (rs dn : List Nat) {g : Graph}
    {pre : Nat → List Nat} {dst : Nat → Nat}, Core g0 g done rest dst → (∀ u ∈ L.blocks, g.events u = []) → Simple g L →
    g.succ u = dn ++ rs →
    Lab g0 g (done ++ [L]) pre L.header (fun v w => (v ∈ todo ∧ w ∉ L.blocks) ∨ (v = u ∧ w ∈ rs ∧ w ∉ L.blocks)) →
    ∃ pre' dst', Core g0 (slots L u rs.length dn.length g) done rest dst' ∧
      (∀ v ∈ L.blocks, (slots L u rs.length dn.length g).events v = []) ∧ Simple (slots L u rs.length dn.length g) L ∧
      Lab g0 (slots L u rs.length dn.length g) (done ++ [L]) pre' L.header fun v w => v ∈ todo ∧ w ∉ L.blocks
  | [], dn, g, pre, dst, hC, hev, hS, hsucc, hP => by
    refine ⟨pre, dst, hC, hev, hS, hP.orig, ?_, ?_⟩
    · intro v w hw hb
      refine hP.good v w hw ?_
      rintro (h | ⟨_, h, _⟩)
      · exact hb h
      · cases h
    · intro v w hw hb
      exact hP.bad v w hw (Or.inl hb)
  | t :: rs, dn, g, pre, dst, hC, hev, hS, hsucc, hP => by
    show ∃ pre' dst', Core g0 (slots L u rs.length (dn.length + 1) (exitSlot L u dn.length g)) done rest dst' ∧ _
    by_cases ht : t ∈ L.blocks
    · have hg : exitSlot L u dn.length g = g := by
        unfold exitSlot
        have hi : (g.succ u)[dn.length]? = some t := by rw [hsucc]; simp
        rw [hi]
        simp only [if_pos ht]
      have := slots_stage hL hN hB hu htodo hsub rs (dn ++ [t]) (g := g) (pre := pre) hC hev hS (by rw [hsucc]; simp)
        ⟨hP.orig, fun v w hw hb => hP.good v w hw (by
          rintro (h | ⟨h, h2, h3⟩)
          · exact hb (Or.inl h)
          · rcases List.mem_cons.1 h2 with h2 | h2
            · exact h3 (h2 ▸ ht)
            · exact hb (Or.inr ⟨h, h2, h3⟩)), fun v w hw hb => hP.bad v w hw (by
          rcases hb with h | ⟨h, h2, h3⟩
          · exact Or.inl h
          · exact Or.inr ⟨h, List.mem_cons_of_mem _ h2, h3⟩)⟩
      rw [List.length_append] at this
      show ∃ pre' dst', Core g0 (slots L u rs.length (dn.length + 1) (exitSlot L u dn.length g)) done rest dst' ∧
        (∀ v ∈ L.blocks, (slots L u rs.length (dn.length + 1) (exitSlot L u dn.length g)).events v = []) ∧
        Simple (slots L u rs.length (dn.length + 1) (exitSlot L u dn.length g)) L ∧
        Lab g0 (slots L u rs.length (dn.length + 1) (exitSlot L u dn.length g)) (done ++ [L]) pre' L.header _
      rw [hg]
      exact this
    · obtain ⟨pre', dst', h1, h2, h3, h4, h5⟩ := exit_stage hL hN hB hC hev hS hu htodo hsub hsucc ht hP
      have := slots_stage hL hN hB hu htodo hsub rs (dn ++ [g.next]) h1 h2 h3 h4 h5
      rw [List.length_append] at this
      exact this

/-- Processing of all exits from a loop. -/
theorem end_stage {g0 : Graph} {done rest : List Lp} {L : Lp}
    (hL : Natural g0 L) (hN : ∀ M ∈ rest, Natural g0 M) (hB : ∀ M ∈ rest, Before L M) : ∀ (todo : List Nat) {g : Graph}
    {pre : Nat → List Nat} {dst : Nat → Nat}, todo.Nodup → (∀ v ∈ todo, v ∈ L.blocks) → Core g0 g done rest dst →
    (∀ u ∈ L.blocks, g.events u = []) → Simple g L →
    Lab g0 g (done ++ [L]) pre L.header (fun v w => v ∈ todo ∧ w ∉ L.blocks) →
    ∃ pre' dst', Core g0 (todo.foldl (fun g u => slots L u (g.succ u).length 0 g) g) done rest dst' ∧
      (∀ u ∈ L.blocks, (todo.foldl (fun g u => slots L u (g.succ u).length 0 g) g).events u = []) ∧
      Lab g0 (todo.foldl (fun g u => slots L u (g.succ u).length 0 g) g) (done ++ [L]) pre' L.header fun _ _ => False
  | [], g, pre, dst, _, _, hC, hev, _, hP => by
    refine ⟨pre, dst, hC, hev, hP.orig, ?_, ?_⟩
    · intro v w hw _
      exact hP.good v w hw (fun h => by cases h.1)
    · intro v w _ hb
      exact hb.elim
  | u :: todo, g, pre, dst, hn, hsub, hC, hev, hS, hP => by
    obtain ⟨hn1, hn2⟩ := List.nodup_cons.1 hn
    obtain ⟨pre', dst', h1, h2, h3, h4⟩ := slots_stage hL hN hB (hsub u (List.mem_cons_self ..)) hn1
      (fun v hv => hsub v (List.mem_cons_of_mem _ hv)) (g.succ u) [] hC hev hS rfl (pre := pre)
      ⟨hP.orig, fun v w hw hb => hP.good v w hw (by
        rintro ⟨h, h3⟩
        rcases List.mem_cons.1 h with h | h
        · exact hb (Or.inr ⟨h, h ▸ hw, h3⟩)
        · exact hb (Or.inl ⟨h, h3⟩)), fun v w hw hb => hP.bad v w hw (by
        rcases hb with ⟨h, h3⟩ | ⟨h, h2, h3⟩
        · exact ⟨List.mem_cons_of_mem _ h, h3⟩
        · exact ⟨h ▸ List.mem_cons_self .., h3⟩)⟩
    exact end_stage hL hN hB todo hn2 (fun v hv => hsub v (List.mem_cons_of_mem _ hv)) h1 h2 h3 h4

/-! ### All loops -/

theorem iter_stage {g0 g : Graph} {done rest : List Lp} {L : Lp} {pre : Nat → List Nat} {dst : Nat → Nat}
    (hL : Natural g0 L) (hB : ∀ M ∈ rest, Before L M) (hC : Core g0 g done rest dst)
    (hev : ∀ u ∈ L.blocks, g.events u = []) {h : Nat} (hP : Lab g0 g (done ++ [L]) pre h fun _ _ => False) :
    Core g0 (iterInstr L g) (done ++ [L]) rest dst ∧ Lab g0 (iterInstr L g) (done ++ [L]) pre h fun _ _ => False := by
  have hh := hL.header
  refine ⟨⟨hC.le, hC.closed, hC.fresh, hC.dstId, hC.sem, hC.semNew, hC.rank, ?_, hC.n1, ?_, hC.n5, hC.n6, ?_⟩, hP.orig, ?_,
    fun u t _ hb => hb.elim⟩
  · intro u hu
    show (if u = L.header then _ else _) = []
    have : u ≠ L.header := by
      rintro rfl
      obtain ⟨t, ht, _⟩ := hL.inside _ hh
      rw [← hC.sem _ (hL.known _ hh)] at ht
      change g.succ L.header = [] at hu
      rw [hu] at ht
      cases ht
    rw [if_neg this]
    exact hC.ret u hu
  · intro M hM u hu
    show (if u = L.header then _ else _) = []
    rw [if_neg]
    · exact hC.n4 M hM u hu
    · rintro rfl
      exact (hB M hM).header_not hh hu
  · intro u l
    show (if u = L.header then _ else _ : List Ev).count _ = _
    have h0 := hC.it u l
    by_cases h1 : u = L.header
    · rw [if_pos h1, h1, hev _ hh]
      rw [h1, hev _ hh] at h0
      by_cases h2 : l = L.header
      · subst h2
        simp
      · have h3 : L.header ≠ l := fun e => h2 e.symm
        simp [h3]
    · rw [if_neg h1, h0]
      by_cases h2 : u = l
      · subst h2
        simp [h1]
      · simp [h2]
  · intro u t ht hb
    show exec (if u = L.header then _ else _) _ = _
    have := hP.good u t ht hb
    by_cases h1 : u = L.header
    · subst h1
      rw [if_pos rfl]
      show (accept (.iter L.header) (pre L.header)).bind (exec (g.events L.header)) = _
      have hp : (pre L.header).head? = some L.header := by
        rw [hP.orig _ (hL.known _ hh), nest_snoc, if_pos hh]
        rfl
      have ha : accept (.iter L.header) (pre L.header) = some (pre L.header) := if_pos hp
      rw [ha]
      exact this
    · rw [if_neg h1]
      exact this

theorem run_stage {g0 : Graph} : ∀ (rest done : List Lp) {g : Graph} {pre : Nat → List Nat} {dst : Nat → Nat} {h : Nat},
    (∀ M ∈ rest, Natural g0 M) → rest.Pairwise Before → Core g0 g done rest dst → Lab g0 g done pre h (fun _ _ => False) →
    ∃ pre' dst' h', Core g0 (rest.foldl instr g) (done ++ rest) [] dst' ∧
      Lab g0 (rest.foldl instr g) (done ++ rest) pre' h' fun _ _ => False
  | [], done, g, pre, dst, h, _, _, hC, hP => by
    rw [List.append_nil]
    exact ⟨pre, dst, h, hC, hP⟩
  | L :: rest, done, g, pre, dst, h, hN, hB, hC, hP => by
    obtain ⟨hB1, hB2⟩ := List.pairwise_cons.1 hB
    have hL := hN L (List.mem_cons_self ..)
    have hN' : ∀ M ∈ rest, Natural g0 M := fun M hM => hN M (List.mem_cons_of_mem _ hM)
    obtain ⟨pre1, dst1, h1, h2, h3, h4⟩ := begin_stage hN hB1 hC hP
    obtain ⟨pre2, dst2, h5, h6, h7⟩ := end_stage hL hN' hB1 L.blocks hL.nodup (fun v hv => hv) h1 h2 h3 h4
    obtain ⟨h8, h9⟩ := iter_stage hL hB1 h5 h6 h7
    have := run_stage rest (done ++ [L]) (g := instr g L) hN' hB2 h8 h9
    rw [List.append_assoc] at this
    exact this

mutual
/-- Each loop is visited. -/
theorem mem_visit {L : Lp} : ∀ t : LTree, L ∈ visit t ↔ L ∈ flat t
  | .node l subs => by
    unfold visit flat
    rw [List.mem_cons, List.mem_cons, mem_visitAll subs]

theorem mem_visitAll {L : Lp} : ∀ ts : List LTree, L ∈ visitAll ts ↔ L ∈ flatAll ts
  | [] => by unfold visitAll flatAll; exact Iff.rfl
  | t :: ts => by
    unfold visitAll flatAll
    rw [List.mem_append, List.mem_append, mem_visit t, mem_visitAll ts, or_comm]
end

theorem nest_append (a b : List Lp) (u : Nat) : nest (a ++ b) u = nest b u ++ nest a u := by
  unfold nest
  rw [List.filter_append, List.map_append, List.reverse_append]

mutual
theorem nest_visit (u : Nat) : ∀ t : LTree, Wf t → nest (visit t) u = around u t
  | .node l subs, h => by
    unfold visit around
    unfold Wf at h
    rw [show l :: visitAll subs = [l] ++ visitAll subs from rfl, nest_append, nest_visitAll u subs h.2]
    by_cases hu : u ∈ l.blocks
    · rw [if_pos hu]
      simp [nest, hu]
    · rw [if_neg hu, ← nest_visitAll u subs h.2]
      have : ((visitAll subs).filter fun M => u ∈ M.blocks) = [] := by
        rw [List.filter_eq_nil_iff]
        intro M hM
        simp only [decide_eq_true_eq]
        exact fun hh => hu ((h.1 M ((mem_visitAll subs).1 hM)).1 hh)
      unfold nest
      rw [this]
      simp [hu]

theorem nest_visitAll (u : Nat) : ∀ ts : List LTree, WfAll ts → nest (visitAll ts) u = aroundAll u ts
  | [], _ => by unfold visitAll aroundAll; rfl
  | t :: ts, h => by
    unfold visitAll aroundAll
    unfold WfAll at h
    rw [nest_append, nest_visit u t h.1, nest_visitAll u ts h.2.1]
end

mutual
/-- Outer loops are visited before inner loops. -/
theorem visit_order : ∀ t : LTree, Wf t → (visit t).Pairwise Before
  | .node l subs, h => by
    unfold visit
    unfold Wf at h
    exact List.pairwise_cons.2 ⟨fun M hM => Or.inl (h.1 M ((mem_visitAll subs).1 hM)), visitAll_order subs h.2⟩

theorem visitAll_order : ∀ ts : List LTree, WfAll ts → (visitAll ts).Pairwise Before
  | [], _ => by unfold visitAll; exact List.Pairwise.nil
  | t :: ts, h => by
    unfold visitAll
    unfold WfAll at h
    exact List.pairwise_append.2 ⟨visitAll_order ts h.2.1, visit_order t h.1, fun L hL M hM => Or.inr (h.2.2 L ((mem_visitAll ts).1 hL) M ((mem_visit t).1 hM))⟩
end

theorem regLoops_stage {g0 : Graph} {entry : Nat} {ts : List LTree} (h : Input g0 entry ts)
    (hS : ∀ L ∈ flatAll ts, Simple g0 L) :
    ∃ (pre : Nat → List Nat) (dst : Nat → Nat), Core g0 (regLoops ts g0) (visitAll ts) [] dst ∧
      (∀ u, u < g0.next → pre u = nest (visitAll ts) u) ∧
      ∀ u t, t ∈ (regLoops ts g0).succ u → exec ((regLoops ts g0).events u) (pre u) = some (pre t) := by
  have hN := fun L hL => h.natural L ((mem_visitAll ts).1 hL)
  have hS' := fun L hL => hS L ((mem_visitAll ts).1 hL)
  have hC : Core g0 g0 [] (visitAll ts) id := by
    refine ⟨Nat.le_refl _, h.fn.closed, h.fn.fresh, fun _ _ => rfl, fun _ _ => List.map_id _, fun u h1 h2 => by omega,
      ⟨fun _ => 0, fun _ _ => rfl, ?_⟩, fun u _ => h.fn.events u, ?_, fun _ _ u _ => h.fn.events u, ?_, hS', ?_⟩
    · intro u hu t ht
      rw [h.fn.fresh u hu] at ht
      cases ht
    · intro M _ u t hu ht _
      rw [h.fn.fresh u hu] at ht
      cases ht
    · exact fun M hM => (hN M hM).inside
    · intro u l
      rw [h.fn.events]
      simp
  have hP : Lab g0 g0 [] (fun _ => []) 0 fun _ _ => False := by
    refine ⟨fun _ _ => rfl, ?_, fun _ _ _ hb => hb.elim⟩
    intro u t _ _
    rw [h.fn.events]
    rfl
  obtain ⟨pre, dst, _, h1, h2⟩ := run_stage (visitAll ts) [] hN (visitAll_order ts h.tree) hC hP
  exact ⟨pre, dst, h1, h2.orig, fun u t ht => h2.good u t ht (fun hb => hb)⟩

theorem Path.tail {g : Graph} {u : Nat} : ∀ {p : List Nat}, Path g (u :: p) → Path g p
  | [], _ => trivial
  | _ :: _, h => h.2

theorem Path.split {g : Graph} : ∀ {q r : List Nat}, Path g (q ++ r) → Path g q ∧ Path g r
  | [], _, h => ⟨trivial, h⟩
  | [u], [], _ => ⟨trivial, trivial⟩
  | [_], _ :: _, h => ⟨trivial, h.2⟩
  | u :: v :: q, r, h => by
    obtain ⟨h1, h2⟩ := Path.split (q := v :: q) (r := r) h.2
    exact ⟨⟨h.1, h1⟩, h2⟩

/-- A trace of a path. -/
theorem exec_path {g : Graph} {pre : Nat → List Nat}
    (hg : ∀ u t, t ∈ g.succ u → exec (g.events u) (pre u) = some (pre t)) : ∀ (q : List Nat) (u : Nat) (r : List Nat),
    Path g (q ++ u :: r) → exec (trace g q) (pre ((q ++ u :: r).headD 0)) = some (pre u)
  | [], _, _, _ => rfl
  | [v], u, r, h => by
    show exec ((g.events v) ++ []) (pre v) = _
    rw [List.append_nil]
    exact hg v u h.1
  | v :: w :: q, u, r, h => by
    show exec (g.events v ++ trace g (w :: q)) (pre v) = _
    rw [exec_append, hg v w h.1]
    exact exec_path hg (w :: q) u r h.2

/-! ### Control flow -/

/-- A part of `Core` which does not depend on events. -/
structure Flow (g0 g : Graph) (dst : Nat → Nat) : Prop where
  le : g0.next ≤ g.next
  closed : ∀ u t, t ∈ g.succ u → t < g.next
  fresh : ∀ u, g.next ≤ u → g.succ u = []
  dstId : ∀ u, u < g0.next → dst u = u
  sem : ∀ u, u < g0.next → (g.succ u).map dst = g0.succ u
  semNew : ∀ u, g0.next ≤ u → u < g.next → ∃ t, g.succ u = [t] ∧ dst t = dst u
  rank : ∃ rk : Nat → Nat, (∀ u, u < g0.next → rk u = 0) ∧ ∀ u, g0.next ≤ u → ∀ t ∈ g.succ u, rk t < rk u

theorem flow_begin {g0 g : Graph} {dst : Nat → Nat} {L : Lp} (hL : Natural g0 L) (hC : Flow g0 g dst) :
    ∃ dst', Flow g0 (beginInstr L g) dst' := by
  have hle := hC.le
  unfold beginInstr
  cases preheader L g with
  | some p => exact ⟨dst, hC.le, hC.closed, hC.fresh, hC.dstId, hC.sem, hC.semNew, hC.rank⟩
  | none =>
    have hh0 := hL.known _ hL.header
    have hhn : L.header ≠ g.next := by omega
    have hns : ∀ u, g.next ∉ g.succ u := fun u hh => absurd (hC.closed u _ hh) (by omega)
    have hnL : ∀ {u}, u ∈ L.blocks → u < g0.next := fun hu => hL.known _ hu
    have hsub : ∀ u t, t ∈ (if u ∈ L.blocks then g.succ u else (g.succ u).map (repl L.header g.next)) →
        t ∈ g.succ u ∨ (t = g.next ∧ L.header ∈ g.succ u) := by
      intro u t ht
      by_cases hu : u ∈ L.blocks
      · rw [if_pos hu] at ht; exact Or.inl ht
      · rw [if_neg hu] at ht
        obtain ⟨t0, ht0, rfl⟩ := List.mem_map.1 ht
        unfold repl
        by_cases h1 : t0 = L.header
        · rw [if_pos h1]; exact Or.inr ⟨rfl, h1 ▸ ht0⟩
        · rw [if_neg h1]; exact Or.inl ht0
    have hmap : ∀ u, (if u ∈ L.blocks then g.succ u else (g.succ u).map (repl L.header g.next)).map
        (fun u => if u = g.next then L.header else dst u) = (g.succ u).map dst := by
      intro u
      by_cases hu : u ∈ L.blocks
      · rw [if_pos hu]
        apply List.map_congr_left
        intro t ht
        rw [if_neg (fun e : t = g.next => hns u (e ▸ ht))]
      · rw [if_neg hu, List.map_map]
        apply List.map_congr_left
        intro t ht
        show (if repl L.header g.next t = g.next then _ else _) = _
        unfold repl
        by_cases h1 : t = L.header
        · rw [if_pos h1, if_pos rfl, h1, hC.dstId _ hh0]
        · rw [if_neg h1, if_neg (fun e : t = g.next => hns u (e ▸ ht))]
    refine ⟨fun u => if u = g.next then L.header else dst u, Nat.le_succ_of_le hle, ?_, ?_, ?_, ?_, ?_, ?_⟩
    · intro u t ht
      show t < g.next + 1
      change t ∈ (if u = g.next then _ else _) at ht
      by_cases hu : u = g.next
      · rw [if_pos hu] at ht
        rw [List.mem_singleton.1 ht]
        omega
      · rw [if_neg hu] at ht
        rcases hsub u t ht with h | h
        · have := hC.closed u t h
          omega
        · omega
    · intro u hu
      change g.next + 1 ≤ u at hu
      show (if u = g.next then _ else _) = _
      rw [if_neg (by omega), hC.fresh u (by omega)]
      simp
    · intro u hu
      show (if u = g.next then _ else _) = _
      rw [if_neg (by omega), hC.dstId u hu]
    · intro u hu
      show (if u = g.next then _ else _ : List Nat).map _ = _
      rw [if_neg (by omega)]
      exact (hmap u).trans (hC.sem u hu)
    · intro u h1 h2
      change u < g.next + 1 at h2
      by_cases h3 : u = g.next
      · refine ⟨L.header, by show (if u = g.next then _ else _) = _; rw [if_pos h3], ?_⟩
        show (if L.header = g.next then _ else _) = (if u = g.next then _ else _)
        rw [if_neg hhn, if_pos h3, hC.dstId _ hh0]
      · obtain ⟨t, ht, hd⟩ := hC.semNew u h1 (by omega)
        have huL : u ∉ L.blocks := fun hh => absurd (hnL hh) (by omega)
        have hm := hmap u
        rw [if_neg huL, ht] at hm
        refine ⟨repl L.header g.next t, ?_, ?_⟩
        · show (if u = g.next then _ else _) = _
          rw [if_neg h3, if_neg huL, ht]
          rfl
        · show _ = (if u = g.next then _ else _)
          rw [if_neg h3, ← hd]
          exact List.head_eq_of_cons_eq hm
    · obtain ⟨rk, hr0, hr⟩ := hC.rank
      refine ⟨fun u => if u = g.next then 1 else 2 * rk u, ?_, ?_⟩
      · intro u hu
        show (if u = g.next then _ else _) = _
        rw [if_neg (by omega), hr0 u hu]
      · intro u hu t ht
        change t ∈ (if u = g.next then _ else _) at ht
        show (if t = g.next then _ else _) < (if u = g.next then _ else _)
        by_cases h1 : u = g.next
        · rw [if_pos h1] at ht ⊢
          rw [List.mem_singleton.1 ht, if_neg hhn, hr0 _ hh0]
          omega
        · rw [if_neg h1] at ht ⊢
          rcases hsub u t ht with h | h
          · rw [if_neg (fun e : t = g.next => hns u (e ▸ h))]
            have := hr u hu t h
            omega
          · rw [if_pos h.1]
            have := hr u hu _ h.2
            omega

theorem flow_exit {g0 g : Graph} {dst : Nat → Nat} {L : Lp} {u : Nat} (hu : u < g0.next) (i : Nat) (hC : Flow g0 g dst) :
    ∃ dst', Flow g0 (exitSlot L u i g) dst' := by
  have hle := hC.le
  unfold exitSlot
  cases hi : (g.succ u)[i]? with
  | none => exact ⟨dst, hC⟩
  | some t =>
    by_cases ht : t ∈ L.blocks
    · simp only [if_pos ht]
      exact ⟨dst, hC⟩
    simp only [if_neg ht]
    have htg : t ∈ g.succ u := List.mem_of_getElem? hi
    have htlt := hC.closed u t htg
    have hns : ∀ v, g.next ∉ g.succ v := fun v hh => absurd (hC.closed v _ hh) (by omega)
    have hmap : ∀ v, (g.succ v).map (fun v => if v = g.next then dst t else dst v) = (g.succ v).map dst := by
      intro v
      apply List.map_congr_left
      intro w hw
      rw [if_neg (fun e : w = g.next => hns v (e ▸ hw))]
    refine ⟨fun v => if v = g.next then dst t else dst v, Nat.le_succ_of_le hle, ?_, ?_, ?_, ?_, ?_, ?_⟩
    · intro v w hw
      show w < g.next + 1
      change w ∈ (if v = g.next then _ else _) at hw
      by_cases h1 : v = g.next
      · rw [if_pos h1] at hw
        rw [List.mem_singleton.1 hw]
        omega
      · rw [if_neg h1] at hw
        by_cases h2 : v = u
        · rw [if_pos h2] at hw
          obtain ⟨w0, hw0, rfl⟩ := List.mem_map.1 hw
          have := hC.closed u w0 hw0
          unfold repl
          by_cases h3 : w0 = t
          · rw [if_pos h3]; omega
          · rw [if_neg h3]; omega
        · rw [if_neg h2] at hw
          have := hC.closed v w hw
          omega
    · intro v hv
      change g.next + 1 ≤ v at hv
      show (if v = g.next then _ else _) = _
      rw [if_neg (by omega), if_neg (by omega), hC.fresh v (by omega)]
    · intro v hv
      show (if v = g.next then _ else _) = _
      rw [if_neg (by omega), hC.dstId v hv]
    · intro v hv
      show (if v = g.next then _ else _ : List Nat).map _ = _
      rw [if_neg (by omega)]
      by_cases h2 : v = u
      · subst h2
        rw [if_pos rfl, ← hC.sem v hv, List.map_map]
        apply List.map_congr_left
        intro w hw
        show (if repl t g.next w = g.next then _ else _) = _
        unfold repl
        by_cases h3 : w = t
        · rw [if_pos h3, if_pos rfl, h3]
        · rw [if_neg h3, if_neg (fun e : w = g.next => hns v (e ▸ hw))]
      · rw [if_neg h2, hmap, hC.sem v hv]
    · intro v h1 h2
      change v < g.next + 1 at h2
      show ∃ w, (if v = g.next then _ else _) = [w] ∧ _
      by_cases h3 : v = g.next
      · refine ⟨t, by rw [if_pos h3], ?_⟩
        show (if t = g.next then _ else _) = (if v = g.next then _ else _)
        rw [if_neg (by omega), if_pos h3]
      · obtain ⟨w, hw, hd⟩ := hC.semNew v h1 (by omega)
        refine ⟨w, by rw [if_neg h3, if_neg (by omega), hw], ?_⟩
        show (if w = g.next then _ else _) = (if v = g.next then _ else _)
        rw [if_neg (fun e : w = g.next => hns v (by rw [hw, e]; simp)), if_neg h3, hd]
    · obtain ⟨rk, hr0, hr⟩ := hC.rank
      refine ⟨fun v => if v = g.next then rk t + 1 else rk v, ?_, ?_⟩
      · intro v hv
        show (if v = g.next then _ else _) = _
        rw [if_neg (by omega), hr0 v hv]
      · intro v hv w hw
        change w ∈ (if v = g.next then _ else _) at hw
        show (if w = g.next then _ else _) < (if v = g.next then _ else _)
        by_cases h1 : v = g.next
        · rw [if_pos h1] at hw ⊢
          rw [List.mem_singleton.1 hw, if_neg (by omega)]
          omega
        · rw [if_neg h1, if_neg (by omega)] at hw
          rw [if_neg h1, if_neg (fun e : w = g.next => hns v (e ▸ hw))]
          exact hr v hv w hw

theorem flow_slots {g0 : Graph} {L : Lp} {u : Nat} (hu : u < g0.next) : ∀ (k i : Nat) {g : Graph} {dst : Nat → Nat},
    Flow g0 g dst → ∃ dst', Flow g0 (slots L u k i g) dst'
  | 0, _, _, dst, hC => ⟨dst, hC⟩
  | k + 1, i, _, _, hC => by
    obtain ⟨_, h⟩ := flow_exit (L := L) hu i hC
    exact flow_slots hu k (i + 1) h

theorem flow_end {g0 : Graph} {L : Lp} : ∀ (bs : List Nat), (∀ u ∈ bs, u < g0.next) → ∀ {g : Graph} {dst : Nat → Nat}, Flow g0 g dst →
    ∃ dst', Flow g0 (bs.foldl (fun g u => slots L u (g.succ u).length 0 g) g) dst'
  | [], _, _, dst, hC => ⟨dst, hC⟩
  | u :: bs, h, g, _, hC => by
    obtain ⟨_, h1⟩ := flow_slots (L := L) (h u (List.mem_cons_self ..)) (g.succ u).length 0 hC
    exact flow_end bs (fun v hv => h v (List.mem_cons_of_mem _ hv)) h1

theorem flow_run {g0 : Graph} : ∀ (loops : List Lp), (∀ L ∈ loops, Natural g0 L) → ∀ {g : Graph} {dst : Nat → Nat}, Flow g0 g dst →
    ∃ dst', Flow g0 (loops.foldl instr g) dst'
  | [], _, _, dst, hC => ⟨dst, hC⟩
  | L :: loops, h, _, _, hC => by
    have hL := h L (List.mem_cons_self ..)
    obtain ⟨_, h1⟩ := flow_begin hL hC
    obtain ⟨_, h2⟩ := flow_end (L := L) L.blocks hL.known h1
    exact flow_run loops (fun M hM => h M (List.mem_cons_of_mem _ hM))
      (g := iterInstr L (endInstr L _)) ⟨h2.le, h2.closed, h2.fresh, h2.dstId, h2.sem, h2.semNew, h2.rank⟩

theorem regLoops_flow {g0 : Graph} {entry : Nat} {ts : List LTree} (h : Input g0 entry ts) :
    ∃ dst, Flow g0 (regLoops ts g0) dst := by
  refine flow_run (visitAll ts) (fun L hL => h.natural L ((mem_visitAll ts).1 hL)) (dst := id)
    ⟨Nat.le_refl _, h.fn.closed, h.fn.fresh, fun _ _ => rfl, fun _ _ => List.map_id _, fun u h1 h2 => by omega,
      ⟨fun _ => 0, fun _ _ => rfl, ?_⟩⟩
  intro u hu t ht
  rw [h.fn.fresh u hu] at ht
  cases ht

/-- Executed original blocks form a path of the original function. -/
theorem project {g0 g : Graph} {dst : Nat → Nat} (hC : Flow g0 g dst) :
    ∀ (p : List Nat) (u : Nat), u < g.next → Path g (u :: p) →
      Path g0 ((u :: p).filter fun v => v < g0.next) ∧ ∀ w, ((u :: p).filter fun v => v < g0.next).head? = some w → w = dst u
  | [], u, hu, _ => by
    by_cases h : u < g0.next
    · simp [h, Path, hC.dstId u h]
    · simp [h, Path]
  | v :: p, u, hu, h => by
    obtain ⟨h1, h2⟩ := project hC p v (hC.closed u v h.1) h.2
    by_cases hlt : u < g0.next
    · rw [List.filter_cons_of_pos (by simpa using hlt)]
      refine ⟨?_, ?_⟩
      · cases hf : (v :: p).filter fun v => v < g0.next with
        | nil => trivial
        | cons w q =>
          rw [hf] at h1 h2
          refine ⟨?_, h1⟩
          rw [h2 w rfl, ← hC.sem u hlt]
          exact List.mem_map.2 ⟨v, h.1, rfl⟩
      · intro w hw
        rw [hC.dstId u hlt]
        exact (Option.some.inj hw).symm
    · rw [List.filter_cons_of_neg (by simpa using hlt)]
      refine ⟨h1, ?_⟩
      intro w hw
      obtain ⟨t, ht, hd⟩ := hC.semNew u (by omega) hu
      have hv : v ∈ g.succ u := h.1
      rw [ht] at hv
      rw [h2 w hw, List.mem_singleton.1 hv, hd]

/-- A chain of new blocks is finite. -/
theorem chain {g0 g : Graph} {dst : Nat → Nat} (hC : Flow g0 g dst) {rk : Nat → Nat}
    (hr : ∀ u, g0.next ≤ u → ∀ t ∈ g.succ u, rk t < rk u) : ∀ (n : Nat) (u : Nat), rk u = n → u < g.next →
    ∃ c, (∀ v ∈ c, g0.next ≤ v) ∧ dst u < g0.next ∧ (c ++ [dst u]).head? = some u ∧ Path g (c ++ [dst u]) := by
  intro n
  induction n using Nat.strongRecOn with
  | ind n ih =>
    intro u hn hu
    by_cases h : u < g0.next
    · refine ⟨[], (fun v hv => by simp at hv), ?_, ?_, trivial⟩
      · rw [hC.dstId u h]; exact h
      · rw [hC.dstId u h]; rfl
    · obtain ⟨t, ht, hd⟩ := hC.semNew u (by omega) hu
      have htm : t ∈ g.succ u := by rw [ht]; simp
      obtain ⟨c, h1, h2, h3, h4⟩ := ih (rk t) (hn ▸ hr u (by omega) t htm) t rfl (hC.closed u t htm)
      rw [hd] at h2 h3 h4
      refine ⟨u :: c, ?_, h2, rfl, ?_⟩
      · intro v hv
        rcases List.mem_cons.1 hv with hv | hv
        · omega
        · exact h1 v hv
      · cases hc : c ++ [dst u] with
        | nil => simp at hc
        | cons w q =>
          rw [hc] at h3 h4
          show Path g (u :: (c ++ [dst u]))
          rw [hc]
          exact ⟨by rw [Option.some.inj h3]; exact htm, h4⟩

theorem Path.join {g : Graph} {u w : Nat} {q : List Nat} : ∀ {c : List Nat}, Path g (c ++ [u]) → w ∈ g.succ u → Path g (w :: q) →
    Path g (c ++ u :: w :: q)
  | [], _, h2, h3 => ⟨h2, h3⟩
  | [_], h1, h2, h3 => ⟨h1.1, h2, h3⟩
  | _ :: v :: c, h1, h2, h3 => ⟨h1.1, Path.join (c := v :: c) h1.2 h2 h3⟩

/-! ### Main theorems -/

/-- **C165.** An instrumented function executes the same blocks of the original function in the same order: original blocks of
each path of an instrumented function form a path of the original function, and each path of the original function is a result of
such a projection. -/
theorem same_control_flow {g0 : Graph} {entry : Nat} {ts : List LTree} (h : Input g0 entry ts) :
    (∀ p, p.head? = some entry → Path (regLoops ts g0) p → Path g0 (p.filter fun v => v < g0.next)) ∧
    (∀ p0, p0.head? = some entry → Path g0 p0 →
      ∃ p, p.head? = some entry ∧ Path (regLoops ts g0) p ∧ (p.filter fun v => v < g0.next) = p0) := by
  obtain ⟨dst, hC⟩ := regLoops_flow h
  refine ⟨?_, ?_⟩
  · intro p hp hpath
    cases p with
    | nil => trivial
    | cons u p =>
      have : u = entry := Option.some.inj hp
      exact (project hC p u (by rw [this]; exact Nat.lt_of_lt_of_le h.fn.entry hC.le) hpath).1
  · obtain ⟨rk, _, hr⟩ := hC.rank
    have key : ∀ (p0 : List Nat) (u : Nat), u < g0.next → Path g0 (u :: p0) →
        ∃ p, Path (regLoops ts g0) (u :: p) ∧ ((u :: p).filter fun v => v < g0.next) = u :: p0 := by
      intro p0
      induction p0 with
      | nil => intro u hu _; exact ⟨[], trivial, by simp [hu]⟩
      | cons w p0 ih =>
        intro u hu hp
        have hw0 : w < g0.next := h.fn.closed u w hp.1
        obtain ⟨p, h1, h2⟩ := ih w hw0 hp.2
        have hw : w ∈ ((regLoops ts g0).succ u).map dst := by rw [hC.sem u hu]; exact hp.1
        obtain ⟨t, ht, rfl⟩ := List.mem_map.1 hw
        obtain ⟨c, h3, _, h5, h6⟩ := chain hC hr (rk t) t rfl (hC.closed u t ht)
        refine ⟨c ++ dst t :: p, ?_, ?_⟩
        · have hj : Path (regLoops ts g0) (c ++ dst t :: p) := by
            cases p with
            | nil => exact h6
            | cons w p => exact Path.join h6 h1.1 h1.2
          cases c with
          | nil =>
            have : dst t = t := Option.some.inj h5
            refine ⟨?_, hj⟩
            rw [this]; exact ht
          | cons v c =>
            have : v = t := Option.some.inj h5
            refine ⟨?_, hj⟩
            rw [this]; exact ht
        · rw [List.filter_cons_of_pos (by simpa using hu), List.filter_append, h2]
          have : (c.filter fun v => v < g0.next) = [] := by
            rw [List.filter_eq_nil_iff]
            intro v hv
            have := h3 v hv
            simp
            omega
          rw [this]
          rfl
    intro p0 hp0 hpath
    cases p0 with
    | nil => cases hp0
    | cons u p0 =>
      have hu : u = entry := Option.some.inj hp0
      obtain ⟨p, h1, h2⟩ := key p0 u (by rw [hu]; exact h.fn.entry) hpath
      exact ⟨u :: p, hp0, h1, h2⟩

/-- **C165.** Each target of a terminator, in particular each branch of a condition and each case of a switch, leads to the same
block as in the original function. -/
theorem same_targets {g0 : Graph} {entry : Nat} {ts : List LTree} (h : Input g0 entry ts) (u : Nat) (hu : u < g0.next) :
    List.Forall₂ (Leads (regLoops ts g0) g0.next) ((regLoops ts g0).succ u) (g0.succ u) := by
  obtain ⟨dst, hC⟩ := regLoops_flow h
  obtain ⟨rk, _, hr⟩ := hC.rank
  have key : ∀ (n : Nat) (t : Nat), rk t = n → t < (regLoops ts g0).next → Leads (regLoops ts g0) g0.next t (dst t) := by
    intro n
    induction n using Nat.strongRecOn with
    | ind n ih =>
      intro t hn ht
      by_cases h0 : t < g0.next
      · rw [hC.dstId t h0]
        exact .here h0
      · obtain ⟨w, hw, hd⟩ := hC.semNew t (by omega) ht
        have hwm : w ∈ (regLoops ts g0).succ t := by rw [hw]; simp
        have := ih (rk w) (hn ▸ hr t (by omega) w hwm) w rfl (hC.closed t w hwm)
        rw [hd] at this
        exact .step (by omega) hw this
  rw [← hC.sem u hu]
  have hall := fun t (ht : t ∈ (regLoops ts g0).succ u) => key (rk t) t rfl (hC.closed u t ht)
  generalize (regLoops ts g0).succ u = l at hall
  induction l with
  | nil => exact List.Forall₂.nil
  | cons t l ih =>
    exact List.Forall₂.cons (hall t (List.mem_cons_self ..)) (ih fun v hv => hall v (List.mem_cons_of_mem _ hv))

/-- **C166.** Events of loops are consistent in each execution of an instrumented function. A dynamic analyzer accepts a trace
of any path, when an original block is entered its stack contains exactly loops which contain this block (the innermost loop is on
the top), each execution of a header is a single iteration of its loop, the stack is empty when a function returns. The missing
part: there must be at most one edge from a block of a loop to each block outside of it, see `double_exit_fails`. -/
theorem events_exact_partial {g0 : Graph} {entry : Nat} {ts : List LTree} (h : Input g0 entry ts)
    (hS : ∀ L ∈ flatAll ts, Simple g0 L) (p : List Nat) (hp : p.head? = some entry) (hpath : Path (regLoops ts g0) p) :
    (∃ s, exec (trace (regLoops ts g0) p) [] = some s) ∧
    (∀ q u r, p = q ++ u :: r → u < g0.next → exec (trace (regLoops ts g0) q) [] = some (aroundAll u ts)) ∧
    (∀ l, (trace (regLoops ts g0) p).count (.iter l) = if l ∈ (flatAll ts).map Lp.header then p.count l else 0) ∧
    (∀ q u, p = q ++ [u] → (regLoops ts g0).succ u = [] → exec (trace (regLoops ts g0) p) [] = some []) := by
  have hmemv : ∀ {L}, L ∈ visitAll ts → L ∈ flatAll ts := (mem_visitAll ts).1
  have hhead : ∀ l, l ∈ (flatAll ts).map Lp.header ↔ l ∈ (visitAll ts).map Lp.header := by
    intro l
    simp only [List.mem_map, mem_visitAll ts]
  obtain ⟨pre, dst, hC, horig, hg⟩ := regLoops_stage h hS
  have hnest : nest (visitAll ts) entry = [] := by
    unfold nest
    have : ((visitAll ts).filter fun M => entry ∈ M.blocks) = [] := by
      rw [List.filter_eq_nil_iff]
      intro M hM
      simpa using h.outside M (hmemv hM)
    rw [this]
    rfl
  have hentry : pre entry = [] := by rw [horig entry h.fn.entry, hnest]
  have hpref : ∀ q u r, p = q ++ u :: r → exec (trace (regLoops ts g0) q) [] = some (pre u) := by
    intro q u r hq
    have := exec_path hg q u r (hq ▸ hpath)
    rw [← hq] at this
    have hh : p.headD 0 = entry := by
      cases p with
      | nil => cases hp
      | cons v p => exact Option.some.inj hp
    rwa [hh, hentry] at this
  have hlast : ∀ q u, p = q ++ [u] → exec (trace (regLoops ts g0) p) [] = exec ((regLoops ts g0).events u) (pre u) := by
    intro q u hq
    have h1 := hpref q u [] hq
    rw [hq]
    unfold trace at h1 ⊢
    rw [List.flatMap_append, exec_append, h1]
    simp
  have hret : ∀ q u, p = q ++ [u] → (regLoops ts g0).succ u = [] → exec (trace (regLoops ts g0) p) [] = some [] := by
    intro q u hq hu
    rw [hlast q u hq, hC.ret u hu]
    show some (pre u) = _
    by_cases hlt : u < g0.next
    · have : nest (visitAll ts) u = [] := by
        unfold nest
        have : ((visitAll ts).filter fun M => u ∈ M.blocks) = [] := by
          rw [List.filter_eq_nil_iff]
          intro M hM
          simp only [decide_eq_true_eq]
          intro hh
          obtain ⟨t, ht, _⟩ := (h.natural M (hmemv hM)).inside u hh
          rw [← hC.sem u hlt, hu] at ht
          cases ht
        rw [this]
        rfl
      rw [horig u hlt, this]
    · exfalso
      have hun : u < (regLoops ts g0).next := by
        rcases List.eq_nil_or_concat q with hq' | ⟨q', v, hq'⟩
        · subst hq'
          rw [hq] at hp
          have : u = entry := Option.some.inj hp
          have := h.fn.entry
          omega
        · rw [hq, hq', List.concat_eq_append, List.append_assoc] at hpath
          exact hC.closed v u (Path.split hpath).2.1
      obtain ⟨t, ht, _⟩ := hC.semNew u (by omega) hun
      rw [hu] at ht
      cases ht
  refine ⟨?_, ?_, ?_, hret⟩
  · rcases List.eq_nil_or_concat p with hq | ⟨q, u, hq⟩
    · rw [hq] at hp
      cases hp
    · rw [List.concat_eq_append] at hq
      cases hs : (regLoops ts g0).succ u with
      | nil => exact ⟨_, hret q u hq hs⟩
      | cons t l => exact ⟨pre t, by rw [hlast q u hq]; exact hg u t (by rw [hs]; simp)⟩
  · intro q u r hq hu
    rw [hpref q u r hq, horig u hu, nest_visitAll u ts h.tree]
  · intro l
    simp only [hhead]
    clear hp hpath hpref hlast hret
    unfold trace
    induction p with
    | nil => simp
    | cons u p ih =>
      rw [List.flatMap_cons, List.count_append, ih, hC.it]
      by_cases h1 : l ∈ (visitAll ts).map Lp.header
      · rw [if_pos h1, if_pos h1]
        by_cases h2 : u = l
        · subst h2
          rw [if_pos ⟨rfl, h1⟩, List.count_cons_self]
          omega
        · rw [if_neg (fun hh => h2 hh.1), List.count_cons_of_ne h2]
          omega
      · rw [if_neg h1, if_neg h1, if_neg (fun hh => h1 hh.2)]

/-! ### Examples -/

/-- A function from a list of targets. -/
def ofList (l : List (List Nat)) : Graph := { succ := fun u => l.getD u [], events := fun _ => [], next := l.length }

theorem ofList_fn {l : List (List Nat)} {entry : Nat} (h : ∀ x ∈ l, ∀ t ∈ x, t < l.length) (he : entry < l.length) :
    Fn (ofList l) entry := by
  refine ⟨?_, ?_, fun _ => rfl, he⟩
  · intro u t ht
    change t ∈ l.getD u [] at ht
    by_cases hu : u < l.length
    · rw [List.getD_eq_getElem?_getD, List.getElem?_eq_getElem hu] at ht
      exact h _ (List.getElem_mem hu) t ht
    · rw [List.getD_eq_getElem?_getD, List.getElem?_eq_none (by omega)] at ht
      cases ht
  · intro u hu
    show l.getD u [] = []
    rw [List.getD_eq_getElem?_getD, List.getElem?_eq_none hu]
    rfl

theorem ofList_natural {l : List (List Nat)} {L : Lp} (h1 : L.header ∈ L.blocks) (h2 : L.blocks.Nodup)
    (h3 : ∀ u ∈ L.blocks, u < l.length) (h4 : ∀ u ∈ L.blocks, ∃ t ∈ l.getD u [], t ∈ L.blocks)
    (h5 : ∀ u < l.length, u ∉ L.blocks → ∀ t ∈ l.getD u [], t ∈ L.blocks → t = L.header) : Natural (ofList l) L := by
  refine ⟨h1, h2, h3, h4, ?_⟩
  intro u t hu ht htL
  by_cases hlt : u < l.length
  · exact h5 u hlt hu t ht htL
  · change t ∈ l.getD u [] at ht
    rw [List.getD_eq_getElem?_getD, List.getElem?_eq_none (by omega)] at ht
    cases ht

/-- Two nested loops without preheaders. `return` in the inner loop (3 to 6), `break` to a latch of the outer loop (2 to 4), the
outer loop is entered in two ways and it is followed by one more loop. -/
def g1 : Graph := ofList [[1, 7], [2, 5], [3, 4], [2, 6], [1], [8], [], [1], [8, 6]]

def ts1 : List LTree := [.node ⟨1, [1, 2, 3, 4]⟩ [.node ⟨2, [2, 3]⟩ []], .node ⟨8, [8]⟩ []]

theorem input1 : Input g1 0 ts1 ∧ ∀ L ∈ flatAll ts1, Simple g1 L := by
  have hv : flatAll ts1 = [⟨1, [1, 2, 3, 4]⟩, ⟨2, [2, 3]⟩, ⟨8, [8]⟩] := by
    simp [ts1, flatAll, flat]
  refine ⟨⟨ofList_fn (by decide) (by decide), ?_, ?_, ?_⟩, ?_⟩
  · simp [ts1, WfAll, Wf, flatAll, flat]
  · rw [hv]
    intro L hL
    simp only [List.mem_cons, List.not_mem_nil, or_false] at hL
    rcases hL with rfl | rfl | rfl <;> exact ofList_natural (by decide) (by decide) (by decide) (by decide) (by decide)
  · rw [hv]
    decide
  · rw [hv]
    intro L hL
    simp only [List.mem_cons, List.not_mem_nil, or_false] at hL
    rcases hL with rfl | rfl | rfl
    all_goals
      intro u hu t _
      have hu' : u = 1 ∨ u = 2 ∨ u = 3 ∨ u = 4 ∨ u = 8 := by
        simp only [List.mem_cons, List.not_mem_nil, or_false] at hu
        omega
      refine List.nodup_iff_count_le_one.1 ?_ t
      rcases hu' with rfl | rfl | rfl | rfl | rfl <;> decide

/-- Hypotheses are satisfied, events of a `return` from the inner loop. -/
example : Path (regLoops ts1 g1) [0, 10, 1, 13, 2, 3, 15, 12, 6] ∧
    trace (regLoops ts1 g1) [0, 10, 1, 13, 2, 3, 15, 12, 6] =
      [.enter 1, .iter 1, .enter 2, .iter 2, .leave 2, .leave 1] ∧
    exec (trace (regLoops ts1 g1) [0, 10, 1, 13, 2, 3, 15, 12, 6]) [] = some [] ∧
    [0, 10, 1, 13, 2, 3, 15, 12, 6].filter (fun v => v < g1.next) = [0, 1, 2, 3, 6] := by
  refine ⟨⟨by decide +kernel, by decide +kernel, by decide +kernel, by decide +kernel, by decide +kernel, by decide +kernel,
    by decide +kernel, by decide +kernel, trivial⟩, by decide +kernel, by decide +kernel, by decide +kernel⟩

/-- Theorems are applied: a path enters the second loop through an existing preheader. -/
example : exec (trace (regLoops ts1 g1) [0, 7, 10, 1, 11, 5]) [] = some [8] ∧
    exec (trace (regLoops ts1 g1) [0, 7, 10, 1, 11, 5]) [] = some (aroundAll 8 ts1) := by
  refine ⟨by decide +kernel, ?_⟩
  exact (events_exact_partial input1.1 input1.2 [0, 7, 10, 1, 11, 5, 8] rfl
    ⟨by decide +kernel, by decide +kernel, by decide +kernel, by decide +kernel, by decide +kernel, by decide +kernel, trivial⟩).2.1
    [0, 7, 10, 1, 11, 5] 8 [] rfl (by decide)

/-- A loop with two cases of `switch` which leave it in the same way: `for (;;) switch (x) { case 1: case 2: return; }`. -/
def g2 : Graph := ofList [[1], [1, 2, 2], []]

def ts2 : List LTree := [.node ⟨1, [1]⟩ []]

/-- **C166.** Disagreement: if there are two edges from a loop to the same block then the end of a loop is reported twice. -/
theorem double_exit_fails : ∃ (g0 : Graph) (entry : Nat) (ts : List LTree) (p : List Nat), Input g0 entry ts ∧
    p.head? = some entry ∧ Path (regLoops ts g0) p ∧ exec (trace (regLoops ts g0) p) [] = none ∧
    trace (regLoops ts g0) p = [.enter 1, .iter 1, .leave 1, .leave 1] := by
  refine ⟨g2, 0, ts2, [0, 1, 4, 3, 2], ⟨ofList_fn (by decide) (by decide), ?_, ?_, ?_⟩, rfl,
    ⟨by decide +kernel, by decide +kernel, by decide +kernel, by decide +kernel, trivial⟩, by decide +kernel, by decide +kernel⟩
  · simp [ts2, WfAll, Wf, flatAll, flat]
  · intro L hL
    simp only [ts2, flatAll, flat, List.append_nil, List.mem_singleton] at hL
    subst hL
    exact ofList_natural (by decide) (by decide) (by decide) (by decide) (by decide)
  · intro L hL
    simp only [ts2, flatAll, flat, List.append_nil, List.mem_singleton] at hL
    subst hL
    decide

end Tsar.Instrument
