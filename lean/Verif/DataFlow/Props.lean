import Verif.DataFlow.Spec
import Verif.Graph.BackEdge
import Mathlib.Order.Basic
import Mathlib.Order.WellFounded
import Mathlib.Data.Finset.Basic
import Mathlib.Data.Fintype.Basic
import Mathlib.Data.DFinsupp.WellFounded

/-! # Data-flow solvers: properties C15-C19 -/

namespace Tsar
namespace DataFlow

variable {N V : Type} [DecidableEq N]

set_option linter.unusedSectionVars false

@[simp] theorem set_self (s : N → V) (n : N) (v : V) : set s n v n = v := by simp [set]

theorem set_other (s : N → V) {n x : N} (v : V) (h : x ≠ n) : set s n v x = s x := by
  simp [set, h]

theorem set_same (s : N → V) (n : N) : set s n (s n) = s := by
  funext x; by_cases h : x = n <;> simp [set, h]

/-! ## One pass -/

theorem pass_other (F : Frame N V) (ns : List N) (s : N → V) (b : Bool) (x : N) (hx : x ∉ ns) :
    (F.pass ns s b).1 x = s x := by
  induction ns generalizing s b with
  | nil => rfl
  | cons n ns ih =>
    rw [Frame.pass, ih _ _ (fun h => hx (List.mem_cons_of_mem _ h))]
    exact set_other _ _ (fun h => hx (h ▸ List.mem_cons_self))

/-- If nothing is reported as changed by a pass then nothing is changed. -/
theorem pass_quiet (F : Frame N V)
    (hq : ∀ n v old, (F.transfer n v old).2 = false → (F.transfer n v old).1 = old)
    (ns : List N) (s : N → V) (b : Bool) (h : (F.pass ns s b).2 = false) :
    b = false ∧ (F.pass ns s b).1 = s ∧
      ∀ n ∈ ns, (F.transfer n (F.before s n) (s n)).2 = false := by
  induction ns generalizing s b with
  | nil => exact ⟨h, rfl, by simp⟩
  | cons n ns ih =>
    rw [Frame.pass] at h ⊢
    obtain ⟨h1, h2, h3⟩ := ih _ _ h
    rw [Bool.or_eq_false_iff] at h1
    have hs : (F.step s n).1 = s := by
      have := hq n (F.before s n) (s n) h1.1
      show set s n _ = s
      rw [this, set_same]
    refine ⟨h1.2, by rw [h2, hs], fun m hm => ?_⟩
    rcases List.mem_cons.1 hm with rfl | hm
    · exact h1.1
    · have := h3 m hm
      rwa [hs] at this

theorem loop_quiet (F : Frame N V)
    (hq : ∀ n v old, (F.transfer n v old).2 = false → (F.transfer n v old).1 = old)
    (fuel : Nat) (s s' : N → V) (h : F.loop fuel s = some s') :
    (∀ n ∈ F.nodes, (F.transfer n (F.before s' n) (s' n)).2 = false) ∧
    ∀ x, x ∉ F.nodes → s' x = s x := by
  induction fuel generalizing s with
  | zero => simp [Frame.loop] at h
  | succ fuel ih =>
    rw [Frame.loop] at h
    by_cases hc : (F.pass F.nodes s false).2 = true
    · simp only [hc, ↓reduceIte] at h
      obtain ⟨h1, h2⟩ := ih _ h
      exact ⟨h1, fun x hx => by rw [h2 x hx, pass_other _ _ _ _ _ hx]⟩
    · simp only [hc, Bool.false_eq_true, ↓reduceIte, Option.some.injEq] at h
      obtain ⟨-, h2, h3⟩ := pass_quiet F hq _ _ _ (by simpa using hc)
      rw [h2] at h
      subst h
      exact ⟨h3, fun _ _ => rfl⟩

theorem init_entry (F : Frame N V) (ns : List N) (s : N → V) :
    F.init ns s F.entry = F.boundary := by simp [Frame.init]

theorem init_node (F : Frame N V) (ns : List N) (s : N → V) (n : N) (hn : n ∈ ns)
    (he : n ≠ F.entry) : F.init ns s n = F.top := by
  rw [Frame.init, set_other _ _ he]
  have keep : ∀ (l : List N) (s : N → V), s n = F.top →
      (l.foldl (fun s n => set s n F.top) s) n = F.top := by
    intro l
    induction l with
    | nil => exact fun _ h => h
    | cons m l ih =>
      intro s h
      refine ih _ ?_
      show set s m F.top n = _
      by_cases hm : n = m
      · subst hm; simp
      · rw [set_other _ _ hm, h]
  induction ns generalizing s with
  | nil => simp at hn
  | cons m ns ih =>
    rw [List.foldl_cons]
    by_cases hm : n = m
    · subst hm; exact keep _ _ (by simp)
    · exact ih _ ((List.mem_cons.1 hn).resolve_left hm)

/-! ## C15: a finished iterative solver returns a solution -/

/-- C15. If transfer functions follow the documented contract, the result of the iterative solver
satisfies all data-flow equations and the boundary condition. -/
theorem iterative_solution (F : Frame N V) (f : N → V → V) (hf : Computes F f)
    (he : F.entry ∉ F.nodes) (fuel : Nat) (s0 s : N → V)
    (h : F.solveIteratively fuel s0 = some s) : Solution F f F.nodes s := by
  have hq : ∀ n v old, (F.transfer n v old).2 = false → (F.transfer n v old).1 = old := by
    intro n v old h
    rw [(hf n v old).1]; exact (hf n v old).2.1 h
  obtain ⟨h1, h2⟩ := loop_quiet F hq _ _ _ h
  refine ⟨by rw [h2 _ he, init_entry], fun n hn => ?_⟩
  have := h1 n hn
  rw [(hf _ _ _).2] at this
  exact this.symm

/-- C15. If a value is compared by an operation `same` and is stored only if the comparison says that
it is changed, then equations hold up to this operation. -/
theorem iterative_solution_same (F : Frame N V) (f : N → V → V) (same : V → V → Bool)
    (hf : ∀ n v old, F.transfer n v old = if same (f n v) old then (old, false) else (f n v, true))
    (he : F.entry ∉ F.nodes) (fuel : Nat) (s0 s : N → V)
    (h : F.solveIteratively fuel s0 = some s) :
    s F.entry = F.boundary ∧ ∀ n ∈ F.nodes, same (f n (F.before s n)) (s n) = true := by
  have hq : ∀ n v old, (F.transfer n v old).2 = false → (F.transfer n v old).1 = old := by
    intro n v old h
    rw [hf] at h ⊢
    split at h
    · simp_all
    · simp at h
  obtain ⟨h1, h2⟩ := loop_quiet F hq _ _ _ h
  refine ⟨by rw [h2 _ he, init_entry], fun n hn => ?_⟩
  have := h1 n hn
  rw [hf] at this
  split at this
  · assumption
  · simp at this

/-! ## C16: a solution is correct for every path -/

theorem foldl_meet_le [Preorder V] (F : Frame N V) (hl : ∀ x acc, F.meet x acc ≤ x)
    (hr : ∀ x acc, F.meet x acc ≤ acc) (s : N → V) (l : List N) (acc : V) :
    l.foldl (fun acc c => F.meet (s c) acc) acc ≤ acc ∧
    ∀ c ∈ l, l.foldl (fun acc c => F.meet (s c) acc) acc ≤ s c := by
  induction l generalizing acc with
  | nil => simp
  | cons m l ih =>
    obtain ⟨h1, h2⟩ := ih (F.meet (s m) acc)
    refine ⟨le_trans h1 (hr _ _), fun c hc => ?_⟩
    rcases List.mem_cons.1 hc with rfl | hc
    · exact le_trans h1 (hl _ _)
    · exact h2 c hc

/-- C16. The value of a node is below the value obtained along every path from the entry. -/
theorem solution_paths [Preorder V] (F : Frame N V) (f : N → V → V)
    (hl : ∀ x acc, F.meet x acc ≤ x) (hr : ∀ x acc, F.meet x acc ≤ acc)
    (hm : ∀ n v w, v ≤ w → f n v ≤ f n w) (s : N → V) (hs : Solution F f F.nodes s)
    (n : N) (v : V) (h : PathValue F f n v) : s n ≤ v := by
  induction h with
  | entry => rw [hs.entry]
  | step _ hmn hn ih =>
    rw [hs.node _ hn]
    exact hm _ _ _ (le_trans ((foldl_meet_le F hl hr s _ _).2 _ hmn) ih)

/-! ## C17: termination -/

section Termination

variable [PartialOrder V]

theorem foldl_meet_mono (F : Frame N V) (f : N → V → V) (hF : Monotone F f) (s t : N → V)
    (l : List N) (acc acc' : V) (ha : acc ≤ acc') (h : ∀ c ∈ l, s c ≤ t c) :
    l.foldl (fun acc c => F.meet (s c) acc) acc ≤ l.foldl (fun acc c => F.meet (t c) acc) acc' := by
  induction l generalizing acc acc' with
  | nil => exact ha
  | cons m l ih =>
    exact ih _ _ (hF.meet_glb _ _ _ (le_trans (hF.meet_left _ _) (h m List.mem_cons_self))
      (le_trans (hF.meet_right _ _) ha)) fun c hc => h c (List.mem_cons_of_mem _ hc)

/-- Values only decrease: a new value of each node is below the stored one. -/
def Decreasing (F : Frame N V) (f : N → V → V) (s : N → V) : Prop :=
  ∀ n ∈ F.nodes, f n (F.before s n) ≤ s n

theorem step_decreasing (F : Frame N V) (f : N → V → V) (hF : Monotone F f) (hf : Computes F f)
    (s : N → V) (hs : Decreasing F f s) (n : N) (hn : n ∈ F.nodes) :
    Decreasing F f (F.step s n).1 ∧ (∀ x, (F.step s n).1 x ≤ s x) ∧
    ((F.step s n).2 = true → (F.step s n).1 n < s n) := by
  have hval : (F.step s n).1 n = f n (F.before s n) := by
    show set s n _ n = _
    rw [set_self, (hf _ _ _).1]
  have hle : ∀ x, (F.step s n).1 x ≤ s x := by
    intro x
    by_cases hx : x = n
    · subst hx; rw [hval]; exact hs x hn
    · exact le_of_eq (set_other _ _ hx)
  have hmono : ∀ m, F.before (F.step s n).1 m ≤ F.before s m := fun m =>
    foldl_meet_mono F f hF _ _ _ _ _ le_rfl fun c _ => hle c
  refine ⟨fun m hm => ?_, hle, fun hc => ?_⟩
  · by_cases hmn : m = n
    · subst hmn; rw [hval]; exact hF.mono _ _ _ (hmono _)
    · have : (F.step s n).1 m = s m := set_other _ _ hmn
      rw [this]
      exact le_trans (hF.mono _ _ _ (hmono _)) (hs m hm)
  · refine lt_of_le_of_ne (hle n) fun heq => ?_
    have : (F.transfer n (F.before s n) (s n)).2 = false :=
      (hf _ _ _).2.2 (by rw [← hval, heq])
    simp [Frame.step, this] at hc

theorem pass_decreasing (F : Frame N V) (f : N → V → V) (hF : Monotone F f) (hf : Computes F f)
    (ns : List N) (hns : ∀ n ∈ ns, n ∈ F.nodes) (s : N → V) (b : Bool) (hs : Decreasing F f s) :
    Decreasing F f (F.pass ns s b).1 ∧ (∀ x, (F.pass ns s b).1 x ≤ s x) ∧
    ((F.pass ns s b).2 = true → b = true ∨ ∃ x ∈ F.nodes, (F.pass ns s b).1 x < s x) := by
  induction ns generalizing s b with
  | nil => exact ⟨hs, fun _ => le_rfl, fun h => .inl h⟩
  | cons n ns ih =>
    rw [Frame.pass]
    have hn := hns n List.mem_cons_self
    obtain ⟨a1, a2, a3⟩ := step_decreasing F f hF hf s hs n hn
    obtain ⟨b1, b2, b3⟩ := ih (fun m hm => hns m (List.mem_cons_of_mem _ hm)) _
      ((F.step s n).2 || b) a1
    refine ⟨b1, fun x => le_trans (b2 x) (a2 x), fun hc => ?_⟩
    rcases b3 hc with h | ⟨x, hx, h⟩
    · rcases Bool.or_eq_true_iff.1 h with h | h
      · exact .inr ⟨n, hn, lt_of_le_of_lt (b2 n) (a3 h)⟩
      · exact .inl h
    · exact .inr ⟨x, hx, lt_of_lt_of_le h (a2 x)⟩

theorem loop_terminates [WellFoundedLT V] (F : Frame N V) (f : N → V → V) (hF : Monotone F f)
    (hf : Computes F f) (s : N → V) (hs : Decreasing F f s) : ∃ fuel, F.loop fuel s ≠ none := by
  let proj : (N → V) → ({n // n ∈ F.nodes} → V) := fun s n => s n.1
  have hfin : Finite {n // n ∈ F.nodes} := by
    have : {n | n ∈ F.nodes}.Finite := F.nodes.finite_toSet
    exact this.to_subtype
  have wf : WellFounded fun s t : N → V => proj s < proj t :=
    InvImage.wf proj (wellFounded_lt (α := {n // n ∈ F.nodes} → V))
  induction s using wf.induction with
  | _ s ih =>
    by_cases hc : (F.pass F.nodes s false).2 = true
    · obtain ⟨a1, a2, a3⟩ := pass_decreasing F f hF hf F.nodes (fun _ => id) s false hs
      have hlt : proj (F.pass F.nodes s false).1 < proj s := by
        rw [Pi.lt_def]
        refine ⟨fun n => a2 n.1, ?_⟩
        rcases a3 hc with h | ⟨x, hx, h⟩
        · simp at h
        · exact ⟨⟨x, hx⟩, h⟩
      obtain ⟨fuel, hfuel⟩ := ih _ hlt a1
      exact ⟨fuel + 1, by rw [Frame.loop]; simp only [hc, ↓reduceIte]; exact hfuel⟩
    · exact ⟨1, by rw [Frame.loop]; simp [hc]⟩

/-- C17. If transfer functions are monotone and follow the contract and there are no infinite
descending chains of values, the iterative solver terminates on every graph. -/
theorem iterative_terminates [WellFoundedLT V] (F : Frame N V) (f : N → V → V) (hF : Monotone F f)
    (hf : Computes F f) (he : F.entry ∉ F.nodes) (s0 : N → V) :
    ∃ fuel s, F.solveIteratively fuel s0 = some s := by
  obtain ⟨fuel, h⟩ := loop_terminates F f hF hf (F.init F.nodes s0) (by
    intro n hn
    rw [init_node F _ _ n hn (fun h => he (h ▸ hn))]
    exact hF.top _)
  obtain ⟨s, hs⟩ := Option.ne_none_iff_exists'.1 h
  exact ⟨fuel, s, hs⟩

/-- C15. The result of the iterative solver is the greatest (the most precise) solution. -/
theorem iterative_greatest (F : Frame N V) (f : N → V → V) (hF : Monotone F f)
    (hf : Computes F f) (he : F.entry ∉ F.nodes)
    (hsrc : ∀ n ∈ F.nodes, ∀ m ∈ F.sources n, m = F.entry ∨ m ∈ F.nodes) (fuel : Nat)
    (s0 s t : N → V) (h : F.solveIteratively fuel s0 = some s) (ht : Solution F f F.nodes t)
    (n : N) (hn : n ∈ F.nodes) : t n ≤ s n := by
  -- values of another solution bound all intermediate values
  let Bound (s : N → V) := ∀ x, x = F.entry ∨ x ∈ F.nodes → t x ≤ s x
  have bstep : ∀ s n, n ∈ F.nodes → Bound s → Bound (F.step s n).1 := by
    intro s n hn hb x hx
    by_cases hxn : x = n
    · subst hxn
      show t x ≤ set s x _ x
      rw [set_self, (hf _ _ _).1, ht.node x hn]
      exact hF.mono _ _ _ (foldl_meet_mono F f hF _ _ _ _ _ le_rfl fun c hc => hb c (hsrc x hn c hc))
    · rw [show (F.step s n).1 x = s x from set_other _ _ hxn]; exact hb x hx
  have bpass : ∀ (ns : List N) s b, (∀ n ∈ ns, n ∈ F.nodes) → Bound s →
      Bound (F.pass ns s b).1 := by
    intro ns
    induction ns with
    | nil => exact fun _ _ _ h => h
    | cons m ns ih =>
      intro s b hns hb
      exact ih _ _ (fun m hm => hns m (List.mem_cons_of_mem _ hm))
        (bstep s m (hns m List.mem_cons_self) hb)
  have bloop : ∀ fuel s0 s, F.loop fuel s0 = some s → Bound s0 → Bound s := by
    intro fuel
    induction fuel with
    | zero => intro s0 s h; simp [Frame.loop] at h
    | succ fuel ih =>
      intro s0 s h hb
      have hp := bpass F.nodes s0 false (fun _ => id) hb
      rw [Frame.loop] at h
      by_cases hc : (F.pass F.nodes s0 false).2 = true
      · simp only [hc, ↓reduceIte] at h; exact ih _ _ h hp
      · simp only [hc, Bool.false_eq_true, ↓reduceIte, Option.some.injEq] at h; subst h; exact hp
  refine bloop _ _ _ h ?_ n (.inr hn)
  rintro x (rfl | hx)
  · rw [init_entry, ht.entry]
  · rw [init_node F _ _ x hx (fun h => he (h ▸ hx))]; exact hF.top _

end Termination

/-! ## C18: one pass in topological order -/

theorem before_congr (F : Frame N V) (s t : N → V) (n : N) (h : ∀ c ∈ F.sources n, s c = t c) :
    F.before s n = F.before t n := by
  unfold Frame.before
  have : ∀ (l : List N) acc, (∀ c ∈ l, s c = t c) →
      l.foldl (fun acc c => F.meet (s c) acc) acc = l.foldl (fun acc c => F.meet (t c) acc) acc := by
    intro l
    induction l with
    | nil => intros; rfl
    | cons m l ih =>
      intro acc h
      rw [List.foldl_cons, List.foldl_cons, h m List.mem_cons_self]
      exact ih _ fun c hc => h c (List.mem_cons_of_mem _ hc)
  exact this _ _ h

/-- A pass over distinct nodes such that sources of each node precede it. -/
theorem pass_ordered (F : Frame N V) (f : N → V → V) (ns : List N)
    (hnd : ns.Nodup) (s : N → V) (b : Bool) (hf : ∀ n ∈ ns, ∀ v, (F.transfer n v (s n)).1 = f n v)
    (ho : ∀ l1 x l2, ns = l1 ++ x :: l2 → ∀ y ∈ F.sources x, y ∉ x :: l2) :
    ∀ n ∈ ns, (F.pass ns s b).1 n = f n (F.before (F.pass ns s b).1 n) := by
  induction ns generalizing s b with
  | nil => simp
  | cons m ns ih =>
    have hnd' := List.nodup_cons.1 hnd
    intro n hn
    rw [Frame.pass]
    rcases List.mem_cons.1 hn with rfl | hn
    · rw [pass_other _ _ _ _ _ hnd'.1]
      show set s n _ n = _
      rw [set_self, hf n List.mem_cons_self]
      congr 1
      refine before_congr F _ _ _ fun c hc => ?_
      have := ho [] n ns rfl c hc
      simp only [List.mem_cons, not_or] at this
      rw [pass_other _ _ _ _ _ this.2]
      exact (set_other _ _ this.1).symm
    · refine ih hnd'.2 _ _ (fun k hk v => ?_)
        (fun l1 x l2 h y hy => ho (m :: l1) x l2 (by rw [h]; rfl) y hy) n hn
      rw [show (F.step s m).1 k = s k from set_other _ _ fun e => hnd'.1 (e ▸ hk)]
      exact hf k (List.mem_cons_of_mem _ hk) v

/-- C18. On a finite graph without cycles (from the entry in the direction of the data-flow) one pass
visits every node reachable from the entry except the entry itself. The value of each of these nodes
is the result of its transfer function applied to the meet over its sources; the previous value of
the node is the top element. There are no assumptions about the transfer function. -/
theorem topological_equations (F : Frame N V)
    (hi : Inverse F) (all : List N) (hw : Graph.Within F.targets F.entry all)
    (hac : ¬ Graph.HasCycle F.targets F.entry) (s0 : N → V) :
    ∃ (ns : List N) (s : N → V), F.solveTopologicaly all.length s0 = some s ∧
      (∀ n, n ∈ ns ↔ n ≠ F.entry ∧ Graph.Reach F.targets F.entry n) ∧ s F.entry = F.boundary ∧
      ∀ n ∈ ns, s n = (F.transfer n (F.before s n) F.top).1 := by
  obtain ⟨l, h1, h2, h3, h4⟩ := Graph.postOrder_spec F.targets F.entry all hw _ (Nat.le_refl _)
  have hord : F.order all.length = some l.reverse := by
    simp [Frame.order, h1]
  have hnl : F.entry ∉ l := fun h => by
    have := List.nodup_append.1 h2
    exact this.2.2 _ h _ (by simp) rfl
  have hmem : ∀ n, n ∈ l.reverse ↔ n ≠ F.entry ∧ Graph.Reach F.targets F.entry n := by
    intro n
    rw [List.mem_reverse, ← h3]
    simp only [List.mem_append, List.mem_singleton]
    constructor
    · exact fun h => ⟨fun e => hnl (e ▸ h), .inl h⟩
    · rintro ⟨h, h' | h'⟩
      · exact h'
      · exact absurd h' h
  have hndr : l.reverse.Nodup := by
    rw [List.nodup_reverse]; exact (List.nodup_append.1 h2).1
  refine ⟨l.reverse, _, by simp only [Frame.solveTopologicaly, hord, Option.map_some]; rfl, hmem,
    ?_, ?_⟩
  · rw [pass_other _ _ _ _ _ (by simpa using hnl), init_entry]
  · refine pass_ordered F (fun n v => (F.transfer n v F.top).1) _ hndr _ _
      (fun n hn v => by rw [init_node F _ _ n hn (fun h => ((hmem n).1 hn).1 h)])
      fun l1 x l2 hl y hy hyl => ?_
    -- `x` is a child of `y` in the inverse graph, so `x` precedes `y` in the post-order
    have hl' : l = l2.reverse ++ x :: l1.reverse := by
      rw [← List.reverse_reverse l, hl]; simp
    have hxy : x ∈ F.targets y := (hi y x).2 hy
    have hyl' : y ∈ l2.reverse ++ [x] := by
      rcases List.mem_cons.1 hyl with rfl | h
      · simp
      · simp [h]
    obtain ⟨p, q, hpq⟩ := List.append_of_mem hyl'
    -- the position of `y`
    have hpos : l ++ [F.entry] = p ++ y :: (q ++ l1.reverse ++ [F.entry]) := by
      rw [hl']
      have : l2.reverse ++ x :: l1.reverse = (l2.reverse ++ [x]) ++ l1.reverse := by simp
      rw [this, hpq]; simp
    have hx := h4 hac p y _ hpos x hxy
    -- `x` occurs in `p`, hence twice or it is the last element of `p ++ y :: q`
    have hnd : (l2.reverse ++ [x]).Nodup := by
      have := (List.nodup_append.1 h2).1
      rw [hl', show l2.reverse ++ x :: l1.reverse = (l2.reverse ++ [x]) ++ l1.reverse by simp] at this
      exact (List.nodup_append.1 this).1
    rw [hpq] at hnd
    have hlast : x ∈ y :: q := by
      have : (y :: q).getLast? = some x := by
        have h := congrArg List.getLast? hpq
        simp only [List.getLast?_append, List.getLast?_singleton, Option.some_or] at h
        cases hq : (y :: q).getLast? with
        | none => simp at hq
        | some z => rw [hq] at h; simpa using h.symm
      exact List.mem_of_getLast? this
    exact (List.nodup_append.1 hnd).2.2 x hx x hlast rfl

/-- C18. On a finite graph without cycles one pass returns a solution of the data-flow equations. -/
theorem topological_solution (F : Frame N V) (f : N → V → V) (hf : Computes F f)
    (hi : Inverse F) (all : List N) (hw : Graph.Within F.targets F.entry all)
    (hac : ¬ Graph.HasCycle F.targets F.entry) (s0 : N → V) :
    ∃ ns s, F.solveTopologicaly all.length s0 = some s ∧
      (∀ n, n ∈ ns ↔ n ≠ F.entry ∧ Graph.Reach F.targets F.entry n) ∧ Solution F f ns s := by
  obtain ⟨ns, s, h1, h2, h3, h4⟩ := topological_equations F hi all hw hac s0
  exact ⟨ns, s, h1, h2, h3, fun n hn => by rw [h4 n hn, (hf _ _ _).1]; rfl⟩

/-- Induction along edges of a finite acyclic graph. -/
theorem acyclic_induction (F : Frame N V) (hi : Inverse F) (all : List N)
    (hw : Graph.Within F.targets F.entry all) (hac : ¬ Graph.HasCycle F.targets F.entry)
    (hreach : ∀ n m, Graph.Reach F.targets F.entry n → m ∈ F.sources n →
      Graph.Reach F.targets F.entry m)
    (Q : N → Prop) (he : Q F.entry)
    (hstep : ∀ n, n ≠ F.entry → Graph.Reach F.targets F.entry n → (∀ c ∈ F.sources n, Q c) → Q n) :
    ∀ n, Graph.Reach F.targets F.entry n → Q n := by
  obtain ⟨l, -, h2, h3, h4⟩ := Graph.postOrder_spec F.targets F.entry all hw _ (Nat.le_refl _)
  have h4 := h4 hac
  have key : ∀ (suf pre : List N), l ++ [F.entry] = pre ++ suf → ∀ n ∈ suf, Q n := by
    intro suf
    induction suf with
    | nil => simp
    | cons x suf ih =>
      intro pre hl n hn
      have ih' := ih (pre ++ [x]) (by rw [hl]; simp)
      rcases List.mem_cons.1 hn with rfl | hn
      · by_cases hne : n = F.entry
        · subst hne; exact he
        · have hr : Graph.Reach F.targets F.entry n := (h3 n).1 (by rw [hl]; simp)
          refine hstep n hne hr fun c hc => ih' c ?_
          have hcr := (h3 c).2 (hreach n c hr hc)
          rw [hl] at hcr
          rcases List.mem_append.1 hcr with hc' | hc'
          · obtain ⟨p, q, rfl⟩ := List.append_of_mem hc'
            have := h4 p c (q ++ n :: suf) (by rw [hl]; simp) n ((hi c n).2 hc)
            exfalso
            rw [hl] at h2
            have := (List.nodup_append.1 h2).2.2 n (List.mem_append_left _ this) n
              List.mem_cons_self
            exact this rfl
          · rcases List.mem_cons.1 hc' with rfl | hc'
            · exact absurd ⟨c, hr, .single ((hi c c).2 hc)⟩ hac
            · exact hc'
      · exact ih' n hn
  intro n hn
  exact key _ [] rfl n ((h3 n).2 hn)

/-- C18. On an acyclic graph the solution is unique, hence one pass computes the same values as the
iterative solver. -/
theorem acyclic_unique (F : Frame N V) (f : N → V → V) (hi : Inverse F) (all : List N)
    (hw : Graph.Within F.targets F.entry all) (hac : ¬ Graph.HasCycle F.targets F.entry)
    (hreach : ∀ n m, Graph.Reach F.targets F.entry n → m ∈ F.sources n →
      Graph.Reach F.targets F.entry m)
    (ns : List N) (hns : ∀ n, n ∈ ns ↔ n ≠ F.entry ∧ Graph.Reach F.targets F.entry n)
    (s t : N → V) (hs : Solution F f ns s) (ht : Solution F f ns t) :
    ∀ n, Graph.Reach F.targets F.entry n → s n = t n := by
  refine acyclic_induction F hi all hw hac hreach _ (by rw [hs.entry, ht.entry]) ?_
  intro n hne hr ih
  have hnn := (hns n).2 ⟨hne, hr⟩
  rw [hs.node n hnn, ht.node n hnn]
  have := before_congr F s t n ih
  unfold Frame.before at this
  rw [this]

/-! ### Which solver is used -/

/-- C18. The hierarchy solvers always use one pass because `isDAG()` starts from the entry of a
region which data do not come to. -/
theorem solve_topological (F : Frame N V) (he : F.sources F.entry = []) (fuel : Nat) (s : N → V) :
    F.solve fuel s = F.solveTopologicaly fuel s := by
  simp [Frame.solve, Graph.isDAG_region F.sources F.entry he fuel]

/-- C18. On acyclic regions the hierarchy solvers return a solution. Regions with cycles (irreducible
control flow) are missing, see `solve_cyclic_fails`. -/
theorem solve_acyclic_partial (F : Frame N V) (f : N → V → V) (hf : Computes F f)
    (hi : Inverse F) (he : F.sources F.entry = []) (all : List N)
    (hw : Graph.Within F.targets F.entry all)
    (hac : ¬ Graph.HasCycle F.targets F.entry) (s0 : N → V) :
    ∃ ns s, F.solve all.length s0 = some s ∧
      (∀ n, n ∈ ns ↔ n ≠ F.entry ∧ Graph.Reach F.targets F.entry n) ∧ Solution F f ns s := by
  rw [solve_topological F he]
  exact topological_solution F f hf hi all hw hac s0

/-! ### Examples -/

/-- A must-problem with sets of variables given by membership of one variable: `0` is the entry, the
variable is written in `1` only. Edges are `0 → 1 → 2`, `0 → 3`, `3 ⇄ 2`. Node `2` may be reached
through `3`, i.e. without a write. -/
def irreducible : Frame Nat Bool where
  nodes := [1, 2, 3]
  entry := 0
  sources n := if n = 1 then [0] else if n = 2 then [1, 3] else if n = 3 then [0, 2] else []
  targets n := if n = 0 then [1, 3] else if n = 1 then [2] else if n = 2 then [3]
    else if n = 3 then [2] else []
  top := true
  boundary := false
  meet x acc := x && acc
  transfer n v old := ((v || n == 1), (v || n == 1) != old)

theorem irreducible_computes : Computes irreducible fun n v => (v || n == 1) := by
  intro n v old
  exact ⟨rfl, by simp [irreducible]⟩

/-- C18. The hierarchy solvers do not return a solution for a region with irreducible control flow:
a node which may be reached without writes is reported as reached by a write on all paths. -/
theorem solve_cyclic_fails :
    ¬ ∀ (F : Frame Nat Bool) (f : Nat → Bool → Bool) (fuel : Nat) (s0 s : Nat → Bool),
      Computes F f → F.entry ∉ F.nodes → F.sources F.entry = [] →
      F.solve fuel s0 = some s → ∀ n v, PathValue F f n v → s n = true → v = true := by
  intro h
  have hs : ∃ s, irreducible.solve 4 (fun _ => false) = some s ∧ s 2 = true := by
    rw [solve_topological _ (by simp [irreducible])]
    simp [Frame.solveTopologicaly, Frame.order, Graph.postOrder, Graph.postOrderFrom, irreducible,
      Frame.pass, Frame.step, Frame.before, Frame.init, set]
  obtain ⟨s, hs, h2⟩ := hs
  have p3 : PathValue irreducible (fun n v => (v || n == 1)) 3 false :=
    PathValue.step (F := irreducible) (f := fun n v => (v || n == 1)) (m := 0) (n := 3) .entry
      (by simp [irreducible]) (by simp [irreducible])
  have p2 : PathValue irreducible (fun n v => (v || n == 1)) 2 false :=
    PathValue.step (F := irreducible) (f := fun n v => (v || n == 1)) (m := 3) (n := 2) p3
      (by simp [irreducible]) (by simp [irreducible])
  have := h irreducible _ 4 (fun _ => false) s irreducible_computes (by simp [irreducible])
    (by simp [irreducible]) hs 2 false p2 h2
  simp at this

/-- The same problem is correctly solved by the iterative solver. -/
example : ∃ s, irreducible.solveIteratively 4 (fun _ => false) = some s ∧
    s 1 = true ∧ s 2 = false ∧ s 3 = false := by
  simp [Frame.solveIteratively, Frame.loop, irreducible, Frame.pass, Frame.step, Frame.before,
    Frame.init, set]

/-- Hypotheses of C15-C17 are satisfied by this problem. -/
example : Monotone irreducible (fun n v => (v || n == 1)) ∧
    Computes irreducible (fun n v => (v || n == 1)) ∧ irreducible.entry ∉ irreducible.nodes := by
  refine ⟨⟨?_, ?_, ?_, ?_, ?_⟩, irreducible_computes, by simp [irreducible]⟩
  · intro v; cases v <;> decide
  · intro x acc; cases x <;> cases acc <;> decide
  · intro x acc; cases x <;> cases acc <;> decide
  · intro x acc v; cases x <;> cases acc <;> cases v <;> decide
  · intro n v w; cases v <;> cases w <;> cases (n == 1) <;> decide

/-- An acyclic problem which meets hypotheses of C18: a diamond. -/
def diamond : Frame Nat Bool where
  nodes := [1, 2, 3]
  entry := 0
  sources n := if n = 1 ∨ n = 2 then [0] else if n = 3 then [1, 2] else []
  targets n := if n = 0 then [1, 2] else if n = 1 ∨ n = 2 then [3] else []
  top := true
  boundary := false
  meet x acc := x && acc
  transfer n v old := ((v || n == 1), (v || n == 1) != old)

theorem diamond_edge (a b : Nat) : b ∈ diamond.targets a → a < b ∧ b ≤ 3 := by
  simp only [diamond]
  split
  · simp; omega
  · split
    · simp; omega
    · simp

example : Inverse diamond ∧ diamond.sources diamond.entry = [] ∧
    Graph.Within diamond.targets diamond.entry [0, 1, 2, 3] ∧
    ¬ Graph.HasCycle diamond.targets diamond.entry ∧
    ∃ s, diamond.solve 4 (fun _ => false) = some s ∧ s 1 = true ∧ s 3 = false := by
  refine ⟨fun a b => ?_, by simp [diamond], fun n hn => ?_, ?_, ?_⟩
  · simp only [diamond]
    by_cases b12 : b = 1 ∨ b = 2
    · by_cases a0 : a = 0
      · simp [a0, b12]
      · by_cases a12 : a = 1 ∨ a = 2
        · rw [if_neg a0, if_pos a12, if_pos b12]; simp; omega
        · simp [a0, a12, b12]
    · by_cases b3 : b = 3
      · subst b3
        by_cases a0 : a = 0
        · simp [a0]
        · by_cases a12 : a = 1 ∨ a = 2 <;> simp [a0, a12]
      · by_cases a0 : a = 0
        · simp [a0, b12, b3]
        · by_cases a12 : a = 1 ∨ a = 2 <;> simp [a0, a12, b12, b3]
  · rcases Relation.ReflTransGen.cases_tail hn with h | ⟨z, -, e⟩
    · simp [h, diamond]
    · have := diamond_edge z n e
      simp only [List.mem_cons, List.not_mem_nil, or_false]
      omega
  · rintro ⟨n, -, hp⟩
    have : ∀ a b, Graph.Path diamond.targets a b → a < b := by
      intro a b h
      induction h with
      | single e => exact (diamond_edge _ _ e).1
      | tail _ e ih => exact Nat.lt_trans ih (diamond_edge _ _ e).1
    exact Nat.lt_irrefl _ (this n n hp)
  · rw [solve_topological _ (by simp [diamond])]
    simp [Frame.solveTopologicaly, Frame.order, Graph.postOrder, Graph.postOrderFrom, diamond,
      Frame.pass, Frame.step, Frame.before, Frame.init, set]

/-! ## C19: removal of adjacent nodes -/

theorem removeLoop_spec (node : N) (i : Nat) (l : List N) :
    removeLoop node i l = l.take 1 ++ ((l.take (i + 1)).drop 1).filter (· ≠ node) ++ l.drop (i + 1) := by
  induction i generalizing l with
  | zero =>
    simp only [removeLoop, Nat.zero_add]
    cases l <;> simp
  | succ i ih =>
    rw [removeLoop]
    cases l with
    | nil => simp [ih]
    | cons x l =>
      simp only [List.getElem?_cons_succ]
      have split : ∀ y, l[i]? = some y → l.take (i + 1) = l.take i ++ [y] ∧
          l.drop i = y :: l.drop (i + 1) := by
        intro y hy
        obtain ⟨hlt, rfl⟩ := List.getElem?_eq_some_iff.1 hy
        exact ⟨(List.take_append_getElem hlt).symm, List.drop_eq_getElem_cons hlt⟩
      by_cases h : l[i]? = some node
      · obtain ⟨h1, h2⟩ := split node h
        have hi : i < l.length := (List.getElem?_eq_some_iff.1 h).1
        rw [if_pos h, ih]
        simp only [List.eraseIdx_cons_succ, List.take_succ_cons, List.take_zero, List.drop_succ_cons,
          List.drop_zero, h1]
        have e1 : (l.eraseIdx i).take i = l.take i := by
          rw [List.eraseIdx_eq_take_drop_succ, List.take_append_of_le_length (by simp; omega),
            List.take_take, Nat.min_self]
        have e2 : (l.eraseIdx i).drop i = l.drop (i + 1) := by
          rw [List.eraseIdx_eq_take_drop_succ]
          have : (l.take i).length = i := by simp; omega
          rw [List.drop_append, this, Nat.sub_self, List.drop_eq_nil_of_le (by omega)]
          simp
        rw [e1, e2]
        simp
      · rw [if_neg h, ih]
        simp only [List.take_succ_cons, List.take_zero, List.drop_succ_cons, List.drop_zero]
        cases hy : l[i]? with
        | none =>
          have hlen : l.length ≤ i := List.getElem?_eq_none_iff.1 hy
          rw [List.take_of_length_le hlen, List.take_of_length_le (by omega),
            List.drop_eq_nil_of_le hlen, List.drop_eq_nil_of_le (by omega)]
        | some y =>
          obtain ⟨h1, h2⟩ := split y hy
          have : y ≠ node := by rintro rfl; exact h hy
          rw [h1, h2]
          simp [this]

/-- C19. Removal of an adjacent node removes all its occurrences (multiple edges) and keeps all other
nodes in their order. -/
theorem removeAdjacent_eq (node : N) (l : List N) :
    removeAdjacent node l = l.filter (· ≠ node) := by
  unfold removeAdjacent
  cases l with
  | nil => simp
  | cons x l =>
    simp only [List.isEmpty_cons, Bool.false_eq_true, ↓reduceIte, List.length_cons,
      Nat.add_sub_cancel]
    rw [removeLoop_spec]
    simp only [List.take_succ_cons, List.take_zero, List.take_length, List.drop_succ_cons,
      List.drop_zero, List.drop_length, List.append_nil, List.cons_append, List.nil_append,
      List.getElem?_cons_zero, Option.some.injEq, List.eraseIdx_zero, List.tail_cons]
    by_cases h : x = node <;> simp [h]

/-- C19. Addition of a node and then its removal keeps other nodes. -/
theorem remove_add (node : N) (l : List N) :
    removeAdjacent node (addAdjacent node l) = removeAdjacent node l := by
  rw [removeAdjacent_eq, removeAdjacent_eq, addAdjacent, List.filter_append]
  simp

example : removeAdjacent 3 [3, 1, 3, 3, 2, 3] = [1, 2] := by decide

end DataFlow
end Tsar
