import Verif.AstDep.Exec
import Mathlib.Data.List.Basic
import Mathlib.Data.List.Perm.Basic
import Mathlib.Tactic.ByContra

/-!
# A loop which is executed in parallel computes the same values

If each cell is treated according to its behaviour in the sequential loop, then any parallel execution ends with the
same memory.
-/

namespace Tsar
namespace AstDep

open Parallel

variable {L A : Type} [DecidableEq L] {O : Ops A} {P : Loop L A} {cls : L → Cls} {σ : L → A}

/-- The treatment of cells corresponds to the behaviour of the sequential loop. -/
structure Fit (O : Ops A) (P : Loop L A) (cls : L → Cls) (σ : L → A) : Prop where
  direct : ∀ l, cls l ≠ .shared → ∀ i < P.n, ∀ a ∈ P.acts O σ i, a.loc = l → a.direct = true
  shared : ∀ l, cls l = .shared → P.hdr l = none ∧ Independent O P σ l
  loopVar : ∀ l, cls l = .loopVar → P.hdr l ≠ none ∧ NeverWritten O P σ l
  red : ∀ l k, cls l = .red k → P.hdr l = none ∧ OnlyUpdates O P σ k l ∧ Combines O k
  priv : ∀ l f la, cls l = .priv f la → P.hdr l = none ∧
    ((f = true ∧ NeverWritten O P σ l) ∨ (WriteFirst O P σ l ∧ (la = true → LastAssigns O P σ l)))

/-- An effect of accesses on a cell. -/
def eff (O : Ops A) (l : L) : List (Act L A) → A → A
  | [], x => x
  | .rd _ _ _ :: p, x => eff O l p x
  | .wr _ m v :: p, x => eff O l p (if m = l then v else x)
  | .up _ m k v :: p, x => eff O l p (if m = l then O.ap k x v else x)

theorem eff_append (l : L) (p q : List (Act L A)) (x : A) : eff O l (p ++ q) x = eff O l q (eff O l p x) := by
  induction p generalizing x with
  | nil => rfl
  | cons a p ih => cases a <;> exact ih _

theorem eff_same {l : L} {p : List (Act L A)} (h : ∀ a ∈ p, a.loc = l → ¬ a.Changes) (x : A) :
    eff O l p x = x := by
  induction p generalizing x with
  | nil => rfl
  | cons a p ih =>
    have hp := ih fun b hb => h b (List.mem_cons_of_mem _ hb)
    have ha := h a List.mem_cons_self
    cases a with
    | rd d m v => exact hp x
    | wr d m v =>
      have : ¬ m = l := fun e => ha e trivial
      simp only [eff, if_neg this]; exact hp x
    | up d m k v =>
      have : ¬ m = l := fun e => ha e trivial
      simp only [eff, if_neg this]; exact hp x

theorem eff_assign {l : L} {p : List (Act L A)} (h : ∃ b ∈ p, b.Assigns l) (x y : A) :
    eff O l p x = eff O l p y := by
  induction p generalizing x y with
  | nil => obtain ⟨b, hb, _⟩ := h; cases hb
  | cons a p ih =>
    by_cases hp : ∃ b ∈ p, b.Assigns l
    · cases a <;> exact ih hp _ _
    · obtain ⟨b, hb, hl⟩ := h
      rcases List.mem_cons.1 hb with rfl | hb
      · cases b with
        | wr d m v => simp only [eff, if_pos (show m = l from hl)]
        | rd d m v => exact hl.elim
        | up d m k v => exact hl.elim
      · exact (hp ⟨b, hb, hl⟩).elim

theorem run_eff (p : Prog L A) (σ : L → A) (l : L) : run O p σ l = eff O l (trace O p σ) (σ l) := by
  induction p generalizing σ with
  | done => rfl
  | read d m k ih => exact ih _ _
  | write d m v p ih =>
    simp only [run, trace, eff, ih, upd]
    by_cases h : l = m
    · subst h; simp
    · rw [if_neg h, if_neg fun e => h e.symm]
  | update d m k v p ih =>
    simp only [run, trace, eff, ih, upd]
    by_cases h : l = m
    · subst h; simp
    · rw [if_neg h, if_neg fun e => h e.symm]

theorem seq_succ (i : Nat) (l : L) :
    P.seq O σ (i + 1) l = eff O l (P.acts O σ i) (P.start O σ i l) := run_eff _ _ _

theorem start_none {i : Nat} {l : L} (h : P.hdr l = none) : P.start O σ i l = P.seq O σ i l := by
  unfold Loop.start Loop.head; rw [h]

theorem start_some {i : Nat} {l : L} {f : Nat → A} (h : P.hdr l = some f) : P.start O σ i l = f i := by
  unfold Loop.start Loop.head; rw [h]

theorem acts_same {i : Nat} {l : L} (h : ¬ Writes O P σ i l) :
    ∀ a ∈ P.acts O σ i, a.loc = l → ¬ a.Changes := fun a ha e hc => h ⟨a, ha, e, hc⟩

theorem seq_same {i : Nat} {l : L} (h : P.hdr l = none) (hw : ∀ j < i, ¬ Writes O P σ j l) :
    P.seq O σ i l = σ l := by
  induction i with
  | zero => rfl
  | succ i ih =>
    rw [seq_succ, eff_same (acts_same (hw i (Nat.lt_succ_self i))), start_none h]
    exact ih fun j hj => hw j (Nat.lt_succ_of_lt hj)

/-- Values which are used to update a cell. -/
def ups (l : L) (p : List (Act L A)) : List A :=
  p.filterMap fun a => match a with
    | .up _ m _ v => if m = l then some v else none
    | _ => none

theorem eff_ups {l : L} {k : RedKind} {p : List (Act L A)} (h : ∀ a ∈ p, a.loc = l → ∃ d v, a = .up d l k v) (x : A) :
    eff O l p x = (ups l p).foldl (O.ap k) x := by
  induction p generalizing x with
  | nil => rfl
  | cons a p ih =>
    have hp := ih fun b hb => h b (List.mem_cons_of_mem _ hb)
    have ha := h a List.mem_cons_self
    cases a with
    | rd d m v => simp only [eff, ups, List.filterMap_cons]; exact hp x
    | wr d m v =>
      have : ¬ m = l := fun e => by obtain ⟨d', w, hw⟩ := ha e; cases hw
      simp only [eff, if_neg this, ups, List.filterMap_cons]; exact hp x
    | up d m k' v =>
      by_cases e : m = l
      · obtain ⟨d', w, hw⟩ := ha e
        cases hw
        simp only [eff, if_pos, ups, List.filterMap_cons, List.foldl_cons]
        exact hp _
      · simp only [eff, if_neg e, ups, List.filterMap_cons]; exact hp x

theorem ups_append (l : L) (p q : List (Act L A)) : ups l (p ++ q) = ups l p ++ ups l q :=
  List.filterMap_append

/-! ## Invariant -/

/-- Iterations of a thread. -/
def Thread.its (t : Thread L A) : List Nat := t.hist ++ (t.cur.toList.map (·.1)) ++ t.todo

/-- The rest of the iteration behaves as in the sequential loop. -/
def Res (O : Ops A) (P : Loop L A) (σ : L → A) (i : Nat) (lg : List (Act L A)) (p : Prog L A) : Prop :=
  P.acts O σ i = lg ++ trace O p fun l => eff O l lg (P.start O σ i l)

/-- What is known about a thread. -/
structure TInv (O : Ops A) (P : Loop L A) (cls : L → Cls) (σ : L → A) (log : Nat → List (Act L A))
    (t : Thread L A) : Prop where
  fin : ∀ i ∈ t.hist, log i = P.acts O σ i
  idle : ∀ i ∈ t.todo, log i = []
  cur : ∀ i p, t.cur = some (i, p) → Res O P σ i (log i) p
  hdr : ∀ i p, t.cur = some (i, p) → ∀ l f, P.hdr l = some f → t.mine l = f i
  first : ∀ l la, cls l = .priv true la → NeverWritten O P σ l → t.mine l = σ l
  priv : ∀ i p, t.cur = some (i, p) → ∀ l f la, cls l = .priv f la → (∃ b ∈ log i, b.Assigns l) →
    t.mine l = eff O l (log i) (P.start O σ i l)
  red : ∀ l k, cls l = .red k → t.mine l =
    ((t.hist ++ t.cur.toList.map (·.1)).flatMap fun i => ups l (log i)).foldl (O.ap k) (O.unit k)

/-- What is known about a team. -/
structure Inv (O : Ops A) (P : Loop L A) (cls : L → Cls) (σ : L → A) (T : Team L A) : Prop where
  order : (T.threads.flatMap Thread.its).Perm (List.range P.n)
  thr : ∀ t ∈ T.threads, TInv O P cls σ T.log t
  shared : ∀ l, cls l = .shared → ∀ i < P.n, (∀ j < P.n, j ≠ i → ¬ Writes O P σ j l) →
    T.mem l = eff O l (T.log i) (σ l)
  const : ∀ l, cls l ≠ .shared ∨ NeverWritten O P σ l → T.mem l = σ l
  last : ∀ i, i + 1 = P.n → (∃ t ∈ T.threads, i ∈ t.hist) → ∀ l f, cls l = .priv f true →
    ((∃ b ∈ P.acts O σ i, b.Assigns l) → T.last l = eff O l (P.acts O σ i) (P.start O σ i l)) ∧
    (f = true → NeverWritten O P σ l → T.last l = σ l)

theorem initial_inv (hf : Fit O P cls σ) {T : Team L A} (h : Initial O P cls σ T) : Inv O P cls σ T := by
  have hits : ∀ t ∈ T.threads, t.its = t.todo := fun t ht => by
    have hF := h.fresh t ht
    simp [Thread.its, hF.hist, hF.cur]
  refine ⟨?_, fun t ht => ?_, fun l _ i _ _ => by rw [h.log, h.mem]; rfl, fun l _ => by rw [h.mem], ?_⟩
  · have : T.threads.flatMap Thread.its = T.threads.flatMap (·.todo) := by
      simp only [List.flatMap]
      rw [List.map_congr_left hits]
    rw [this]; exact h.share
  · have hF := h.fresh t ht
    refine ⟨?_, fun i _ => h.log i, ?_, ?_, fun l la hl _ => hF.first l la hl, ?_, fun l k hl => ?_⟩
    · rw [hF.hist]; intro i hi; cases hi
    · rw [hF.cur]; intro i p e; cases e
    · rw [hF.cur]; intro i p e; cases e
    · rw [hF.cur]; intro i p e; cases e
    · rw [hF.red l k hl, hF.hist, hF.cur]; rfl
  · rintro i _ ⟨t, ht, hi⟩
    rw [(h.fresh t ht).hist] at hi; cases hi

theorem mem_its_lt {T : Team L A} (h : Inv O P cls σ T) {t : Thread L A} (ht : t ∈ T.threads) {i : Nat}
    (hi : i ∈ t.its) : i < P.n :=
  List.mem_range.1 (h.order.mem_iff.1 (List.mem_flatMap.2 ⟨t, ht, hi⟩))

theorem its_other {T : Team L A} (h : Inv O P cls σ T) {a b : List (Thread L A)} {t : Thread L A}
    (he : T.threads = a ++ t :: b) {i : Nat} (hi : i ∈ t.its) {u : Thread L A} (hu : u ∈ a ∨ u ∈ b) : i ∉ u.its := by
  have hn : (T.threads.flatMap Thread.its).Nodup := h.order.nodup_iff.2 List.nodup_range
  rw [he] at hn
  simp only [List.flatMap_append, List.flatMap_cons] at hn
  rw [List.nodup_append, List.nodup_append] at hn
  obtain ⟨_, ⟨_, _, hr⟩, hl⟩ := hn
  intro hiu
  rcases hu with hu | hu
  · exact hl i (List.mem_flatMap.2 ⟨u, hu, hiu⟩) i (List.mem_append_left _ hi) rfl
  · exact hr i hi i (List.mem_flatMap.2 ⟨u, hu, hiu⟩) rfl

theorem its_self {T : Team L A} (h : Inv O P cls σ T) {t : Thread L A} (ht : t ∈ T.threads) : t.its.Nodup := by
  have hn : (T.threads.flatMap Thread.its).Nodup := h.order.nodup_iff.2 List.nodup_range
  obtain ⟨a, b, he⟩ := List.append_of_mem ht
  rw [he] at hn
  simp only [List.flatMap_append, List.flatMap_cons] at hn
  rw [List.nodup_append, List.nodup_append] at hn
  exact hn.2.1.1

theorem logAt_other {log : Nat → List (Act L A)} {i j : Nat} {a : Act L A} (h : j ≠ i) : logAt log i a j = log j :=
  if_neg h

theorem logAt_self {log : Nat → List (Act L A)} {i : Nat} {a : Act L A} : logAt log i a i = log i ++ [a] :=
  if_pos rfl

/-- Other threads do not depend on the log of an iteration. -/
theorem other_inv {log log' : Nat → List (Act L A)} {t : Thread L A} (h : TInv O P cls σ log t)
    (he : ∀ i ∈ t.its, log' i = log i) : TInv O P cls σ log' t := by
  have hc : ∀ i p, t.cur = some (i, p) → log' i = log i := fun i p e => by
    apply he; simp [Thread.its, e]
  refine ⟨fun i hi => ?_, fun i hi => ?_, fun i p e => ?_, h.hdr, h.first, fun i p e => ?_, fun l k hl => ?_⟩
  · rw [he i (by simp [Thread.its, hi])]; exact h.fin i hi
  · rw [he i (by simp [Thread.its, hi])]; exact h.idle i hi
  · rw [hc i p e]; exact h.cur i p e
  · rw [hc i p e]; exact h.priv i p e
  · rw [h.red l k hl]
    congr 1
    simp only [List.flatMap]
    congr 1
    apply List.map_congr_left
    intro i hi
    rw [he i (by rw [Thread.its]; exact List.mem_append_left _ hi)]

/-- An access of a thread. -/
theorem access_inv (hf : Fit O P cls σ) {mem la : L → A} {log : Nat → List (Act L A)} {a b : List (Thread L A)}
    {hist todo : List Nat} {i : Nat} {p p' : Prog L A} {mine mem' mine' : L → A} {x : Act L A}
    (h : Inv O P cls σ ⟨mem, la, log, a ++ ⟨hist, some (i, p), todo, mine⟩ :: b⟩)
    (hres : Res O P σ i (log i ++ [x]) p')
    (hmem : ∀ l, mem' l = if cls l = .shared then eff O l [x] (mem l) else mem l)
    (hmine : ∀ l, cls l ≠ .shared → mine' l = eff O l [x] (mine l)) :
    Inv O P cls σ ⟨mem', la, logAt log i x, a ++ ⟨hist, some (i, p'), todo, mine'⟩ :: b⟩ := by
  have ht : (⟨hist, some (i, p), todo, mine⟩ : Thread L A) ∈ a ++ ⟨hist, some (i, p), todo, mine⟩ :: b := by simp
  have hi : i ∈ (⟨hist, some (i, p), todo, mine⟩ : Thread L A).its := by simp [Thread.its]
  have hin : i < P.n := mem_its_lt h ht hi
  have hxm : x ∈ P.acts O σ i := by rw [hres]; simp
  have hnd := its_self h ht
  have hx : ∀ l, ¬ Writes O P σ i l → ∀ y, eff O l [x] y = y := fun l hw y =>
    eff_same (fun c hc e => by
      rw [List.mem_singleton.1 hc] at e ⊢
      exact fun hch => hw ⟨x, hxm, e, hch⟩) y
  have hns : i ∉ hist ∧ i ∉ todo := by
    simp only [Thread.its, Option.toList_some, List.map_cons, List.map_nil] at hnd
    rw [List.nodup_append, List.nodup_append] at hnd
    exact ⟨fun hm => hnd.1.2.2 i hm i (by simp) rfl, fun hm => hnd.2.2 i (by simp) i hm rfl⟩
  have hT := h.thr _ ht
  refine ⟨?_, fun t hmt => ?_, fun l hl j hj hw => ?_, fun l hl => ?_, ?_⟩
  · have := h.order
    simp only [List.flatMap_append, List.flatMap_cons] at this ⊢
    exact this
  · rcases List.mem_append.1 hmt with hm | hm
    · exact other_inv (h.thr t (by simp [hm])) fun j hj =>
        logAt_other fun e => its_other h rfl hi (Or.inl hm) (e ▸ hj)
    · rcases List.mem_cons.1 hm with rfl | hm
      · show TInv O P cls σ (logAt log i x) _
        refine ⟨fun j hj => ?_, fun j hj => ?_, ?_, ?_, fun l la' hl hnw => ?_, ?_, fun l k hl => ?_⟩
        · rw [logAt_other (show j ≠ i from fun e => hns.1 (e ▸ hj))]; exact hT.fin j hj
        · rw [logAt_other (show j ≠ i from fun e => hns.2 (e ▸ hj))]; exact hT.idle j hj
        · rintro j q ⟨⟩; rw [logAt_self]; exact hres
        · rintro j q ⟨⟩ l f hl
          have hc : cls l ≠ .shared := fun e => by rw [(hf.shared l e).1] at hl; cases hl
          have hnw : ¬ Writes O P σ i l := by
            cases hcl : cls l with
            | shared => exact (hc hcl).elim
            | loopVar => exact (hf.loopVar l hcl).2 i hin
            | red k => rw [(hf.red l k hcl).1] at hl; cases hl
            | priv f' la' => rw [(hf.priv l f' la' hcl).1] at hl; cases hl
          show mine' l = _
          rw [hmine l hc, hx l hnw]
          exact hT.hdr i p rfl l f hl
        · show mine' l = _
          rw [hmine l (by rw [hl]; intro e; cases e), hx l (hnw i hin)]
          exact hT.first l la' hl hnw
        · rintro j q ⟨⟩ l f la' hl hb
          show mine' l = _
          rw [logAt_self] at hb ⊢
          rw [hmine l (by rw [hl]; intro e; cases e), eff_append]
          obtain ⟨c, hc, hca⟩ := hb
          rcases List.mem_append.1 hc with hc | hc
          · rw [show mine l = _ from hT.priv i p rfl l f la' hl ⟨c, hc, hca⟩]
          · exact eff_assign ⟨c, hc, hca⟩ _ _
        · have hou := (hf.red l k hl).2.1
          show mine' l = _
          rw [hmine l (by rw [hl]; intro e; cases e), show mine l = _ from hT.red l k hl,
            eff_ups (fun c hc e => hou i hin c (by rw [List.mem_singleton.1 hc]; exact hxm) e) ]
          have hh : (hist.flatMap fun j => ups l (logAt log i x j)) = hist.flatMap fun j => ups l (log j) := by
            simp only [List.flatMap]
            congr 1
            apply List.map_congr_left
            intro j hj
            rw [logAt_other (show j ≠ i from fun e => hns.1 (e ▸ hj))]
          simp only [List.flatMap_append, Option.toList_some, List.map_cons, List.map_nil, List.flatMap_cons,
            List.flatMap_nil, List.append_nil, logAt_self, ups_append, List.foldl_append]
          rw [hh]
      · exact other_inv (h.thr t (by simp [hm])) fun j hj =>
          logAt_other fun e => its_other h rfl hi (Or.inr hm) (e ▸ hj)
  · show mem' l = eff O l (logAt log i x j) _
    rw [hmem l, if_pos hl]
    by_cases e : j = i
    · subst e
      rw [show (logAt log j x) j = log j ++ [x] from logAt_self, eff_append]
      rw [show mem l = _ from h.shared l hl j hj hw]
    · rw [show (logAt log i x) j = log j from logAt_other e, hx l (hw i hin (Ne.symm e))]
      exact h.shared l hl j hj hw
  · show mem' l = _
    rw [hmem l]
    by_cases e : cls l = .shared
    · rw [if_pos e]
      have hn := hl.resolve_left fun c => c e
      rw [hx l (hn i hin)]
      exact h.const l (Or.inr hn)
    · rw [if_neg e]; exact h.const l (Or.inl e)
  · rintro j hj ⟨t, hmt, hjt⟩
    apply h.last j hj
    rcases List.mem_append.1 hmt with hm | hm
    · exact ⟨t, by simp [hm], hjt⟩
    · rcases List.mem_cons.1 hm with rfl | hm
      · exact ⟨_, ht, hjt⟩
      · exact ⟨t, by simp [hm], hjt⟩

theorem begin_inv (hf : Fit O P cls σ) {mem la : L → A} {log : Nat → List (Act L A)} {a b : List (Thread L A)}
    {hist todo : List Nat} {i : Nat} {mine mine' : L → A}
    (h : Inv O P cls σ ⟨mem, la, log, a ++ ⟨hist, none, i :: todo, mine⟩ :: b⟩)
    (hh : ∀ l f, P.hdr l = some f → mine' l = f i)
    (hk : ∀ l, P.hdr l = none → cls l ≠ .priv false false → mine' l = mine l) :
    Inv O P cls σ ⟨mem, la, log, a ++ ⟨hist, some (i, P.body i), todo, mine'⟩ :: b⟩ := by
  have ht : (⟨hist, none, i :: todo, mine⟩ : Thread L A) ∈ a ++ ⟨hist, none, i :: todo, mine⟩ :: b := by simp
  have hT := h.thr _ ht
  have hlog : log i = [] := hT.idle i (by simp)
  refine ⟨?_, fun t hmt => ?_, h.shared, h.const, ?_⟩
  · have := h.order
    simpa [Thread.its] using this
  · rcases List.mem_append.1 hmt with hm | hm
    · exact h.thr t (by simp [hm])
    · rcases List.mem_cons.1 hm with rfl | hm
      · refine ⟨hT.fin, fun j hj => hT.idle j (List.mem_cons_of_mem _ hj), ?_, ?_, fun l la' hl hnw => ?_, ?_,
          fun l k hl => ?_⟩
        · rintro j q ⟨⟩
          show P.acts O σ i = log i ++ trace O (P.body i) fun l => eff O l (log i) (P.start O σ i l)
          rw [hlog]; rfl
        · rintro j q ⟨⟩ l f hl; exact hh l f hl
        · show mine' l = σ l
          rw [hk l (hf.priv l _ _ hl).1 (by rw [hl]; intro e; cases e)]
          exact hT.first l la' hl hnw
        · rintro j q ⟨⟩ l f la' hl ⟨c, hc, _⟩
          rw [show (⟨mem, la, log, a ++ ⟨hist, some (i, P.body i), todo, mine'⟩ :: b⟩ : Team L A).log i = []
            from hlog] at hc
          cases hc
        · show mine' l = _
          rw [hk l (hf.red l _ hl).1 (by rw [hl]; intro e; cases e), show mine l = _ from hT.red l k hl]
          simp [hlog, ups]
      · exact h.thr t (by simp [hm])
  · rintro j hj ⟨t, hmt, hjt⟩
    apply h.last j hj
    rcases List.mem_append.1 hmt with hm | hm
    · exact ⟨t, by simp [hm], hjt⟩
    · rcases List.mem_cons.1 hm with rfl | hm
      · exact ⟨_, ht, hjt⟩
      · exact ⟨t, by simp [hm], hjt⟩

theorem finish_inv {mem la : L → A} {log : Nat → List (Act L A)} {a b : List (Thread L A)}
    {hist todo : List Nat} {i : Nat} {mine : L → A}
    (h : Inv O P cls σ ⟨mem, la, log, a ++ ⟨hist, some (i, .done), todo, mine⟩ :: b⟩) :
    Inv O P cls σ ⟨mem, if i + 1 = P.n then mine else la, log, a ++ ⟨hist ++ [i], none, todo, mine⟩ :: b⟩ := by
  have ht : (⟨hist, some (i, .done), todo, mine⟩ : Thread L A) ∈
      a ++ ⟨hist, some (i, .done), todo, mine⟩ :: b := by simp
  have hT := h.thr _ ht
  have hlog : log i = P.acts O σ i := by
    have := hT.cur i .done rfl
    simp only [Res, trace, List.append_nil] at this
    exact this.symm
  refine ⟨?_, fun t hmt => ?_, h.shared, h.const, ?_⟩
  · have := h.order
    simpa [Thread.its] using this
  · rcases List.mem_append.1 hmt with hm | hm
    · exact h.thr t (by simp [hm])
    · rcases List.mem_cons.1 hm with rfl | hm
      · refine ⟨fun j hj => ?_, hT.idle, ?_, ?_, hT.first, ?_, fun l k hl => ?_⟩
        · rcases List.mem_append.1 hj with hj | hj
          · exact hT.fin j hj
          · rw [List.mem_singleton.1 hj]; exact hlog
        · rintro j q ⟨⟩
        · rintro j q ⟨⟩
        · rintro j q ⟨⟩
        · rw [show (⟨hist ++ [i], none, todo, mine⟩ : Thread L A).mine l = mine l from rfl, show mine l = _ from hT.red l k hl]
          simp
      · exact h.thr t (by simp [hm])
  · intro j hj hex l f hl
    by_cases e : i + 1 = P.n
    · have hji : j = i := by omega
      subst hji
      simp only [if_pos e]
      refine ⟨fun hb => ?_, fun hf' hnw => ?_⟩
      · have := hT.priv j .done rfl l f true hl (by
          show ∃ b ∈ log j, b.Assigns l
          rw [hlog]; exact hb)
        rw [show (⟨mem, la, log, a ++ ⟨hist, some (j, .done), todo, mine⟩ :: b⟩ : Team L A).log j = _ from hlog]
          at this
        exact this
      · subst hf'; exact hT.first l true hl hnw
    · simp only [if_neg e]
      apply h.last j hj
      · obtain ⟨t, hmt, hjt⟩ := hex
        rcases List.mem_append.1 hmt with hm | hm
        · exact ⟨t, by simp [hm], hjt⟩
        · rcases List.mem_cons.1 hm with rfl | hm
          · rcases List.mem_append.1 hjt with hj' | hj'
            · exact ⟨_, ht, hj'⟩
            · rw [List.mem_singleton.1 hj'] at hj; exact (e hj).elim
          · exact ⟨t, by simp [hm], hjt⟩
      · exact hl

/-- A thread reads the same value as the sequential loop. -/
theorem look_eq (hf : Fit O P cls σ) {T : Team L A} (h : Inv O P cls σ T) {t : Thread L A} (ht : t ∈ T.threads)
    {i : Nat} {p : Prog L A} (hc : t.cur = some (i, p)) {x : Act L A} {q : List (Act L A)}
    (hx : P.acts O σ i = T.log i ++ x :: q) (hna : ¬ x.Assigns x.loc) (hnr : ∀ k, cls x.loc ≠ .red k) :
    look cls T.mem t.mine x.direct x.loc = eff O x.loc (T.log i) (P.start O σ i x.loc) := by
  have hin : i < P.n := mem_its_lt h ht (by simp [Thread.its, hc])
  have hpre : ∀ l, ¬ Writes O P σ i l → ∀ y, eff O l (T.log i) y = y := fun l hw y =>
    eff_same (fun c hcm => acts_same hw c (by rw [hx]; exact List.mem_append_left _ hcm)) y
  have hacc : Accesses O P σ i x.loc := ⟨x, by rw [hx]; simp, rfl⟩
  have hdir : cls x.loc ≠ .shared → x.direct = true := fun hn => hf.direct _ hn i hin x (by rw [hx]; simp) rfl
  have hlook : look cls T.mem t.mine x.direct x.loc = if cls x.loc = .shared then T.mem x.loc else t.mine x.loc := by
    unfold look
    by_cases hn : cls x.loc = .shared
    · rw [if_pos (Or.inl hn), if_pos hn]
    · rw [if_neg hn, if_neg]
      rintro (e | e)
      · exact hn e
      · rw [hdir hn] at e; cases e
  rw [hlook]
  cases hcl : cls x.loc with
  | shared =>
    obtain ⟨h0, hind⟩ := hf.shared _ hcl
    rw [if_pos rfl, h.shared _ hcl i hin fun j hj hji hw => hind j i hj hin hji hw hacc, start_none h0,
      seq_same h0 fun j hj hw => hind j i (by omega) hin (by omega) hw hacc]
  | loopVar =>
    obtain ⟨h0, hnw⟩ := hf.loopVar _ hcl
    obtain ⟨f, hfx⟩ := Option.ne_none_iff_exists'.1 h0
    rw [if_neg (by intro e; cases e), (h.thr t ht).hdr i p hc _ f hfx, hpre _ (hnw i hin), start_some hfx]
  | red k => exact (hnr k hcl).elim
  | priv f la =>
    obtain ⟨h0, hp⟩ := hf.priv _ _ _ hcl
    rw [if_neg (by intro e; cases e)]
    rcases hp with ⟨rfl, hnw⟩ | ⟨hwf, _⟩
    · rw [(h.thr t ht).first _ la hcl hnw, hpre _ (hnw i hin), start_none h0,
        seq_same h0 fun j hj => hnw j (by omega)]
    · rcases hwf i hin _ x q hx rfl with hb | hb
      · exact (h.thr t ht).priv i p hc _ f la hcl hb
      · exact (hna hb).elim

theorem step_inv (hf : Fit O P cls σ) {T U : Team L A} (h : Inv O P cls σ T) (hs : Step O P cls T U) :
    Inv O P cls σ U := by
  obtain ⟨h1⟩ := hs
  cases h1 with
  | begin hh hk => exact begin_inv hf h hh hk
  | finish => exact finish_inv h
  | @read hist i d l k todo mine =>
    have hT := h.thr _ (List.mem_append_right _ List.mem_cons_self)
    have hr := hT.cur i _ rfl
    simp only [Res, trace] at hr
    have hl := look_eq hf h (List.mem_append_right _ List.mem_cons_self) rfl hr id fun k' hk' => by
      obtain ⟨d', v, hv⟩ := (hf.red _ _ hk').2.1 i
        (mem_its_lt h (List.mem_append_right _ List.mem_cons_self) (by simp [Thread.its])) _ (by rw [hr]; simp) rfl
      cases hv
    simp only [Act.loc, Act.direct] at hl
    rw [hl]
    refine access_inv hf h ?_ (fun l' => ?_) fun l' _ => rfl
    · simp only [Res]
      rw [hr, List.append_assoc]
      congr 2
      congr 1
      funext m
      rw [eff_append]; rfl
    · split <;> rfl
  | @writeShared hist i d l v p todo mine hc =>
    have hr := (h.thr _ (List.mem_append_right _ List.mem_cons_self)).cur i _ rfl
    simp only [Res, trace] at hr
    have hin := mem_its_lt h (List.mem_append_right _ List.mem_cons_self) (i := i) (by simp [Thread.its])
    replace hc : cls l = .shared := by
      rcases hc with hc | hc
      · exact hc
      · by_contra hn
        have := hf.direct l hn i hin _ (by rw [hr]; simp only [List.mem_append, List.mem_cons]; exact Or.inr (Or.inl rfl)) rfl
        rw [show d = true from this] at hc
        cases hc
    refine access_inv hf h ?_ (fun m => ?_) fun m hm => ?_
    · simp only [Res]
      rw [hr, List.append_assoc]
      congr 2
      congr 1
      funext m
      rw [eff_append]
      simp only [upd, eff]
      by_cases e : m = l
      · subst e; simp
      · rw [if_neg e, if_neg fun e' => e e'.symm]
    · simp only [upd, eff]
      by_cases e : m = l
      · subst e; simp [hc]
      · rw [if_neg e, if_neg (fun e' => e e'.symm : ¬ l = m)]; split <;> rfl
    · simp only [eff]
      rw [if_neg fun e => hm (by rw [← e]; exact hc)]
  | @writeMine hist i d l v p todo mine hc hd =>
    have hr := (h.thr _ (List.mem_append_right _ List.mem_cons_self)).cur i _ rfl
    simp only [Res, trace] at hr
    have hin := mem_its_lt h (List.mem_append_right _ List.mem_cons_self) (i := i) (by simp [Thread.its])
    refine access_inv hf h ?_ (fun m => ?_) fun m hm => ?_
    · simp only [Res]
      rw [hr, List.append_assoc]
      congr 2
      congr 1
      funext m
      rw [eff_append]
      simp only [upd, eff]
      by_cases e : m = l
      · subst e; simp
      · rw [if_neg e, if_neg fun e' => e e'.symm]
    · simp only [eff]
      by_cases hm : cls m = .shared
      · rw [if_pos hm, if_neg fun e => hc (by rw [e]; exact hm)]
      · rw [if_neg hm]
    · simp only [upd, eff]
      by_cases e : m = l
      · subst e; simp
      · rw [if_neg e, if_neg fun e' => e e'.symm]
  | @updateShared hist i d l k v p todo mine hc =>
    have hr := (h.thr _ (List.mem_append_right _ List.mem_cons_self)).cur i _ rfl
    simp only [Res, trace] at hr
    have hin := mem_its_lt h (List.mem_append_right _ List.mem_cons_self) (i := i) (by simp [Thread.its])
    replace hc : cls l = .shared := by
      rcases hc with hc | hc
      · exact hc
      · by_contra hn
        have := hf.direct l hn i hin _ (by rw [hr]; simp only [List.mem_append, List.mem_cons]; exact Or.inr (Or.inl rfl)) rfl
        rw [show d = true from this] at hc
        cases hc
    refine access_inv hf h ?_ (fun m => ?_) fun m hm => ?_
    · simp only [Res]
      rw [hr, List.append_assoc]
      congr 2
      congr 1
      funext m
      rw [eff_append]
      simp only [upd, eff]
      by_cases e : m = l
      · subst e; simp
      · rw [if_neg e, if_neg fun e' => e e'.symm]
    · simp only [upd, eff]
      by_cases e : m = l
      · subst e; simp [hc]
      · rw [if_neg e, if_neg (fun e' => e e'.symm : ¬ l = m)]; split <;> rfl
    · simp only [eff]
      rw [if_neg fun e => hm (by rw [← e]; exact hc)]
  | @updateMine hist i d l k v p todo mine hc hd =>
    have hr := (h.thr _ (List.mem_append_right _ List.mem_cons_self)).cur i _ rfl
    simp only [Res, trace] at hr
    have hin := mem_its_lt h (List.mem_append_right _ List.mem_cons_self) (i := i) (by simp [Thread.its])
    refine access_inv hf h ?_ (fun m => ?_) fun m hm => ?_
    · simp only [Res]
      rw [hr, List.append_assoc]
      congr 2
      congr 1
      funext m
      rw [eff_append]
      simp only [upd, eff]
      by_cases e : m = l
      · subst e; simp
      · rw [if_neg e, if_neg fun e' => e e'.symm]
    · simp only [eff]
      by_cases hm : cls m = .shared
      · rw [if_pos hm, if_neg fun e => hc (by rw [e]; exact hm)]
      · rw [if_neg hm]
    · simp only [upd, eff]
      by_cases e : m = l
      · subst e; simp
      · rw [if_neg e, if_neg fun e' => e e'.symm]

theorem steps_inv (hf : Fit O P cls σ) {T U : Team L A} (h : Inv O P cls σ T) (hs : Steps O P cls T U) :
    Inv O P cls σ U := by
  induction hs with
  | refl => exact h
  | tail _ h2 ih => exact step_inv hf ih h2

/-! ## The result of the loop -/

theorem foldl_start {k : RedKind} (hk : Combines O k) (xs : List A) (x : A) :
    xs.foldl (O.ap k) x = O.ap k x (xs.foldl (O.ap k) (O.unit k)) := by
  induction xs generalizing x with
  | nil => exact (hk.unit x).symm
  | cons y xs ih =>
    rw [List.foldl_cons, List.foldl_cons, ih, ih (O.ap k (O.unit k) y), ← hk.assoc, ← hk.assoc, hk.unit]

theorem foldl_perm {k : RedKind} (hk : Combines O k) {xs ys : List A} (h : xs.Perm ys) (x : A) :
    xs.foldl (O.ap k) x = ys.foldl (O.ap k) x := by
  induction h generalizing x with
  | nil => rfl
  | cons y _ ih => exact ih _
  | swap y z xs =>
    simp only [List.foldl_cons]
    rw [hk.assoc, hk.assoc, hk.comm z y]
  | trans _ _ ih1 ih2 => rw [ih1, ih2]

theorem foldl_parts {k : RedKind} (hk : Combines O k) (ls : List (List A)) (x : A) :
    (ls.map fun xs => xs.foldl (O.ap k) (O.unit k)).foldl (O.ap k) x = ls.flatten.foldl (O.ap k) x := by
  induction ls generalizing x with
  | nil => rfl
  | cons xs ls ih =>
    simp only [List.map_cons, List.foldl_cons, List.flatten_cons, List.foldl_append]
    rw [ih, ← foldl_start hk]

theorem seq_red {l : L} {k : RedKind} (h0 : P.hdr l = none) (hu : OnlyUpdates O P σ k l) {i : Nat} (hi : i ≤ P.n) :
    P.seq O σ i l = ((List.range i).flatMap fun j => ups l (P.acts O σ j)).foldl (O.ap k) (σ l) := by
  induction i with
  | zero => rfl
  | succ i ih =>
    rw [seq_succ, start_none h0, eff_ups (fun a ha => hu i (by omega) a ha), ih (by omega), List.range_succ,
      List.flatMap_append, List.foldl_append]
    simp

/-- A parallel execution of a loop ends with the same values as the sequential one. -/
theorem parallel_sequential (hf : Fit O P cls σ) {τ : L → A} (h : RunsParallel O P cls σ τ) {l : L}
    (hl : cls l = .shared ∨ (∃ k, cls l = .red k) ∨ (∃ f, cls l = .priv f true) ∨
      (cls l = .priv true false ∧ NeverWritten O P σ l)) : τ l = P.seq O σ P.n l := by
  obtain ⟨T, U, h0, hs, hfin, haft⟩ := h
  have hI := steps_inv hf (initial_inv hf h0) hs
  have haft := haft l
  have hhist : ∀ t ∈ U.threads, t.its = t.hist := fun t ht => by
    obtain ⟨hc, ht⟩ := hfin t ht
    simp [Thread.its, hc, ht]
  have hall : (U.threads.flatMap (·.hist)).Perm (List.range P.n) := by
    have : U.threads.flatMap Thread.its = U.threads.flatMap (·.hist) := by
      simp only [List.flatMap]
      rw [List.map_congr_left hhist]
    rw [← this]; exact hI.order
  have hlog : ∀ i < P.n, U.log i = P.acts O σ i := fun i hi => by
    obtain ⟨t, ht, hit⟩ := List.mem_flatMap.1 (hall.mem_iff.2 (List.mem_range.2 hi))
    exact (hI.thr t ht).fin i hit
  rcases hl with hl | ⟨k, hl⟩ | ⟨f, hl⟩ | ⟨hl, hnw⟩
  · rw [hl] at haft
    obtain ⟨h0', hind⟩ := hf.shared l hl
    rw [show τ l = U.mem l from haft]
    by_cases hw : ∃ i, i < P.n ∧ Writes O P σ i l
    · obtain ⟨i, hi, hwi⟩ := hw
      have hoth : ∀ j < P.n, j ≠ i → ¬ Writes O P σ j l := fun j hj hji hwj => by
        obtain ⟨a, ha, hal, _⟩ := hwj
        exact hind i j hi hj (Ne.symm hji) hwi ⟨a, ha, hal⟩
      rw [hI.shared l hl i hi hoth, hlog i hi]
      have hstep : ∀ m, i < m → m ≤ P.n → P.seq O σ m l = eff O l (P.acts O σ i) (σ l) := by
        intro m
        induction m with
        | zero => intro hm; omega
        | succ m ih =>
          intro hm hmn
          rw [seq_succ, start_none h0']
          by_cases e : m = i
          · subst e
            rw [seq_same h0' fun j hj => hoth j (by omega) (by omega)]
          · rw [eff_same (acts_same (hoth m (by omega) e))]
            exact ih (by omega) (by omega)
      exact (hstep P.n hi (Nat.le_refl _)).symm
    · have hn : NeverWritten O P σ l := fun i hi hwi => hw ⟨i, hi, hwi⟩
      rw [hI.const l (Or.inr hn), seq_same h0' hn]
  · rw [hl] at haft
    obtain ⟨h0', hu, hk⟩ := hf.red l k hl
    obtain ⟨order, hp, he⟩ := haft
    rw [he, seq_red h0' hu (Nat.le_refl _), hI.const l (Or.inl (by rw [hl]; intro e; cases e))]
    have hmine : ∀ t ∈ order, t.mine l = (t.hist.flatMap fun i => ups l (P.acts O σ i)).foldl (O.ap k) (O.unit k) := by
      intro t ht
      have ht' := hp.mem_iff.1 ht
      have hTI := hI.thr t ht'
      rw [hTI.red l k hl, (hfin t ht').1]
      simp only [Option.toList_none, List.map_nil, List.append_nil]
      congr 1
      simp only [List.flatMap]
      congr 1
      exact List.map_congr_left fun i hi => by rw [hTI.fin i hi]
    rw [List.map_congr_left hmine]
    have : (order.map fun t => (t.hist.flatMap fun i => ups l (P.acts O σ i)).foldl (O.ap k) (O.unit k)) =
        ((order.map fun t => t.hist.flatMap fun i => ups l (P.acts O σ i)).map fun xs =>
          xs.foldl (O.ap k) (O.unit k)) := by
      rw [List.map_map]; rfl
    rw [this, foldl_parts hk]
    apply foldl_perm hk
    have e : (order.map fun t => t.hist.flatMap fun i => ups l (P.acts O σ i)).flatten =
        (order.flatMap (·.hist)).flatMap fun i => ups l (P.acts O σ i) := by
      rw [List.flatMap_assoc]; rfl
    rw [e]
    exact ((hp.flatMap_right _).trans hall).flatMap_right _
  · rw [hl] at haft
    obtain ⟨h0', hp⟩ := hf.priv l f true hl
    replace haft : τ l = if P.n = 0 then U.mem l else U.last l := haft
    by_cases hn : P.n = 0
    · rw [haft, if_pos hn, hn, hI.const l (Or.inl (by rw [hl]; intro e; cases e))]; rfl
    · rw [haft, if_neg hn]
      obtain ⟨m, hm⟩ : ∃ m, m + 1 = P.n := ⟨P.n - 1, by omega⟩
      obtain ⟨t, ht, hmt⟩ := List.mem_flatMap.1 (hall.mem_iff.2 (List.mem_range.2 (show m < P.n by omega)))
      obtain ⟨hA, hB⟩ := hI.last m hm ⟨t, ht, hmt⟩ l f hl
      rcases hp with ⟨rfl, hnw⟩ | ⟨_, hla⟩
      · rw [hB rfl hnw, seq_same h0' hnw]
      · rw [hA (hla rfl m hm), ← hm, seq_succ]
  · rw [hl] at haft
    rw [show τ l = U.mem l from haft, hI.const l (Or.inr hnw), seq_same (hf.priv l _ _ hl).1 hnw]

end AstDep
end Tsar
