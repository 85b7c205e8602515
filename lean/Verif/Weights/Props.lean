import Verif.Weights.Model
import Mathlib.Tactic.Common

/-!
# Properties C139, C140, C141: numbers of executions, weights of functions and loops
-/

namespace Tsar.Weights

/-! ### Numbers of executions -/

/-- Specification: a segment starts at a position or before it. -/
def Before (s : Seg) (p : Pos) : Prop := s.line < p.1 ∨ (s.line = p.1 ∧ s.col ≤ p.2)

/-- Segments are sorted, it is a contract of `CoverageData`. -/
def Sorted (xs : List Seg) : Prop := xs.Pairwise (fun a b => a.line < b.line ∨ (a.line = b.line ∧ a.col ≤ b.col))

/-- Specification: a number of executions is a counter of the last segment which starts at a position or before it. -/
def Count (xs : List Seg) (p : Option Pos) (c : Nat) : Prop :=
  (p = none ∧ c = 0) ∨
  ∃ q, p = some q ∧ (((∀ s ∈ xs, ¬ Before s q) ∧ c = 0) ∨
    ∃ pre s post, xs = pre ++ s :: post ∧ Before s q ∧ (∀ t ∈ post, ¬ Before t q) ∧ c = s.count)

theorem starts_iff (s : Seg) (p : Pos) : starts s p = true ↔ Before s p := by simp [starts, Before]

theorem before_sorted {xs pre post : List Seg} {s : Seg} {p : Pos} (h : Sorted xs) (e : xs = pre ++ s :: post)
    (hs : Before s p) : ∀ t ∈ pre, Before t p := by
  intro t ht
  subst e
  have := (List.pairwise_append.mp h).2.2 t ht s (by simp)
  unfold Before at *
  omega

theorem search_exact (p : Pos) : ∀ (n : Nat) (w pre post : List Seg) (s : Seg), w = pre ++ s :: post → Before s p →
    (∀ t ∈ pre, Before t p) → (∀ t ∈ post, ¬ Before t p) → w.length < n → search p n w = some s.count := by
  intro n
  induction n with
  | zero => intro w pre post s _ _ _ _ h; omega
  | succ n ih =>
    intro w pre post s e hs h1 h2 hn
    have hl : w.length = pre.length + (post.length + 1) := by rw [e]; simp
    simp only [search]
    split_ifs with hw
    · have hp : pre = [] := List.length_eq_zero_iff.mp (by omega)
      subst hp
      rw [e]; simp
    · have hh : w.length / 2 < w.length := by omega
      have h0 : 0 < w.length / 2 := by omega
      rw [List.getElem?_eq_getElem hh]
      simp only
      split_ifs with hb
      · rw [starts_iff] at hb
        have hle : w.length / 2 ≤ pre.length := by
          by_contra hc
          refine h2 _ ?_ hb
          have hget : w[w.length / 2]? = some w[w.length / 2] := List.getElem?_eq_getElem hh
          have hq : w[w.length / 2]? = (s :: post)[w.length / 2 - pre.length]? := by
            conv_lhs => rw [e]
            rw [List.getElem?_append_right (by rw [← e]; omega), ← e]
          rw [hq, show w.length / 2 - pre.length = (w.length / 2 - pre.length - 1) + 1 by omega,
            List.getElem?_cons_succ] at hget
          exact List.mem_of_getElem? hget
        refine ih _ (pre.drop (w.length / 2)) post s ?_ hs (fun t ht => h1 t (List.mem_of_mem_drop ht)) h2 ?_
        · conv_lhs => rw [e]
          rw [List.drop_append_of_le_length (by rw [← e]; exact hle), ← e]
        · rw [List.length_drop]; omega
      · have hle : pre.length < w.length / 2 := by
          by_contra hc
          apply hb
          rw [starts_iff]
          have hget : w[w.length / 2]? = some w[w.length / 2] := List.getElem?_eq_getElem hh
          have hq : w[w.length / 2]? = (pre ++ s :: post)[w.length / 2]? := by rw [← e]
          rcases Nat.lt_or_ge (w.length / 2) pre.length with hlt | hge
          · rw [List.getElem?_append_left hlt] at hq
            rw [hq] at hget
            exact h1 _ (List.mem_of_getElem? hget)
          · rw [List.getElem?_append_right hge, show w.length / 2 - pre.length = 0 by omega] at hq
            rw [hq] at hget
            simp only [List.getElem?_cons_zero, Option.some.injEq] at hget
            rw [← hget]; exact hs
        refine ih _ pre (post.take (w.length / 2 - pre.length - 1)) s ?_ hs h1
          (fun t ht => h2 t (List.mem_of_mem_take ht)) ?_
        · conv_lhs => rw [e]
          rw [List.take_append, ← e, List.take_of_length_le (by omega),
            show w.length / 2 - pre.length = (w.length / 2 - pre.length - 1) + 1 by omega]
          simp
        · rw [List.length_take]; omega

/-- There is the last segment which starts before a position. -/
theorem last_before (p : Pos) : ∀ (xs : List Seg), (∃ s ∈ xs, Before s p) →
    ∃ pre s post, xs = pre ++ s :: post ∧ Before s p ∧ ∀ t ∈ post, ¬ Before t p
  | [], h => by simp at h
  | x :: xs, h => by
    by_cases hx : ∃ s ∈ xs, Before s p
    · obtain ⟨pre, s, post, h1, h2, h3⟩ := last_before p xs hx
      exact ⟨x :: pre, s, post, by simp [h1], h2, h3⟩
    · obtain ⟨s, h1, h2⟩ := h
      rcases List.mem_cons.mp h1 with rfl | h1
      · exact ⟨[], s, xs, rfl, h2, fun t ht hb => hx ⟨t, ht, hb⟩⟩
      · exact absurd ⟨s, h1, h2⟩ hx

theorem executionCount_spec (xs : List Seg) (p : Option Pos) (c : Nat) (hs : Sorted xs) (h : Count xs p c) :
    executionCount xs p = some c := by
  rcases h with ⟨rfl, rfl⟩ | ⟨q, rfl, ⟨h, rfl⟩ | ⟨pre, s, post, e, h1, h2, rfl⟩⟩
  · rfl
  · cases xs with
    | nil => rfl
    | cons x xs =>
      have := h x (by simp)
      rw [← starts_iff] at this
      simp [executionCount, this]
  · have hx : ∀ x ys, xs = x :: ys → starts x q = true := by
      intro x ys hxy
      rw [starts_iff]
      cases pre with
      | nil => rw [e] at hxy; simp at hxy; rw [← hxy.1]; exact h1
      | cons y pre =>
        have := before_sorted hs e h1 y (by simp)
        rw [e] at hxy; simp at hxy; rw [← hxy.1]; exact this
    cases hxs : xs with
    | nil => rw [hxs] at e; simp at e
    | cons x ys =>
      simp only [executionCount]
      rw [if_pos (hx x ys hxs), ← hxs]
      exact search_exact q _ xs pre post s e h1 (before_sorted hs e h1) h2 (by omega)

/-- C139. A number of executions of an instruction is a counter of the last segment which starts at its position or
before it, it is zero if there is no such segment. The search always ends and never leaves the list. -/
theorem executionCount_iff (xs : List Seg) (p : Option Pos) (c : Nat) (hs : Sorted xs) :
    executionCount xs p = some c ↔ Count xs p c := by
  refine ⟨fun h => ?_, executionCount_spec xs p c hs⟩
  have hex : ∃ c, Count xs p c := by
    cases p with
    | none => exact ⟨0, .inl ⟨rfl, rfl⟩⟩
    | some q =>
      by_cases hb : ∃ s ∈ xs, Before s q
      · obtain ⟨pre, s, post, h1, h2, h3⟩ := last_before q xs hb
        exact ⟨s.count, .inr ⟨q, rfl, .inr ⟨pre, s, post, h1, h2, h3, rfl⟩⟩⟩
      · exact ⟨0, .inr ⟨q, rfl, .inl ⟨fun s h1 h2 => hb ⟨s, h1, h2⟩, rfl⟩⟩⟩
  obtain ⟨d, hd⟩ := hex
  have := executionCount_spec xs p d hs hd
  rw [h] at this
  cases this
  exact hd

theorem executionCount_total (xs : List Seg) (p : Option Pos) (hs : Sorted xs) : ∃ c, executionCount xs p = some c := by
  cases p with
  | none => exact ⟨0, rfl⟩
  | some q =>
    by_cases hb : ∃ s ∈ xs, Before s q
    · obtain ⟨pre, s, post, h1, h2, h3⟩ := last_before q xs hb
      exact ⟨_, executionCount_spec xs _ s.count hs (.inr ⟨q, rfl, .inr ⟨pre, s, post, h1, h2, h3, rfl⟩⟩)⟩
    · exact ⟨_, executionCount_spec xs _ 0 hs (.inr ⟨q, rfl, .inl ⟨fun s h1 h2 => hb ⟨s, h1, h2⟩, rfl⟩⟩)⟩

def exSegs : List Seg := [⟨1, 1, 1⟩, ⟨2, 5, 10⟩, ⟨3, 1, 20⟩, ⟨3, 9, 10⟩, ⟨5, 2, 1⟩]

example : Sorted exSegs ∧ executionCount exSegs (some (3, 4)) = some 20 ∧ executionCount exSegs (some (4, 1)) = some 10 ∧
    executionCount exSegs (some (9, 1)) = some 1 ∧ executionCount exSegs (some (1, 0)) = some 0 :=
  ⟨by simp [Sorted, exSegs], by decide, by decide, by decide, by decide⟩

/-! ### Functions -/

/-- Specification: a number of executions of an instruction (see `executionCount_iff`). -/
def times (xs : List Seg) (i : Inst) : Nat := (executionCount xs i.pos).getD 0

/-- Specification: a price of a call if prices of functions are known. -/
def price (o : Opts) (fs : Fn → Func) (W : Fn → Option Nat) (i : Inst) : Nat :=
  match i.callee with
  | .none => 0
  | .indirect => o.unknown
  | .direct g => (W g).getD (if (fs g).builtin then o.unknownBuiltin else o.unknown)

/-- Specification: a sum over instructions. -/
def sumOf (o : Opts) (fs : Fn → Func) (W : Fn → Option Nat) (xs : List Seg) (is : List Inst) : Nat :=
  (is.map (fun i => times xs i * (i.cost + price o fs W i))).sum

/-- Functions which are not recursive, in the order of processing. -/
def order (cs : List (List Fn × Bool)) : List Fn := (cs.filter (fun c => !c.2)).flatMap Prod.fst

/-- Specification: there are data about a function. -/
def Measured (cs : List (List Fn × Bool)) (fs : Fn → Func) (f : Fn) (r : Rec) : Prop :=
  f ∈ order cs ∧ (fs f).defined = true ∧ (fs f).profile = some r

/-- Contract of `scc_iterator`: callees of functions which are not recursive are processed before callers. -/
def PostOrder (fs : Fn → Func) : List Fn → Prop
  | [] => True
  | f :: l => f ∉ l ∧ (∀ i ∈ (fs f).insts, ∀ g, i.callee = .direct g → g ∉ f :: l) ∧
    (∀ q ∈ (fs f).loops, ∀ i ∈ q.insts, i ∈ (fs f).insts) ∧ PostOrder fs l

theorem comp_append (o : Opts) (fs : Fn → Func) : ∀ (a b : List Fn) (s : State),
    comp o fs (a ++ b) s = (comp o fs a s).bind (comp o fs b)
  | [], _, _ => rfl
  | f :: a, b, s => by
    simp only [List.cons_append, comp]
    cases func o fs f s with
    | none => rfl
    | some t => exact comp_append o fs a b t

theorem run_comp (o : Opts) (fs : Fn → Func) : ∀ (cs : List (List Fn × Bool)) (s : State),
    run o fs cs s = comp o fs (order cs) s
  | [], _ => rfl
  | (c, true) :: cs, s => by
    simp only [run, if_true]
    rw [run_comp o fs cs s]
    simp [order]
  | (c, false) :: cs, s => by
    have : order ((c, false) :: cs) = c ++ order cs := by simp [order]
    rw [this, comp_append]
    simp only [run, Bool.false_eq_true, if_false]
    cases comp o fs c s with
    | none => rfl
    | some t => exact run_comp o fs cs t

theorem calleeWeight_eq (o : Opts) (fs : Fn → Func) (m : Self) (i : Inst) : calleeWeight o fs m i.callee = price o fs m i := by
  unfold price calleeWeight
  cases i.callee with
  | none => rfl
  | indirect => rfl
  | direct g => cases h : m g <;> simp [h]

theorem total_sum (o : Opts) (fs : Fn → Func) (m : Self) (xs : List Seg) : ∀ (is : List Inst) (t : Nat),
    total o fs m xs is = some t → t = sumOf o fs m xs is
  | [], t, h => by simp [total] at h; subst h; rfl
  | i :: is, t, h => by
    simp only [total, weight] at h
    cases he : executionCount xs i.pos with
    | none => simp [he] at h
    | some c =>
      cases ht : total o fs m xs is with
      | none => simp [he, ht] at h
      | some u =>
        simp only [he, ht, Option.some.injEq] at h
        have := total_sum o fs m xs is u ht
        simp only [sumOf, List.map_cons, List.sum_cons, times, he, Option.getD_some] at this ⊢
        rw [← h, this, calleeWeight_eq, Nat.mul_comm]

theorem total_some (o : Opts) (fs : Fn → Func) (m : Self) (xs : List Seg) (hs : Sorted xs) : ∀ (is : List Inst),
    total o fs m xs is = some (sumOf o fs m xs is) := by
  have key : ∀ is : List Inst, ∃ t, total o fs m xs is = some t := by
    intro is
    induction is with
    | nil => exact ⟨0, rfl⟩
    | cons i is ih =>
      obtain ⟨t, ht⟩ := ih
      obtain ⟨c, hc⟩ := executionCount_total xs i.pos hs
      exact ⟨(i.cost + calleeWeight o fs m i.callee) * c + t, by simp only [total, weight, hc, ht]⟩
  intro is
  obtain ⟨t, ht⟩ := key is
  rw [ht, total_sum o fs m xs is t ht]

theorem sumOf_congr (o : Opts) (fs : Fn → Func) (W W' : Fn → Option Nat) (xs : List Seg) (is : List Inst)
    (h : ∀ i ∈ is, ∀ g, i.callee = .direct g → W g = W' g) : sumOf o fs W xs is = sumOf o fs W' xs is := by
  unfold sumOf
  congr 1
  apply List.map_congr_left
  intro i hi
  have : price o fs W i = price o fs W' i := by
    unfold price
    cases hc : i.callee with
    | none => rfl
    | indirect => rfl
    | direct g => simp only; rw [h i hi g hc]
  rw [this]

/-- What is done for a single function. -/
theorem func_spec (o : Opts) (fs : Fn → Func) (f : Fn) (s s' : State) (h : func o fs f s = some s') :
    (∀ g, g ≠ f → s'.self g = s.self g ∧ s'.total g = s.total g) ∧
    (∀ r, (fs f).defined = true → (fs f).profile = some r → s.self f = none → s.total f = none →
      s'.total f = some (sumOf o fs s.self r.segs (fs f).insts) ∧
      s'.self f = some (sumOf o fs s.self r.segs (fs f).insts / assumed r.calls) ∧
      loops o fs s.self r.segs (assumed r.calls) (fs f).loops s.lm = some s'.lm ∧ assumed r.calls ≠ 0) ∧
    ((∀ r, ¬ ((fs f).defined = true ∧ (fs f).profile = some r)) → s' = s) := by
  unfold func at h
  cases hd : (fs f).defined with
  | false =>
    simp only [hd, Bool.not_false, if_true, Option.some.injEq] at h
    subst h
    exact ⟨fun _ _ => ⟨rfl, rfl⟩, fun r h => (by cases h), fun _ => rfl⟩
  | true =>
    simp only [hd, Bool.not_true, Bool.false_eq_true, if_false] at h
    cases hp : (fs f).profile with
    | none =>
      simp only [hp, Option.some.injEq] at h
      subst h
      exact ⟨fun _ _ => ⟨rfl, rfl⟩, fun r _ h => (by simp at h), fun _ => rfl⟩
    | some r =>
      simp only [hp] at h
      cases ht : total o fs s.self r.segs (fs f).insts with
      | none => simp [ht] at h
      | some t =>
        simp only [ht, divide] at h
        split_ifs at h with ha
        simp only at h
        cases hl : loops o fs s.self r.segs (assumed r.calls) (fs f).loops s.lm with
        | none => simp [hl] at h
        | some lm =>
          simp only [hl, Option.some.injEq] at h
          subst h
          have he := total_sum o fs s.self r.segs _ t ht
          refine ⟨fun g hg => by simp [hg], fun r' _ hr h1 h2 => ?_, fun hn => absurd ⟨rfl, rfl⟩ (hn r)⟩
          simp only [Option.some.injEq] at hr
          subst hr
          simp [h1, h2, ← he, hl, ha]

theorem comp_frame (o : Opts) (fs : Fn → Func) : ∀ (l : List Fn) (s s' : State), comp o fs l s = some s' →
    ∀ g, g ∉ l → s'.self g = s.self g ∧ s'.total g = s.total g
  | [], s, s', h, _, _ => by simp [comp] at h; subst h; exact ⟨rfl, rfl⟩
  | f :: l, s, s', h, g, hg => by
    simp only [comp] at h
    cases hf : func o fs f s with
    | none => simp [hf] at h
    | some t =>
      simp only [hf, Option.bind_some] at h
      simp only [List.mem_cons, not_or] at hg
      have h1 := (func_spec o fs f s t hf).1 g hg.1
      have h2 := comp_frame o fs l t s' h g hg.2
      exact ⟨h2.1.trans h1.1, h2.2.trans h1.2⟩

theorem comp_exact (o : Opts) (fs : Fn → Func) : ∀ (l : List Fn) (s s' : State), comp o fs l s = some s' →
    PostOrder fs l → (∀ g ∈ l, s.self g = none ∧ s.total g = none) → ∀ f ∈ l,
    (∀ r, (fs f).defined = true → (fs f).profile = some r →
      s'.total f = some (sumOf o fs s'.self r.segs (fs f).insts) ∧
      s'.self f = some (sumOf o fs s'.self r.segs (fs f).insts / assumed r.calls)) ∧
    ((∀ r, ¬ ((fs f).defined = true ∧ (fs f).profile = some r)) → s'.self f = none ∧ s'.total f = none)
  | [], _, _, _, _, _, f, hf => by simp at hf
  | g :: l, s, s', h, hp, hn, f, hf => by
    simp only [comp] at h
    cases ht : func o fs g s with
    | none => simp [ht] at h
    | some t =>
      simp only [ht, Option.bind_some] at h
      obtain ⟨p1, p2, p3, p4⟩ := hp
      obtain ⟨q1, q2, q3⟩ := func_spec o fs g s t ht
      rcases List.mem_cons.mp hf with rfl | hf
      · have hfr := comp_frame o fs l t s' h f p1
        constructor
        · intro r h1 h2
          obtain ⟨k1, k2, _⟩ := q2 r h1 h2 (hn f (by simp)).1 (hn f (by simp)).2
          have hc : sumOf o fs s.self r.segs (fs f).insts = sumOf o fs s'.self r.segs (fs f).insts := by
            apply sumOf_congr
            intro i hi g hg
            have := p2 i hi g hg
            simp only [List.mem_cons, not_or] at this
            rw [(comp_frame o fs l t s' h g this.2).1, (q1 g this.1).1]
          rw [← hc]
          exact ⟨hfr.2.trans k1, hfr.1.trans k2⟩
        · intro hno
          have := q3 hno
          subst this
          exact ⟨hfr.1.trans (hn f (by simp)).1, hfr.2.trans (hn f (by simp)).2⟩
      · refine comp_exact o fs l t s' h p4 (fun x hx => ?_) f hf
        have hxg : x ≠ g := by rintro rfl; exact p1 hx
        rw [(q1 x hxg).1, (q1 x hxg).2]
        exact hn x (by simp [hx])

/-- C140. A total weight of a function is a sum over its instructions: a number of executions is multiplied by a cost
of an instruction together with a weight of a callee (its own estimation or an option). A weight of a single call is an
average over all calls. There are no weights of recursive functions and functions without data. -/
theorem weights_exact (o : Opts) (fs : Fn → Func) (cs : List (List Fn × Bool)) (s : State)
    (hp : PostOrder fs (order cs)) (hc : ∀ f r, Measured cs fs f r → r.calls < 2 ^ 32)
    (h : run o fs cs init = some s) (f : Fn) :
    (∀ r, Measured cs fs f r → s.total f = some (sumOf o fs s.self r.segs (fs f).insts) ∧
      s.self f = some (sumOf o fs s.self r.segs (fs f).insts / max r.calls 1)) ∧
    ((∀ r, ¬ Measured cs fs f r) → s.total f = none ∧ s.self f = none) := by
  rw [run_comp] at h
  constructor
  · intro r hm
    have hlt := hc f r hm
    obtain ⟨h1, h2, h3⟩ := hm
    have := (comp_exact o fs _ init s h hp (fun _ _ => ⟨rfl, rfl⟩) f h1).1 r h2 h3
    have ha : assumed r.calls = max r.calls 1 := by
      unfold assumed
      split_ifs with h0
      · rw [Nat.mod_eq_of_lt hlt]; omega
      · omega
    rw [ha] at this
    exact this
  · intro hno
    by_cases hm : f ∈ order cs
    · have := (comp_exact o fs _ init s h hp (fun _ _ => ⟨rfl, rfl⟩) f hm).2 (fun r hr => hno r ⟨hm, hr.1, hr.2⟩)
      exact ⟨this.2, this.1⟩
    · have := comp_frame o fs _ init s h f hm
      exact ⟨this.2, this.1⟩

theorem unique_aux (o : Opts) (fs : Fn → Func) (W W' : Fn → Option Nat) : ∀ (l : List Fn), PostOrder fs l →
    (∀ g, g ∉ l → W g = W' g) →
    (∀ f ∈ l, ∀ r, (fs f).defined = true → (fs f).profile = some r →
      W f = some (sumOf o fs W r.segs (fs f).insts / max r.calls 1) ∧
      W' f = some (sumOf o fs W' r.segs (fs f).insts / max r.calls 1)) →
    (∀ f ∈ l, (∀ r, ¬ ((fs f).defined = true ∧ (fs f).profile = some r)) → W f = W' f) → ∀ f, W f = W' f
  | [], _, h, _, _, f => h f (by simp)
  | g :: l, hp, h, he, hn, f => by
    obtain ⟨p1, p2, p3, p4⟩ := hp
    refine unique_aux o fs W W' l p4 (fun x hx => ?_) (fun f hf => he f (by simp [hf])) (fun f hf => hn f (by simp [hf])) f
    by_cases hxg : x = g
    · subst hxg
      by_cases hm : ∃ r, (fs x).defined = true ∧ (fs x).profile = some r
      · obtain ⟨r, h1, h2⟩ := hm
        obtain ⟨k1, k2⟩ := he x (by simp) r h1 h2
        rw [k1, k2, sumOf_congr o fs W W' r.segs (fs x).insts (fun i hi g hg => h g (p2 i hi g hg))]
      · exact hn x (by simp) (fun r hr => hm ⟨r, hr⟩)
    · exact h x (by simp [hxg, hx])

/-- Weights do not depend on the order of functions. -/
theorem weights_order (o : Opts) (fs : Fn → Func) (cs cs' : List (List Fn × Bool)) (s s' : State)
    (hp : PostOrder fs (order cs)) (hp' : PostOrder fs (order cs')) (hsame : ∀ f, f ∈ order cs ↔ f ∈ order cs')
    (hc : ∀ f r, Measured cs fs f r → r.calls < 2 ^ 32)
    (h : run o fs cs init = some s) (h' : run o fs cs' init = some s') : s.self = s'.self ∧ s.total = s'.total := by
  have hc' : ∀ f r, Measured cs' fs f r → r.calls < 2 ^ 32 := fun f r hm => hc f r ⟨(hsame f).mpr hm.1, hm.2⟩
  have e := weights_exact o fs cs s hp hc h
  have e' := weights_exact o fs cs' s' hp' hc' h'
  have hself : ∀ f, s.self f = s'.self f := by
    refine unique_aux o fs s.self s'.self (order cs) hp (fun g hg => ?_) (fun f hf r h1 h2 => ?_) (fun f hf hn => ?_)
    · rw [((e g).2 (fun r hr => hg hr.1)).2, ((e' g).2 (fun r hr => hg ((hsame g).mpr hr.1))).2]
    · exact ⟨((e f).1 r ⟨hf, h1, h2⟩).2, ((e' f).1 r ⟨(hsame f).mp hf, h1, h2⟩).2⟩
    · rw [((e f).2 (fun r hr => hn r hr.2)).2, ((e' f).2 (fun r hr => hn r hr.2)).2]
  refine ⟨funext hself, funext fun f => ?_⟩
  by_cases hm : ∃ r, Measured cs fs f r
  · obtain ⟨r, hm⟩ := hm
    rw [((e f).1 r hm).1, ((e' f).1 r ⟨(hsame f).mp hm.1, hm.2⟩).1, funext hself]
  · rw [((e f).2 (fun r hr => hm ⟨r, hr⟩)).1, ((e' f).2 (fun r hr => hm ⟨r, (hsame f).mpr hr.1, hr.2⟩)).1]

/-- A function 1 is called from a function 0, a function 2 is recursive. -/
def exFs : Fn → Func := fun f =>
  if f = 0 then ⟨true, false, some ⟨2, [⟨1, 1, 2⟩, ⟨2, 1, 10⟩, ⟨3, 1, 50⟩]⟩,
    [⟨some (1, 2), 3, .none⟩, ⟨some (2, 2), 1, .direct 1⟩, ⟨some (3, 2), 1, .direct 2⟩, ⟨none, 7, .indirect⟩],
    [⟨some 5, none, [⟨some (2, 2), 1, .direct 1⟩], [⟨some (2, 2), 1, .direct 1⟩, ⟨some (3, 2), 1, .direct 2⟩]⟩,
     ⟨some 6, some (some 5), [⟨none, 7, .indirect⟩, ⟨some (3, 2), 1, .direct 2⟩], [⟨some (3, 2), 1, .direct 2⟩]⟩]⟩
  else if f = 1 then ⟨true, false, some ⟨10, [⟨7, 1, 10⟩]⟩, [⟨some (7, 1), 4, .none⟩], []⟩
  else ⟨true, false, some ⟨1, []⟩, [], []⟩

def exCs : List (List Fn × Bool) := [([2], true), ([1], false), ([0], false)]

example : ((run ⟨100, 10⟩ exFs exCs init).map fun s => (s.total 0, s.self 0, s.total 1, s.self 1, s.self 2)) =
    some (some 5106, some 2553, some 40, some 4, none) := by decide

example : ((run ⟨100, 10⟩ exFs exCs init).map fun s => (s.lm 5, s.lm 6)) =
    some (some ⟨5100, 10, 2550, 5⟩, some ⟨5050, 50, 505, 5⟩) := by decide

example : PostOrder exFs (order exCs) ∧ Measured exCs exFs 0 ⟨2, [⟨1, 1, 2⟩, ⟨2, 1, 10⟩, ⟨3, 1, 50⟩]⟩ := by
  refine ⟨⟨by decide, ?_, ?_, by decide, ?_, ?_, trivial⟩, by decide, by decide, by decide⟩
  · intro i hi g hg
    simp only [exFs, if_true, List.mem_singleton, show (1 : Nat) ≠ 0 by decide, if_false] at hi
    subst hi
    cases hg
  · intro q hq; simp [exFs] at hq
  · intro i hi g hg
    simp only [exFs, if_true, List.mem_cons, List.not_mem_nil, or_false] at hi
    rcases hi with rfl | rfl | rfl | rfl <;> simp at hg <;> subst hg <;> decide
  · intro q hq i hi
    simp only [exFs, if_true, List.mem_cons, List.not_mem_nil, or_false] at hq
    rcases hq with rfl | rfl <;> simp only [List.mem_cons, List.not_mem_nil, or_false] at hi
    · rcases hi with rfl | rfl <;> simp [exFs]
    · subst hi; simp [exFs]

/-! ### Loops -/

/-- Specification: a number of iterations of a loop is a number of executions of the first executed instruction of
a header. -/
def headCount (xs : List Seg) (is : List Inst) : Nat := ((is.map (times xs)).find? (fun c => 0 < c)).getD 0

theorem loopCount_eq (xs : List Seg) : ∀ (is : List Inst) (c : Nat), loopCount xs is = some c → c = headCount xs is
  | [], c, h => by simp [loopCount] at h; subst h; rfl
  | i :: is, c, h => by
    simp only [loopCount] at h
    cases he : executionCount xs i.pos with
    | none => simp [he] at h
    | some d =>
      simp only [he] at h
      split_ifs at h with hd
      · simp only [Option.some.injEq] at h
        have h0 : 0 < c := by omega
        simp [headCount, times, he, h, h0]
      · have := loopCount_eq xs is c h
        have h0 : d = 0 := by omega
        rw [this]
        simp [headCount, times, he, h0]

theorem loopCount_some (xs : List Seg) (hs : Sorted xs) (is : List Inst) : loopCount xs is = some (headCount xs is) := by
  have key : ∀ is : List Inst, ∃ c, loopCount xs is = some c := by
    intro is
    induction is with
    | nil => exact ⟨0, rfl⟩
    | cons i is ih =>
      obtain ⟨c, hc⟩ := executionCount_total xs i.pos hs
      simp only [loopCount, hc]
      split_ifs
      · exact ⟨c, rfl⟩
      · exact ih
  obtain ⟨c, hc⟩ := key is
  rw [hc, loopCount_eq xs is c hc]

/-- Specification: weights of a loop. They are averages over iterations of a parent loop or over calls of a function. -/
def LoopOk (o : Opts) (fs : Fn → Func) (W : Fn → Option Nat) (xs : List Seg) (calls : Nat) (lm : LMap) (l : Lp)
    (i : Nat) : Prop :=
  ∃ w P, lm i = some w ∧ w.total = sumOf o fs W xs l.insts ∧ w.iters = headCount xs l.header ∧ P ≠ 0 ∧
    (l.parent = none → P = calls) ∧
    (∀ p, l.parent = some (some p) → ∃ u, lm p = some u ∧ P = u.iters) ∧
    w.self = w.total / P ∧ w.selfIters = w.iters / P

/-- Parents are before children in the list of loops (a contract of `LoopInfo`). -/
def Nest : List Nat → List Lp → Prop
  | _, [] => True
  | seen, l :: ls => (∀ p, l.parent = some (some p) → p ∈ seen) ∧ Nest (l.id.toList ++ seen) ls

/-- Identifiers of loops. -/
def ids (ls : List Lp) : List Nat := ls.filterMap Lp.id

theorem loops_mono (o : Opts) (fs : Fn → Func) (m : Self) (xs : List Seg) (e : Nat) : ∀ (ls : List Lp) (lm lm' : LMap),
    loops o fs m xs e ls lm = some lm' → ∀ j w, lm j = some w → lm' j = some w
  | [], lm, lm', h, j, w, hw => by simp [loops] at h; subst h; exact hw
  | l :: ls, lm, lm', h, j, w, hw => by
    simp only [loops] at h
    cases hi : l.id with
    | none => rw [hi] at h; exact loops_mono o fs m xs e ls lm lm' h j w hw
    | some i =>
      simp only [hi] at h
      cases hl : loopWeight o fs m xs e lm l with
      | none => simp [hl] at h
      | some v =>
        simp only [hl] at h
        refine loops_mono o fs m xs e ls _ lm' h j w ?_
        split_ifs with hj
        · subst hj; simp [hw]
        · exact hw

theorem loops_frame (o : Opts) (fs : Fn → Func) (m : Self) (xs : List Seg) (e : Nat) : ∀ (ls : List Lp) (lm lm' : LMap),
    loops o fs m xs e ls lm = some lm' → ∀ j, j ∉ ids ls → lm' j = lm j
  | [], lm, lm', h, j, _ => by simp [loops] at h; subst h; rfl
  | l :: ls, lm, lm', h, j, hj => by
    simp only [loops] at h
    cases hi : l.id with
    | none => rw [hi] at h; exact loops_frame o fs m xs e ls lm lm' h j (by simpa [ids, hi] using hj)
    | some i =>
      simp only [hi] at h
      cases hl : loopWeight o fs m xs e lm l with
      | none => simp [hl] at h
      | some v =>
        simp only [hl] at h
        simp only [ids, List.filterMap_cons, hi, List.mem_cons, not_or] at hj
        rw [loops_frame o fs m xs e ls _ lm' h j hj.2]
        simp [hj.1]

theorem loops_exact (o : Opts) (fs : Fn → Func) (m : Self) (xs : List Seg) (e : Nat) : ∀ (ls : List Lp) (seen : List Nat)
    (lm lm' : LMap), loops o fs m xs e ls lm = some lm' → Nest seen ls → (∀ p ∈ seen, ∃ w, lm p = some w) →
    (ids ls).Nodup → (∀ i ∈ ids ls, lm i = none) → ∀ l ∈ ls, ∀ i, l.id = some i → LoopOk o fs m xs e lm' l i
  | [], _, _, _, _, _, _, _, _, l, hl => by simp at hl
  | q :: ls, seen, lm, lm', h, hn, hse, hd, hno, l, hl => by
    intro i hi
    obtain ⟨n1, n2⟩ := hn
    simp only [loops] at h
    cases hq : q.id with
    | none =>
      rw [hq] at h n2
      have hids : ids (q :: ls) = ids ls := by simp [ids, hq]
      rw [hids] at hd hno
      rcases List.mem_cons.mp hl with rfl | hl
      · rw [hq] at hi; cases hi
      · exact loops_exact o fs m xs e ls seen lm lm' h n2 hse hd hno l hl i hi
    | some k =>
      simp only [hq] at h n2
      have hids : ids (q :: ls) = k :: ids ls := by simp [ids, hq]
      rw [hids] at hd hno
      cases hw : loopWeight o fs m xs e lm q with
      | none => simp [hw] at h
      | some w =>
        simp only [hw, hno k (by simp), Option.getD_none] at h
        rcases List.mem_cons.mp hl with rfl | hl
        · have : i = k := by rw [hq] at hi; exact (Option.some.inj hi).symm
          subst this
          have hmono := loops_mono o fs m xs e ls _ lm' h
          unfold loopWeight at hw
          cases ht : total o fs m xs l.insts with
          | none => simp [ht] at hw
          | some t =>
            cases hc : loopCount xs l.header with
            | none => simp [ht, hc] at hw
            | some c =>
              simp only [ht, hc, divide] at hw
              split_ifs at hw with hz
              simp only [Option.some.injEq] at hw
              subst hw
              refine ⟨_, parentIters e lm l, hmono i ⟨t, c, t / parentIters e lm l, c / parentIters e lm l⟩ (by simp),
                total_sum o fs m xs _ t ht, loopCount_eq xs _ c hc, hz, fun hp => ?_, fun p hp => ?_, rfl, rfl⟩
              · simp [parentIters, hp]
              · obtain ⟨u, hu⟩ := hse p (n1 p hp)
                have hpi : p ≠ i := by
                  rintro rfl
                  rw [hno p (by simp)] at hu; cases hu
                exact ⟨u, hmono p u (by simp [hpi, hu]), by simp [parentIters, hp, hu]⟩
        · rw [List.nodup_cons] at hd
          refine loops_exact o fs m xs e ls _ _ lm' h n2 (fun p hp => ?_) hd.2 (fun j hj => ?_) l hl i hi
          · simp only [Option.toList_some, List.singleton_append, List.mem_cons] at hp
            split_ifs with hpk
            · exact ⟨w, rfl⟩
            · rcases hp with hp | hp
              · exact absurd hp hpk
              · exact hse p hp
          · have : j ≠ k := by rintro rfl; exact hd.1 hj
            simp only [this, if_false]
            exact hno j (by simp [hj])

theorem loopOk_congr (o : Opts) (fs : Fn → Func) (W W' : Fn → Option Nat) (xs : List Seg) (e : Nat) (lm lm' : LMap)
    (l : Lp) (i : Nat) (hW : ∀ i ∈ l.insts, ∀ g, i.callee = .direct g → W g = W' g)
    (hm : ∀ j w, lm j = some w → lm' j = some w) (h : LoopOk o fs W xs e lm l i) : LoopOk o fs W' xs e lm' l i := by
  obtain ⟨w, P, h1, h2, h3, h4, h5, h6, h7⟩ := h
  refine ⟨w, P, hm i w h1, by rw [h2]; exact sumOf_congr o fs W W' xs _ hW, h3, h4, h5, fun p hp => ?_, h7⟩
  obtain ⟨u, hu, hP⟩ := h6 p hp
  exact ⟨u, hm p u hu, hP⟩

theorem func_mono (o : Opts) (fs : Fn → Func) (f : Fn) (s s' : State) (h : func o fs f s = some s') :
    (∀ j w, s.lm j = some w → s'.lm j = some w) ∧ (∀ j, j ∉ ids (fs f).loops → s'.lm j = s.lm j) := by
  unfold func at h
  split_ifs at h with hd
  · simp only [Option.some.injEq] at h; subst h; exact ⟨fun _ _ h => h, fun _ _ => rfl⟩
  · cases hp : (fs f).profile with
    | none => simp only [hp, Option.some.injEq] at h; subst h; exact ⟨fun _ _ h => h, fun _ _ => rfl⟩
    | some r =>
      simp only [hp] at h
      cases ht : total o fs s.self r.segs (fs f).insts with
      | none => simp [ht] at h
      | some t =>
        simp only [ht] at h
        cases hdv : divide t (assumed r.calls) with
        | none => simp [hdv] at h
        | some w =>
          simp only [hdv] at h
          cases hl : loops o fs s.self r.segs (assumed r.calls) (fs f).loops s.lm with
          | none => simp [hl] at h
          | some lm =>
            simp only [hl, Option.some.injEq] at h
            subst h
            exact ⟨loops_mono o fs _ _ _ _ _ _ hl, loops_frame o fs _ _ _ _ _ _ hl⟩

theorem comp_mono (o : Opts) (fs : Fn → Func) : ∀ (l : List Fn) (s s' : State), comp o fs l s = some s' →
    ∀ j w, s.lm j = some w → s'.lm j = some w
  | [], s, s', h, j, w, hw => by simp [comp] at h; subst h; exact hw
  | f :: l, s, s', h, j, w, hw => by
    simp only [comp] at h
    cases hf : func o fs f s with
    | none => simp [hf] at h
    | some t =>
      simp only [hf, Option.bind_some] at h
      exact comp_mono o fs l t s' h j w ((func_mono o fs f s t hf).1 j w hw)

/-- Identifiers of loops of functions. -/
def allIds (fs : Fn → Func) (l : List Fn) : List Nat := l.flatMap (fun f => ids (fs f).loops)

theorem comp_loops (o : Opts) (fs : Fn → Func) : ∀ (l : List Fn) (s s' : State), comp o fs l s = some s' →
    PostOrder fs l → (∀ g ∈ l, s.self g = none ∧ s.total g = none) → (allIds fs l).Nodup →
    (∀ i ∈ allIds fs l, s.lm i = none) → (∀ f ∈ l, Nest [] (fs f).loops) → ∀ f ∈ l, ∀ r, (fs f).defined = true →
    (fs f).profile = some r → ∀ q ∈ (fs f).loops, ∀ i, q.id = some i →
    LoopOk o fs s'.self r.segs (assumed r.calls) s'.lm q i
  | [], _, _, _, _, _, _, _, _, f, hf => by simp at hf
  | g :: l, s, s', h, hp, hn, hd, hno, hnest, f, hf => by
    intro r h1 h2 q hq i hi
    simp only [comp] at h
    cases ht : func o fs g s with
    | none => simp [ht] at h
    | some t =>
      simp only [ht, Option.bind_some] at h
      obtain ⟨p1, p2, p3, p4⟩ := hp
      obtain ⟨q1, q2, q3⟩ := func_spec o fs g s t ht
      have hall : allIds fs (g :: l) = ids (fs g).loops ++ allIds fs l := by simp [allIds]
      rw [hall] at hd hno
      obtain ⟨d1, d2, d3⟩ := List.nodup_append.mp hd
      rcases List.mem_cons.mp hf with rfl | hf
      · obtain ⟨_, _, k3, _⟩ := q2 r h1 h2 (hn f (by simp)).1 (hn f (by simp)).2
        have hok := loops_exact o fs _ _ _ _ [] _ _ k3 (hnest f (by simp)) (fun p hp => by simp at hp) d1
          (fun i hi => hno i (by simp [hi])) q hq i hi
        refine loopOk_congr o fs _ _ _ _ _ _ q i (fun x hx g hg => ?_) (comp_mono o fs l t s' h) hok
        have := p2 x (p3 q hq x hx) g hg
        simp only [List.mem_cons, not_or] at this
        rw [(comp_frame o fs l t s' h g this.2).1, (q1 g this.1).1]
      · refine comp_loops o fs l t s' h p4 (fun x hx => ?_) d2 (fun j hj => ?_) (fun x hx => hnest x (by simp [hx]))
          f hf r h1 h2 q hq i hi
        · have hxg : x ≠ g := by rintro rfl; exact p1 hx
          rw [(q1 x hxg).1, (q1 x hxg).2]
          exact hn x (by simp [hx])
        · rw [(func_mono o fs g s t ht).2 j (fun hj' => d3 j hj' j hj rfl)]
          exact hno j (by simp [hj])

/-- C141 (a part). If the analysis ends then weights of each loop with an identifier are averages over iterations of
a parent loop (or calls of a function) of what is executed inside the loop. Nothing is claimed about a loop if its parent
has no identifier, see `parent_fails`. -/
theorem loops_partial (o : Opts) (fs : Fn → Func) (cs : List (List Fn × Bool)) (s : State)
    (hp : PostOrder fs (order cs)) (hid : (allIds fs (order cs)).Nodup) (hnest : ∀ f ∈ order cs, Nest [] (fs f).loops)
    (hc : ∀ f r, Measured cs fs f r → r.calls < 2 ^ 32) (h : run o fs cs init = some s) (f : Fn) (r : Rec)
    (hm : Measured cs fs f r) (q : Lp) (hq : q ∈ (fs f).loops) (i : Nat) (hi : q.id = some i) :
    LoopOk o fs s.self r.segs (max r.calls 1) s.lm q i := by
  rw [run_comp] at h
  have hlt := hc f r hm
  have ha : assumed r.calls = max r.calls 1 := by
    unfold assumed
    split_ifs with h0
    · rw [Nat.mod_eq_of_lt hlt]; omega
    · omega
  rw [← ha]
  exact comp_loops o fs _ init s h hp (fun _ _ => ⟨rfl, rfl⟩) hid (fun _ _ => rfl) hnest f hm.1 r hm.2.1 hm.2.2 q hq i hi

example : (allIds exFs (order exCs)).Nodup ∧ ∀ f ∈ order exCs, Nest [] (exFs f).loops := by
  refine ⟨by decide, ?_⟩
  intro f hf
  have : f = 1 ∨ f = 0 := by simpa [order, exCs] using hf
  rcases this with rfl | rfl <;> simp [exFs, Nest]

/-- A loop 6 is executed 5 times in each of 10 iterations of a loop without an identifier, but its weights are not
averages over these iterations. -/
theorem parent_fails : ∃ (fs : Fn → Func) (s : State) (q parent : Lp), run ⟨100, 10⟩ fs [([0], false)] init = some s ∧
    (fs 0).loops = [parent, q] ∧ q.parent = some parent.id ∧ q.id = some 6 ∧
    headCount [⟨1, 1, 1⟩, ⟨2, 1, 10⟩, ⟨3, 1, 50⟩] parent.header = 10 ∧
    headCount [⟨1, 1, 1⟩, ⟨2, 1, 10⟩, ⟨3, 1, 50⟩] q.header = 50 ∧ (s.lm 6).map LW.selfIters ≠ some 5 := by
  have hs : (run ⟨100, 10⟩ (fun _ => ⟨true, false, some ⟨1, [⟨1, 1, 1⟩, ⟨2, 1, 10⟩, ⟨3, 1, 50⟩]⟩, [],
      [⟨none, none, [⟨some (2, 2), 1, .none⟩], []⟩, ⟨some 6, some none, [⟨some (3, 2), 1, .none⟩], []⟩]⟩)
      [([0], false)] init).map (fun s => (s.lm 6).map LW.selfIters) = some (some 50) := by decide
  obtain ⟨s, h1, h2⟩ := Option.map_eq_some_iff.mp hs
  exact ⟨_, s, _, _, h1, rfl, rfl, rfl, by decide, by decide, by rw [h2]; decide⟩

/-! ### Division by zero -/

/-- A loop with an identifier is inside a loop `p`. -/
def Needed (p : Nat) (ls : List Lp) : Prop := ∃ l ∈ ls, l.parent = some (some p) ∧ l.id.isSome = true

theorem loops_defined (o : Opts) (fs : Fn → Func) (m : Self) (xs : List Seg) (hs : Sorted xs) (e : Nat) (he : e ≠ 0) :
    ∀ (ls : List Lp) (seen : List Nat) (lm : LMap), Nest seen ls → (ids ls).Nodup → (∀ i ∈ ids ls, lm i = none) →
    (∀ p ∈ seen, Needed p ls → ∃ w, lm p = some w ∧ w.iters ≠ 0) →
    (∀ q ∈ ls, ∀ p, q.id = some p → Needed p ls → headCount xs q.header ≠ 0) → ∃ lm', loops o fs m xs e ls lm = some lm'
  | [], _, lm, _, _, _, _, _ => ⟨lm, rfl⟩
  | l :: ls, seen, lm, hn, hd, hno, hz, hh => by
    obtain ⟨n1, n2⟩ := hn
    have hneed : ∀ p, Needed p ls → Needed p (l :: ls) := fun p ⟨x, h1, h2⟩ => ⟨x, by simp [h1], h2⟩
    simp only [loops]
    cases hi : l.id with
    | none =>
      rw [hi] at n2
      have hids : ids (l :: ls) = ids ls := by simp [ids, hi]
      rw [hids] at hd hno
      exact loops_defined o fs m xs hs e he ls seen lm n2 hd hno (fun p hp h => hz p hp (hneed p h))
        (fun q hq p hp h => hh q (by simp [hq]) p hp (hneed p h))
    | some k =>
      rw [hi] at n2
      have hids : ids (l :: ls) = k :: ids ls := by simp [ids, hi]
      rw [hids] at hd hno
      rw [List.nodup_cons] at hd
      have hP : parentIters e lm l ≠ 0 := by
        unfold parentIters
        cases hpar : l.parent with
        | none => exact he
        | some q =>
          cases q with
          | none => exact he
          | some p =>
            obtain ⟨w, h1, h2⟩ := hz p (n1 p hpar) ⟨l, by simp, hpar, by simp [hi]⟩
            simpa [h1] using h2
      have hw : loopWeight o fs m xs e lm l = some ⟨sumOf o fs m xs l.insts, headCount xs l.header,
          sumOf o fs m xs l.insts / parentIters e lm l, headCount xs l.header / parentIters e lm l⟩ := by
        simp only [loopWeight, total_some o fs m xs hs, loopCount_some xs hs, divide, hP, if_false]
      rw [hw]
      simp only [hno k (by simp), Option.getD_none]
      refine loops_defined o fs m xs hs e he ls _ _ n2 hd.2 (fun j hj => ?_) (fun p hp h => ?_)
        (fun q hq p hp h => hh q (by simp [hq]) p hp (hneed p h))
      · have : j ≠ k := by rintro rfl; exact hd.1 hj
        simp only [this, if_false]
        exact hno j (by simp [hj])
      · simp only [Option.toList_some, List.singleton_append, List.mem_cons] at hp
        split_ifs with hpk
        · subst hpk
          exact ⟨_, rfl, hh l (by simp) p hi (hneed p h)⟩
        · rcases hp with hp | hp
          · exact absurd hp hpk
          · exact hz p hp (hneed p h)

theorem comp_defined (o : Opts) (fs : Fn → Func) : ∀ (l : List Fn) (s : State), (allIds fs l).Nodup →
    (∀ i ∈ allIds fs l, s.lm i = none) → (∀ f ∈ l, Nest [] (fs f).loops) →
    (∀ f ∈ l, ∀ r, (fs f).defined = true → (fs f).profile = some r → Sorted r.segs ∧ r.calls < 2 ^ 32 ∧
      ∀ q ∈ (fs f).loops, ∀ p, q.id = some p → Needed p (fs f).loops → headCount r.segs q.header ≠ 0) →
    ∃ s', comp o fs l s = some s'
  | [], s, _, _, _, _ => ⟨s, rfl⟩
  | f :: l, s, hd, hno, hnest, hr => by
    have hall : allIds fs (f :: l) = ids (fs f).loops ++ allIds fs l := by simp [allIds]
    rw [hall] at hd hno
    obtain ⟨d1, d2, d3⟩ := List.nodup_append.mp hd
    have hf : ∃ t, func o fs f s = some t := by
      unfold func
      split_ifs with hdef
      · exact ⟨s, rfl⟩
      · simp only [Bool.not_eq_true', Bool.not_eq_false] at hdef
        cases hp : (fs f).profile with
        | none => exact ⟨s, rfl⟩
        | some r =>
          obtain ⟨h1, h2, h3⟩ := hr f (by simp) r (by simpa using hdef) hp
          have ha : assumed r.calls ≠ 0 := by
            unfold assumed
            split_ifs
            · rw [Nat.mod_eq_of_lt h2]; omega
            · omega
          obtain ⟨lm, hlm⟩ := loops_defined o fs s.self r.segs h1 (assumed r.calls) ha (fs f).loops [] s.lm
            (hnest f (by simp)) d1 (fun i hi => hno i (by simp [hi])) (fun p hp => by simp at hp) h3
          simp only [total_some o fs s.self r.segs h1, divide, ha, if_false, hlm]
          exact ⟨_, rfl⟩
    obtain ⟨t, ht⟩ := hf
    simp only [comp, ht, Option.bind_some]
    refine comp_defined o fs l t d2 (fun j hj => ?_) (fun x hx => hnest x (by simp [hx])) (fun x hx => hr x (by simp [hx]))
    rw [(func_mono o fs f s t ht).2 j (fun hj' => d3 j hj' j hj rfl)]
    exact hno j (by simp [hj])

/-- The analysis is defined if each loop which contains another loop is executed and numbers of calls are
less than `2^32`. -/
theorem run_defined_partial (o : Opts) (fs : Fn → Func) (cs : List (List Fn × Bool))
    (hid : (allIds fs (order cs)).Nodup) (hnest : ∀ f ∈ order cs, Nest [] (fs f).loops)
    (hr : ∀ f r, Measured cs fs f r → Sorted r.segs ∧ r.calls < 2 ^ 32 ∧
      ∀ q ∈ (fs f).loops, ∀ p, q.id = some p → Needed p (fs f).loops → headCount r.segs q.header ≠ 0) :
    ∃ s, run o fs cs init = some s := by
  rw [run_comp]
  exact comp_defined o fs _ init hid (fun _ _ => rfl) hnest (fun f hf r h1 h2 => hr f r ⟨hf, h1, h2⟩)

example : ∀ f r, Measured exCs exFs f r → Sorted r.segs ∧ r.calls < 2 ^ 32 ∧
    ∀ q ∈ (exFs f).loops, ∀ p, q.id = some p → Needed p (exFs f).loops → headCount r.segs q.header ≠ 0 := by
  intro f r ⟨h1, _, h3⟩
  have : f = 1 ∨ f = 0 := by simpa [order, exCs] using h1
  rcases this with rfl | rfl
  · simp [exFs] at h3
    subst h3
    simp [Sorted, exFs]
  · simp only [exFs, if_true, Option.some.injEq] at h3
    subst h3
    refine ⟨by simp [Sorted], by decide, fun q hq p hp hn => ?_⟩
    simp only [exFs, if_true, List.mem_cons, List.not_mem_nil, or_false] at hq
    rcases hq with rfl | rfl <;> decide

/-- A nest of two loops which has not been executed: division by zero. -/
theorem run_defined_fails : ∃ (fs : Fn → Func), (∀ f, ∃ r, (fs f).profile = some r ∧ Sorted r.segs ∧ r.calls = 0) ∧
    (∀ f, Nest [] (fs f).loops) ∧ (allIds fs [0]).Nodup ∧ run ⟨100, 10⟩ fs [([0], false)] init = none := by
  refine ⟨fun _ => ⟨true, false, some ⟨0, [⟨1, 1, 0⟩]⟩, [], [⟨some 5, none, [⟨some (2, 2), 1, .none⟩], []⟩,
    ⟨some 6, some (some 5), [⟨some (3, 2), 1, .none⟩], []⟩]⟩, fun f => ⟨_, rfl, by simp [Sorted], rfl⟩, fun f => ?_,
    by decide, by decide⟩
  simp [Nest]

/-- A function has been called `2^32` times: division by zero, although it has no loops. -/
theorem run_calls_fails : ∃ (fs : Fn → Func), (∀ f, (fs f).loops = [] ∧ (fs f).profile = some ⟨2 ^ 32, []⟩) ∧
    run ⟨100, 10⟩ fs [([0], false)] init = none :=
  ⟨fun _ => ⟨true, false, some ⟨2 ^ 32, []⟩, [], []⟩, fun _ => ⟨rfl, rfl⟩, by decide⟩

end Tsar.Weights
