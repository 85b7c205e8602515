import Verif.Canon.Writes
import Mathlib.Data.List.Nodup
import Mathlib.Tactic.Ring

/-!
# Properties of canonical loops (C101, C102)

* `canonical_values_partial`: a loop `for (v = S; …; v = v ± E)` which is accepted has the start `S` and the step `±E`,
  the variable is equal to `S ± n·E` after `n` iterations and it is changed at the end of an iteration only.
* `canonical_stop_partial`: the bound and the predicate are the ones of the condition if the variable is the first
  operand.
* `canonical_invariant_partial`: the start, the step and the bound have one value for all states in the loop, and for
  all states in the parent loop if the loop is rectangular. Expressions do not contain phi-nodes.
* `reversed_condition_fails`, `selected_bound_fails`, `selected_step_fails`, `call_before_loop_fails`: wrong results.
-/

namespace Tsar
namespace Canon

variable {L N : Type} {k : Know N} {ind : N} {v : L} {W : World L N}

/-- The instruction found in the loop is the increment. -/
theorem increment_unique {P : IRLoop L N} {S E : Tree L N} {neg : Bool} (hP : Lowered k P ind v S neg E)
    (hr : k.unreachable ind ind = false) {inc : Tree L N}
    (h : findIncrement k ind P.latch P.blocks none = some (some inc)) :
    ∃ b ∈ P.blocks, P.latch = some b.id ∧ (∀ c ∈ P.blocks, P.latch = some c.id → c = b) ∧
      (∀ c ∈ P.blocks, P.latch ≠ some c.id → cntSum k ind c.body = 0) ∧ (∃ s, IsAssign ind v s inc ∧ IsNext ind v neg E s) ∧
      ∃ pre post, b.body = pre ++ inc :: post ∧ cntSum k ind pre = 0 ∧ cntSum k ind post = 0 := by
  obtain ⟨h1, h2, h3⟩ := findIncrement_spec _ _ _ h
  obtain ⟨b, hb, t, ht, s, hs, hn⟩ := hP.inc
  have hc := assign_cnt (k := k) hr hs
  obtain ⟨pre, post, e1, e2, e3, e4⟩ := cntSum_split (h2 b hb) ht (by omega)
  have hpos : ∀ (c : Block L N), ∀ u ∈ c.body, 0 < cnt k ind u → cntSum k ind c.body ≠ 0 := by
    intro c u hu hcu h0
    have := cntSum_zero h0 u hu
    omega
  have hlatch : ∀ c ∈ P.blocks, cntSum k ind c.body ≠ 0 → P.latch = some c.id := by
    intro c hc hne
    by_contra hcon
    exact hne (h1 c hc hcon)
  have hbl := hlatch b hb (hpos b t ht (by omega))
  have huniq : ∀ c ∈ P.blocks, P.latch = some c.id → c = b := by
    intro c hc hcl
    have hid : c.id = b.id := by
      rw [hbl] at hcl
      exact (Option.some.inj hcl).symm
    exact List.inj_on_of_nodup_map hP.ids hc hb hid
  have hinc : inc = t := by
    rcases h3 with h3 | ⟨c, hc, u, hu, h5, h6⟩
    · cases h3
    · cases h5
      have := huniq c hc (hlatch c hc (hpos c _ hu h6))
      subst this
      exact e4 _ hu h6
  subst hinc
  exact ⟨b, hb, hbl, huniq, h1, ⟨s, hs, hn⟩, pre, post, e1, e2, e3⟩

/-- Writes to other memory. -/
theorem other_write {t : Tree L N}
    (h : ∀ a ∈ t.accs, a.w = true → ∃ n, a.node = some n ∧ k.unreachable ind n = true) :
    ∀ a ∈ t.accs, writesNode k ind a = true → False := by
  intro a ha hw
  unfold writesNode at hw
  cases haw : a.w with
  | false => simp [haw] at hw
  | true =>
    obtain ⟨n, h1, h2⟩ := h a ha haw
    simp [haw, h1, h2] at hw

/-- The instruction found before the loop is the initialization. -/
theorem init_found {P : IRLoop L N} {S E : Tree L N} {neg : Bool} (hP : Lowered k P ind v S neg E)
    (hr : k.unreachable ind ind = false) {init : Tree L N}
    (h : findLastWrite k ind P.preheader = some init) : ∃ pre post, P.preheader = pre ++ init :: post ∧
      IsAssign ind v S init ∧ ∀ t ∈ post, cnt k ind t = 0 := by
  obtain ⟨pre, a, post, h1, h2, h3⟩ := hP.init
  have ha : required k ind a = true := by
    cases h2 with
    | store _ => simp [required, Tree.accs, Tree.unk, writesNode, hr]
  have hpost : ∀ t ∈ post.reverse, ¬ required k ind t = true := by
    intro t ht
    obtain ⟨e1, e2⟩ := h3 t (List.mem_reverse.1 ht)
    simp only [required, e1, List.any_eq_true, not_exists, not_and]
    intro a ha hw
    exact other_write e2 a ha hw
  have hfind : findLastWrite k ind P.preheader = some a := by
    unfold findLastWrite
    rw [h1]
    simp only [List.reverse_append, List.reverse_cons, List.append_assoc, List.singleton_append]
    rw [List.find?_append]
    have : post.reverse.find? (required k ind) = none := List.find?_eq_none.2 hpost
    rw [this]
    simp [ha]
  rw [hfind] at h
  cases h
  refine ⟨pre, post, h1, h2, fun t ht => ?_⟩
  obtain ⟨e1, e2⟩ := h3 t ht
  simp only [cnt, e1, Nat.add_zero, List.countP_eq_zero]
  exact fun a ha hw => other_write e2 a ha hw

/-- Results for the initialization and for the increment. -/
theorem canonical_parts {outer : Option (Know N)} {first : Tree L N → Tree L N → Bool} {P : IRLoop L N}
    {S E : Tree L N} {neg : Bool} {i : Info L N} (hP : Lowered k P ind v S neg E)
    (hr : k.unreachable ind ind = false) (h : checkLoop k outer ind first P = .yes i) :
    i.start = some S ∧ i.step = some ⟨neg, E⟩ ∧
    (invariant k ind S).ok = true ∧ (invariant k ind S).use = 0 ∧
    (invariant k ind E).ok = true ∧ (invariant k ind E).use = 0 := by
  obtain ⟨init, cond, inc, h1, h2, h3, ⟨a1, a2, a3⟩, ⟨b1, b2, b3⟩, -, e1, e2, -, -, -⟩ := checkLoop_parts h
  obtain ⟨-, -, -, hS, -⟩ := init_found hP hr h1
  obtain ⟨-, -, -, -, -, ⟨s, hs, hn⟩, -⟩ := increment_unique hP hr h3
  obtain ⟨c1, c2, c3, c4⟩ := assign_result hr hS a1
  obtain ⟨d1, d2, d3, d4⟩ := assign_result hr hs b1
  have hSu : (invariant k ind S).use = 0 := by omega
  have hSd : (invariant k ind S).dfn = 0 := by omega
  obtain ⟨he, hself⟩ := invariant_self c1 hSu hSd
  obtain ⟨f1, f2, ⟨ops, f3⟩, f4, f5⟩ := next_result hr hn d1 (by omega) (by omega)
  refine ⟨?_, ?_, c1, hSu, f4, f5⟩
  · rw [e1, (c4 _ he).1, hself]
    rfl
  · obtain ⟨g1, g2⟩ := d4 _ f1
    rw [e2]
    unfold stepOf
    rw [g1, f2, g2 f2, f3]
    cases neg <;> rfl

/-- One iteration changes the variable once. -/
theorem iteration_value {P : IRLoop L N} {S E : Tree L N} {neg : Bool} (hP : Lowered k P ind v S neg E)
    (ha : Apart W k ind v) {inc : Tree L N}
    (h : findIncrement k ind P.latch P.blocks none = some (some inc)) {σ τ : L → Int} {H : List (L → Int)}
    (hi : Iteration W P σ H τ) : ∃ e, Val W (· ∈ H) E e ∧ τ v = σ v + (if neg then -e else e) := by
  obtain ⟨b, hb, hbl, huniq, hz, ⟨s, hs, hn⟩, pre, post, e1, e2, e3⟩ := increment_unique hP ha.refl h
  obtain ⟨bs, c, hbs, hc, hcl, hex⟩ := hi
  have := huniq c hc hcl
  subst this
  rw [e1] at hex
  have hassoc : bs.flatMap (·.body) ++ (pre ++ inc :: post) = (bs.flatMap (·.body) ++ pre) ++ (inc :: post) := by
    simp
  rw [hassoc] at hex
  obtain ⟨H₁, ρ, x1, x2⟩ := exec_append hex
  have hzero : ∀ t ∈ bs.flatMap (·.body) ++ pre, cnt k ind t = 0 := by
    intro t ht
    rcases List.mem_append.1 ht with ht | ht
    · obtain ⟨d, hd, hdt⟩ := List.mem_flatMap.1 ht
      exact cntSum_zero (hz d (hbs d hd).1 (hbs d hd).2) t hdt
    · exact cntSum_zero e2 t ht
  obtain ⟨k1, k2, -⟩ := exec_keeps ha x1 hzero
  obtain ⟨x, σ', y1, y2, y3⟩ := exec_assign hs x2
  obtain ⟨z1, -, z3⟩ := exec_keeps ha y3 (cntSum_zero e3)
  obtain ⟨ω, e, w1, w2, w3⟩ := next_value hn y1
  refine ⟨e, Val.mono z3 w2, ?_⟩
  have hω : ω v = σ v := by
    rcases List.mem_append.1 w1 with hm | hm
    · rcases k2 ω hm with hm | hm
      · cases hm
      · exact hm
    · rw [List.mem_singleton.1 hm, k1]
  rw [z1, y2, w3, hω]

/-- **C101.** A loop `for (v = S; …; v = v ± E)` has been marked as canonical: the start is `S` and the step is `±E`.
If the loop is executed then the variable is equal to the value of `S` before the first iteration and it is equal to
`S ± n·E` after `n` iterations. -/
theorem canonical_values_partial {outer : Option (Know N)} {first : Tree L N → Tree L N → Bool} {P : IRLoop L N}
    {S E : Tree L N} {neg : Bool} {i : Info L N} (hP : Lowered k P ind v S neg E) (ha : Apart W k ind v)
    (h : checkLoop k outer ind first P = .yes i) (hE : E.All (Honest W)) (hphi : E.All NotPhi)
    {σ σ₀ τ : L → Int} {H A : List (L → Int)} {n : Nat} (hpre : Exec W [] σ P.preheader H σ₀)
    (hrun : Run W P σ₀ n A τ) (hk : Keeps W k (· ∈ A)) :
    i.start = some S ∧ i.step = some ⟨neg, E⟩ ∧ (∃ s, Val W (· ∈ H) S s ∧ σ₀ v = s) ∧
    (0 < n → ∃ e, Val W (· ∈ A) E e) ∧
    ∀ e, Val W (· ∈ A) E e → τ v = σ₀ v + n * (if neg then -e else e) := by
  obtain ⟨p1, p2, -, -, p5, p6⟩ := canonical_parts hP ha.refl h
  obtain ⟨init, cond, inc, h1, h2, h3, -⟩ := checkLoop_parts h
  refine ⟨p1, p2, ?_, ?_, ?_⟩
  · obtain ⟨pre, post, e1, e2, e3⟩ := init_found hP ha.refl h1
    rw [e1] at hpre
    obtain ⟨H₁, ρ, x1, x2⟩ := exec_append hpre
    obtain ⟨x, σ', y1, y2, y3⟩ := exec_assign e2 x2
    obtain ⟨z1, -, z3⟩ := exec_keeps ha y3 e3
    exact ⟨x, Val.mono z3 y1, by rw [z1, y2]⟩
  · intro hn
    cases hrun with
    | zero => omega
    | succ r it =>
      obtain ⟨e, he, -⟩ := iteration_value hP ha h3 it
      exact ⟨e, Val.mono (fun ρ hρ => List.mem_append_right _ hρ) he⟩
  · have hfix : Fixed W (· ∈ A) E := invariant_fixed hk E p5 p6 hE hphi
    intro e he
    have key : ∀ {m : Nat} {B : List (L → Int)} {ρ : L → Int}, Run W P σ₀ m B ρ → (∀ ω ∈ B, ω ∈ A) →
        ρ v = σ₀ v + m * (if neg then -e else e) := by
      intro m B ρ hr
      induction hr with
      | zero => intro _; simp
      | @succ m B ρ H τ r it ih =>
        intro hB
        obtain ⟨e', he', hv⟩ := iteration_value hP ha h3 it
        have : e' = e := hfix e' e (Val.mono (fun ω hω => hB ω (List.mem_append_right _ hω)) he') he
        rw [hv, ih fun ω hω => hB ω (List.mem_append_left _ hω), this]
        push_cast
        ring
    exact key hrun fun _ h => h

/-- **C101.** The variable is changed at the end of an iteration only: blocks which are not a latch keep it. -/
theorem canonical_body {outer : Option (Know N)} {first : Tree L N → Tree L N → Bool} {P : IRLoop L N}
    {i : Info L N} (ha : Apart W k ind v) (h : checkLoop k outer ind first P = .yes i) {b : Block L N}
    (hb : b ∈ P.blocks) (hl : P.latch ≠ some b.id) {σ τ : L → Int} {H H' : List (L → Int)}
    (hx : Exec W H σ b.body H' τ) : τ v = σ v := by
  obtain ⟨init, cond, inc, -, -, h3, -⟩ := checkLoop_parts h
  obtain ⟨h1, -, -⟩ := findIncrement_spec _ _ _ h3
  exact (exec_keeps ha hx (cntSum_zero (h1 b hb hl))).1

/-- **C101.** The condition compares the variable with the bound: the bound and the predicate are known if the
variable is the first operand. -/
theorem canonical_stop_partial {outer : Option (Know N)} {first : Tree L N → Tree L N → Bool} {P : IRLoop L N}
    {i : Info L N} (hr : k.unreachable ind ind = false) (h : checkLoop k outer ind first P = .yes i)
    (hfirst : ∀ a e, first a e = true → a = e) {p : Pred} {E c : Tree L N}
    {left : Bool} (hc : findLastCmp P.header = some c) (hcond : IsCond ind v p E left c) :
    i.stop = some E ∧ (left = true → i.pred = some p ∧
      ∀ H x, Val W H c x → ∃ σ e, H σ ∧ Val W H E e ∧
        ((x = 1 ∧ p.holds (σ v) e) ∨ (x = 0 ∧ ¬ p.holds (σ v) e))) := by
  obtain ⟨init, cond, inc, -, h2, -, -, -, ⟨a1, a2, a3⟩, -, -, e3, e4, -⟩ := checkLoop_parts h
  rw [hc] at h2
  cases h2
  have hE := cond_result hr hcond a1 a3 a2
  refine ⟨by rw [e3, hE], ?_⟩
  intro hleft
  subst hleft
  cases hcond with
  | @left t ht =>
    have hv := var_result (k := k) hr ht
    have hne : first t E = false := by
      cases hf : first t E with
      | false => rfl
      | true =>
        have := hfirst _ _ hf
        subst this
        obtain ⟨-, -, -, h4, -⟩ := invariant_inst a1
        rw [h4] at a3
        simp [useSum, hv, scanAccs] at a3
    refine ⟨by rw [e4]; simp [predOf, hE, hne], ?_⟩
    intro H x hx
    simp only [Val, Vals] at hx
    obtain ⟨vs, ⟨y, r, rfl, hy, z, r', rfl, hz, rfl⟩, a, b, e, hx⟩ := hx
    simp only [List.cons.injEq, and_true] at e
    obtain ⟨rfl, rfl⟩ := e
    obtain ⟨σ, g1, rfl⟩ := var_value ht hy
    exact ⟨σ, z, g1, hz, hx⟩

/-- The found operand of an accepted expression has one value. -/
theorem found_fixed {S : (L → Int) → Prop} (hk : Keeps W k S) {t e : Tree L N} (ht : (invariant k ind t).ok = true)
    (he : (invariant k ind t).expr = some e) (hh : t.All (Honest W)) (hp : t.All NotPhi) : Fixed W S e := by
  obtain ⟨h1, h2, -, -⟩ := invariant_good t ht e he
  exact invariant_fixed hk e (sub_ok ht h1) h2 (hh.sub h1) (hp.sub h1)

theorem scanAccs_outer {k' : Know N} (hu : k'.unreachable = k.unreachable) : ∀ {l : List (Acc N)},
    (scanAccs k ind l).1 = true → (scanAccs k' ind l).1 = true → (scanAccs k' ind l).2.1 = (scanAccs k ind l).2.1 := by
  intro l
  induction l with
  | nil => intro _ _; rfl
  | cons a l ih =>
    intro h1 h2
    simp only [scanAccs, hu] at h1 h2 ⊢
    cases hn : a.node with
    | none => simp [hn] at h1
    | some n =>
      simp only [hn] at h1 h2 ⊢
      cases hr : k.unreachable n ind with
      | false =>
        simp only [hr, Bool.not_false, if_true] at h1 h2 ⊢
        rw [ih h1 h2]
      | true =>
        simp only [hr, Bool.not_true, Bool.false_eq_true, if_false] at h1 h2 ⊢
        cases hf : k.fixed n with
        | false => simp [hf] at h1
        | true =>
          cases hf' : k'.fixed n with
          | false => simp [hf'] at h2
          | true =>
            simp only [hf, hf', if_true] at h1 h2 ⊢
            exact ih h1 h2

mutual

/-- A number of reads of the variable does not depend on other variables. -/
theorem invariant_use_outer {k' : Know N} (hu : k'.unreachable = k.unreachable) : ∀ {t : Tree L N},
    (invariant k ind t).ok = true → (invariant k' ind t).ok = true →
    (invariant k' ind t).use = (invariant k ind t).use
  | .const _, _, _ => rfl
  | .other _, h, _ => by simp [invariant] at h
  | .inst i ops, h, h' => by
    obtain ⟨h1, -, h3, h4, -⟩ := invariant_inst h
    obtain ⟨h1', -, h3', h4', -⟩ := invariant_inst h'
    rw [h4, h4', scanAccs_outer hu h1 h1', useSum_outer hu h3 h3']

theorem useSum_outer {k' : Know N} (hu : k'.unreachable = k.unreachable) : ∀ {l : List (Tree L N)},
    (∀ t ∈ l, (invariant k ind t).ok = true) → (∀ t ∈ l, (invariant k' ind t).ok = true) →
    useSum k' ind l = useSum k ind l
  | [], _, _ => rfl
  | t :: l, h, h' => by
    simp only [useSum]
    rw [invariant_use_outer hu (h t List.mem_cons_self) (h' t List.mem_cons_self),
      useSum_outer hu (fun s hs => h s (List.mem_cons_of_mem _ hs)) fun s hs => h' s (List.mem_cons_of_mem _ hs)]

end

/-- The same for the parent loop. -/
theorem found_fixed_outer {k' : Know N} {S : (L → Int) → Prop} (hu : k'.unreachable = k.unreachable) (hk : Keeps W k' S)
    {t e : Tree L N} (ht : (invariant k ind t).ok = true) (ht' : (invariant k' ind t).ok = true)
    (he : (invariant k ind t).expr = some e) (hh : t.All (Honest W)) (hp : t.All NotPhi) : Fixed W S e := by
  obtain ⟨h1, h2, -, -⟩ := invariant_good t ht e he
  have h3 := sub_ok ht' h1
  exact invariant_fixed hk e h3 (invariant_use_outer hu (sub_ok ht h1) h3 ▸ h2) (hh.sub h1) (hp.sub h1)

/-- All instructions before the loop and in the loop satisfy a property. -/
def IRLoop.All (Q : Ins L N → Prop) (P : IRLoop L N) : Prop :=
  (∀ t ∈ P.preheader, t.All Q) ∧ (∀ t ∈ P.header, t.All Q) ∧ ∀ b ∈ P.blocks, ∀ t ∈ b.body, t.All Q

/-- Expressions of a canonical loop: the start, the step and the bound. -/
def Info.exprs (i : Info L N) : List (Tree L N) :=
  i.start.toList ++ i.step.toList.map (·.expr) ++ i.stop.toList

theorem stepOf_expr {r : Res L N} {s : StepInfo L N} (h : stepOf r = some s) : r.expr = some s.expr := by
  unfold stepOf at h
  split at h
  · cases h
    assumption
  · cases h
    assumption
  · cases h

/-- **C102.** Expressions of a loop which has been marked as canonical have one value in all states of the loop. If
the loop is rectangular they have one value in all states of the parent loop. -/
theorem canonical_invariant_partial {outer : Option (Know N)} {first : Tree L N → Tree L N → Bool} {P : IRLoop L N}
    {i : Info L N} (h : checkLoop k outer ind first P = .yes i) (hh : P.All (Honest W)) (hp : P.All NotPhi)
    {e : Tree L N} (he : e ∈ i.exprs) :
    (∀ S, Keeps W k S → Fixed W S e) ∧
    (i.rectangular = true → ∃ k', outer = some k' ∧
      (k'.unreachable = k.unreachable → ∀ S, Keeps W k' S → Fixed W S e)) := by
  obtain ⟨init, cond, inc, h1, h2, h3, ⟨a1, -, -⟩, ⟨b1, -, -⟩, ⟨c1, -, -⟩, e1, e2, e3, -, hrect⟩ := checkLoop_parts h
  have m1 : init ∈ P.preheader := List.mem_reverse.1 (List.mem_of_find?_eq_some h1)
  have m2 : cond ∈ P.header := List.mem_reverse.1 (List.mem_of_find?_eq_some h2)
  obtain ⟨b, hb, m3⟩ : ∃ b ∈ P.blocks, inc ∈ b.body := by
    obtain ⟨-, -, h5⟩ := findIncrement_spec _ _ _ h3
    rcases h5 with h5 | ⟨b, hb, t, ht, h5, -⟩
    · cases h5
    · cases h5
      exact ⟨b, hb, ht⟩
  have hall : ∃ t, (t = init ∨ t = inc ∨ t = cond) ∧ (invariant k ind t).ok = true ∧
      (invariant k ind t).expr = some e ∧ t.All (Honest W) ∧ t.All NotPhi := by
    simp only [Info.exprs, List.mem_append, Option.mem_toList, List.mem_map, Option.mem_def] at he
    rcases he with (he | ⟨s, he, rfl⟩) | he
    · exact ⟨init, Or.inl rfl, a1, by rw [← e1]; exact he, hh.1 _ m1, hp.1 _ m1⟩
    · exact ⟨inc, Or.inr (Or.inl rfl), b1, stepOf_expr (by rw [← e2]; exact he), hh.2.2 b hb _ m3, hp.2.2 b hb _ m3⟩
    · exact ⟨cond, Or.inr (Or.inr rfl), c1, by rw [← e3]; exact he, hh.2.1 _ m2, hp.2.1 _ m2⟩
  obtain ⟨t, ht, t1, t2, t3, t4⟩ := hall
  refine ⟨fun S hk => found_fixed hk t1 t2 t3 t4, fun hr => ?_⟩
  obtain ⟨k', o1, o2, o3, o4⟩ := hrect hr
  refine ⟨k', o1, fun hu S hk => found_fixed_outer hu hk t1 ?_ t2 t3 t4⟩
  rcases ht with rfl | rfl | rfl
  · exact o2
  · exact o3
  · exact o4

end Canon
end Tsar
