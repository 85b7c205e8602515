import Verif.NoMacro.Model

/-!
# Check of assertions that there are no macros (C178, C179)
-/

namespace Tsar.NoMacro

/-! ## Specification -/

/-- The first statement or declaration of a list, pragmas are skipped. -/
inductive Next : List Node → ℕ → Prop
  | here {n : ℕ} {ks xs : List Node} : Next (.node n ks :: xs) n
  | clause {c n : ℕ} {xs : List Node} (h : Next xs n) : Next (.clause c :: xs) n
  | pragma {n : ℕ} {xs : List Node} (h : Next xs n) : Next (.pragma :: xs) n

/-- A clause is attached to the first statement or declaration after it. -/
inductive Follows : List Node → ℕ → ℕ → Prop
  | here {c n : ℕ} {xs : List Node} (h : Next xs n) : Follows (.clause c :: xs) c n
  | there {x : Node} {xs : List Node} {c n : ℕ} (h : Follows xs c n) : Follows (x :: xs) c n

/-- A statement or a declaration `m` with its children is inside a tree. -/
inductive Sub : Node → ℕ → List Node → Prop
  | refl {m : ℕ} {ks : List Node} : Sub (.node m ks) m ks
  | child {k : Node} {n m : ℕ} {kids ks : List Node} (hk : k ∈ kids) (h : Sub k m ks) :
      Sub (.node n kids) m ks

/-- There is a clause `c` in a tree which asserts that there are no macros in `n`. -/
def Asserted (t : Node) (c n : ℕ) : Prop := ∃ m ks, Sub t m ks ∧ Follows ks c n

/-- The assertion is violated or it cannot be checked. -/
def Bad (s : Src) (n : ℕ) : Prop := s.macros n ≠ [] ∨ s.single n = false

/-- Each clause is followed by a statement or a declaration in the same block. -/
def Attached (t : Node) : Prop :=
  ∀ m ks, Sub t m ks → ∀ pre c post, ks = pre ++ .clause c :: post → ∃ n, Next post n

/-- A statement which contains a bad one is bad. -/
def Mono (s : Src) (t : Node) : Prop :=
  ∀ m ks, Sub t m ks → ∀ n ks', .node n ks' ∈ ks → Bad s n → Bad s m

/-! ## C178 -/

theorem check_nil {s : Src} {c n : ℕ} : check s c n = [] ↔ ¬ Bad s n := by
  unfold check Bad
  cases h : s.single n <;> simp

theorem next_mem {xs : List Node} {n : ℕ} (h : Next xs n) : ∃ ks, .node n ks ∈ xs := by
  induction h with
  | here => exact ⟨_, List.mem_cons_self⟩
  | clause _ ih => exact ih.imp fun _ h => by simp [h]
  | pragma _ ih => exact ih.imp fun _ h => by simp [h]

theorem follows_mem {xs : List Node} {c n : ℕ} (h : Follows xs c n) : ∃ ks, .node n ks ∈ xs := by
  induction h with
  | here h => exact (next_mem h).imp fun _ h => by simp [h]
  | there _ ih => exact ih.imp fun _ h => by simp [h]

theorem sub_child {t : Node} {m : ℕ} {ks : List Node} (h : Sub t m ks) {k : Node} (hk : k ∈ ks)
    {n : ℕ} {ks' : List Node} (h' : Sub k n ks') : Sub t n ks' := by
  induction h with
  | refl => exact .child hk h'
  | child hk' _ ih => exact .child hk' (ih hk)

theorem sub_bad {s : Src} {t : Node} {m : ℕ} {ks : List Node} (h : Sub t m ks) :
    ∀ {n : ℕ} {kids : List Node}, t = .node n kids → Mono s t → Bad s m → Bad s n := by
  induction h with
  | refl =>
    intro n kids e _ hb
    cases e
    exact hb
  | @child k n' m' kids' ks' hk hs ih =>
    intro n kids e hm hb
    cases e
    cases k with
    | clause c => cases hs
    | pragma => cases hs
    | node a as =>
      have := ih rfl (fun m ks h => hm m ks (.child hk h)) hb
      exact hm _ _ .refl a as hk this

theorem asserted_bad {s : Src} {n : ℕ} {kids : List Node} (hm : Mono s (.node n kids)) {c k : ℕ}
    (h : Asserted (.node n kids) c k) (hb : Bad s k) : Bad s n := by
  obtain ⟨m, ks, h1, h2⟩ := h
  obtain ⟨ks', h3⟩ := follows_mem h2
  exact sub_bad h1 rfl hm (hm m ks h1 k ks' h3 hb)

theorem asserted_node {n c k : ℕ} {kids : List Node} :
    Asserted (.node n kids) c k ↔ Follows kids c k ∨ ∃ x ∈ kids, Asserted x c k := by
  constructor
  · rintro ⟨m, ks, h1, h2⟩
    cases h1 with
    | refl => exact Or.inl h2
    | child hk h => exact Or.inr ⟨_, hk, m, ks, h, h2⟩
  · rintro (h | ⟨x, hx, m, ks, h1, h2⟩)
    · exact ⟨n, kids, .refl, h⟩
    · exact ⟨m, ks, .child hx h1, h2⟩

mutual
theorem visit_ok (s : Src) : ∀ (t : Node), (∀ c, t ≠ .clause c) → Attached t → Mono s t →
    ∀ es, ∃ E, visit s t (none, es) = (none, es ++ E) ∧
      (∀ e ∈ E, ∃ c n, e ∈ check s c n ∧ Asserted t c n) ∧
      (∀ c n, Bad s n → Asserted t c n → E ≠ [])
  | .clause c, h, _, _, _ => absurd rfl (h c)
  | .pragma, _, _, _, es => ⟨[], by simp [visit], by simp, fun c n _ h => by
      obtain ⟨m, ks, h1, _⟩ := h
      cases h1⟩
  | .node n kids, _, ha, hm, es => by
    obtain ⟨E, h1, h2, h3⟩ := list_ok s kids (fun x hx m ks h => ha m ks (.child hx h))
      (fun x hx m ks h => hm m ks (.child hx h)) (ha n kids .refl) none es (fun h => absurd rfl h)
    refine ⟨E, by rw [visit, h1], fun e he => ?_, fun c k hb h => ?_⟩
    · obtain ⟨c, k, h4, h5⟩ := h2 e he
      refine ⟨c, k, h4, asserted_node.2 ?_⟩
      rcases h5 with ⟨h, _⟩ | h
      · cases h
      · exact h
    · exact h3 c k hb (Or.inr (asserted_node.1 h))

theorem list_ok (s : Src) : ∀ (xs : List Node), (∀ x ∈ xs, Attached x) → (∀ x ∈ xs, Mono s x) →
    (∀ pre c post, xs = pre ++ .clause c :: post → ∃ n, Next post n) →
    ∀ (a : Option ℕ) es, (a ≠ none → ∃ n, Next xs n) →
    ∃ E, visitList s xs (a, es) = (none, es ++ E) ∧
      (∀ e ∈ E, ∃ c n, e ∈ check s c n ∧
        (a = some c ∧ Next xs n ∨ Follows xs c n ∨ ∃ x ∈ xs, Asserted x c n)) ∧
      (∀ c n, Bad s n → (a ≠ none ∧ Next xs n ∨ Follows xs c n ∨ ∃ x ∈ xs, Asserted x c n) → E ≠ [])
  | [], _, _, _, a, es, hn => by
    cases a with
    | none =>
      refine ⟨[], by simp [visitList], by simp, fun c n _ h => ?_⟩
      rcases h with ⟨h, _⟩ | h | ⟨x, hx, _⟩
      · exact absurd rfl h
      · cases h
      · cases hx
    | some c =>
      obtain ⟨n, h⟩ := hn (by simp)
      cases h
  | x :: xs, ha, hm, hc, a, es, hn => by
    have hc' : ∀ pre c post, xs = pre ++ .clause c :: post → ∃ n, Next post n := by
      intro pre c post e
      exact hc (x :: pre) c post (by rw [e]; rfl)
    have hr := list_ok s xs (fun y hy => ha y (by simp [hy])) (fun y hy => hm y (by simp [hy])) hc'
    cases x with
    | clause c0 =>
      have hnx : ∃ n, Next xs n := hc [] c0 xs rfl
      have hno : ∀ c n, ¬ Asserted (.clause c0) c n := by
        rintro c n ⟨m, ks, h, _⟩
        cases h
      cases a with
      | none =>
        obtain ⟨E, h1, h2, h3⟩ := hr (some c0) es fun _ => hnx
        refine ⟨E, by rw [visitList, visit, h1], fun e he => ?_, fun c n hb h => ?_⟩
        · obtain ⟨c, n, h4, h5⟩ := h2 e he
          refine ⟨c, n, h4, Or.inr ?_⟩
          rcases h5 with ⟨h, h'⟩ | h | ⟨y, hy, h⟩
          · cases h
            exact Or.inl (.here h')
          · exact Or.inl (.there h)
          · exact Or.inr ⟨y, by simp [hy], h⟩
        · rcases h with ⟨h, _⟩ | h | ⟨y, hy, h⟩
          · exact absurd rfl h
          · cases h with
            | here h => exact h3 c0 n hb (Or.inl ⟨by simp, h⟩)
            | there h => exact h3 c n hb (Or.inr (Or.inl h))
          · rcases List.mem_cons.1 hy with rfl | hy
            · exact absurd h (hno c n)
            · exact h3 c n hb (Or.inr (Or.inr ⟨y, hy, h⟩))
      | some b =>
        obtain ⟨E, h1, h2, h3⟩ := hr (some b) es fun _ => hnx
        refine ⟨E, by rw [visitList, visit, h1], fun e he => ?_, fun c n hb h => ?_⟩
        · obtain ⟨c, n, h4, h5⟩ := h2 e he
          refine ⟨c, n, h4, ?_⟩
          rcases h5 with ⟨h, h'⟩ | h | ⟨y, hy, h⟩
          · exact Or.inl ⟨h, .clause h'⟩
          · exact Or.inr (Or.inl (.there h))
          · exact Or.inr (Or.inr ⟨y, by simp [hy], h⟩)
        · rcases h with ⟨_, h⟩ | h | ⟨y, hy, h⟩
          · cases h with
            | clause h => exact h3 c n hb (Or.inl ⟨by simp, h⟩)
          · cases h with
            | here h => exact h3 0 n hb (Or.inl ⟨by simp, h⟩)
            | there h => exact h3 c n hb (Or.inr (Or.inl h))
          · rcases List.mem_cons.1 hy with rfl | hy
            · exact absurd h (hno c n)
            · exact h3 c n hb (Or.inr (Or.inr ⟨y, hy, h⟩))
    | pragma =>
      have hno : ∀ c n, ¬ Asserted .pragma c n := by
        rintro c n ⟨m, ks, h, _⟩
        cases h
      obtain ⟨E, h1, h2, h3⟩ := hr a es fun h => by
        obtain ⟨n, h'⟩ := hn h
        cases h' with
        | pragma h' => exact ⟨n, h'⟩
      refine ⟨E, by rw [visitList, visit, h1], fun e he => ?_, fun c n hb h => ?_⟩
      · obtain ⟨c, n, h4, h5⟩ := h2 e he
        refine ⟨c, n, h4, ?_⟩
        rcases h5 with ⟨h, h'⟩ | h | ⟨y, hy, h⟩
        · exact Or.inl ⟨h, .pragma h'⟩
        · exact Or.inr (Or.inl (.there h))
        · exact Or.inr (Or.inr ⟨y, by simp [hy], h⟩)
      · rcases h with ⟨h0, h⟩ | h | ⟨y, hy, h⟩
        · cases h with
          | pragma h => exact h3 c n hb (Or.inl ⟨h0, h⟩)
        · cases h with
          | there h => exact h3 c n hb (Or.inr (Or.inl h))
        · rcases List.mem_cons.1 hy with rfl | hy
          · exact absurd h (hno c n)
          · exact h3 c n hb (Or.inr (Or.inr ⟨y, hy, h⟩))
    | node k ks =>
      cases a with
      | none =>
        obtain ⟨E0, g1, g2, g3⟩ := visit_ok s (.node k ks) (fun c h => nomatch h) (ha _ (by simp))
          (hm _ (by simp)) es
        obtain ⟨E, h1, h2, h3⟩ := hr none (es ++ E0) fun h => absurd rfl h
        refine ⟨E0 ++ E, by rw [visitList, g1, h1, List.append_assoc], fun e he => ?_,
          fun c n hb h => ?_⟩
        · rcases List.mem_append.1 he with he | he
          · obtain ⟨c, n, h4, h5⟩ := g2 e he
            exact ⟨c, n, h4, Or.inr (Or.inr ⟨_, by simp, h5⟩)⟩
          · obtain ⟨c, n, h4, h5⟩ := h2 e he
            refine ⟨c, n, h4, ?_⟩
            rcases h5 with ⟨h, _⟩ | h | ⟨y, hy, h⟩
            · cases h
            · exact Or.inr (Or.inl (.there h))
            · exact Or.inr (Or.inr ⟨y, by simp [hy], h⟩)
        · rcases h with ⟨h, _⟩ | h | ⟨y, hy, h⟩
          · exact absurd rfl h
          · cases h with
            | there h =>
              have := h3 c n hb (Or.inr (Or.inl h))
              simp [this]
          · rcases List.mem_cons.1 hy with rfl | hy
            · have := g3 c n hb h
              simp [this]
            · have := h3 c n hb (Or.inr (Or.inr ⟨y, hy, h⟩))
              simp [this]
      | some b =>
        obtain ⟨E, h1, h2, h3⟩ := hr none (es ++ check s b k) fun h => absurd rfl h
        refine ⟨check s b k ++ E, by rw [visitList, visit, h1, List.append_assoc], fun e he => ?_,
          fun c n hb h => ?_⟩
        · rcases List.mem_append.1 he with he | he
          · exact ⟨b, k, he, Or.inl ⟨rfl, .here⟩⟩
          · obtain ⟨c, n, h4, h5⟩ := h2 e he
            refine ⟨c, n, h4, ?_⟩
            rcases h5 with ⟨h, _⟩ | h | ⟨y, hy, h⟩
            · cases h
            · exact Or.inr (Or.inl (.there h))
            · exact Or.inr (Or.inr ⟨y, by simp [hy], h⟩)
        · have hk : Bad s k → check s b k ++ E ≠ [] := by
            intro hb' e
            exact check_nil.1 (List.append_eq_nil_iff.1 e).1 hb'
          rcases h with ⟨_, h⟩ | h | ⟨y, hy, h⟩
          · cases h
            exact hk hb
          · cases h with
            | there h =>
              have := h3 c n hb (Or.inr (Or.inl h))
              simp [this]
          · rcases List.mem_cons.1 hy with rfl | hy
            · exact hk (asserted_bad (hm _ (by simp)) h hb)
            · have := h3 c n hb (Or.inr (Or.inr ⟨y, hy, h⟩))
              simp [this]
end

/-- **C178**, partial: if each clause is followed by a statement in the same block then a translation
unit is rejected exactly if there is an assertion which does not hold, nested assertions included.
Missing: a clause at the end of a block, see `dangling_fails`. -/
theorem rejected_partial {s : Src} {n : ℕ} {kids : List Node} (ha : Attached (.node n kids))
    (hm : Mono s (.node n kids)) :
    invalid s (.node n kids) = true ↔ ∃ c k, Asserted (.node n kids) c k ∧ Bad s k := by
  obtain ⟨E, h1, h2, h3⟩ := visit_ok s (.node n kids) (fun c h => nomatch h) ha hm []
  have he : errors s (.node n kids) = E := by
    unfold errors
    rw [h1]
    simp
  unfold invalid
  rw [he]
  constructor
  · intro h
    cases E with
    | nil => simp at h
    | cons e E =>
      obtain ⟨c, k, h4, h5⟩ := h2 e (by simp)
      refine ⟨c, k, h5, ?_⟩
      by_contra hb
      rw [check_nil.2 hb] at h4
      cases h4
  · rintro ⟨c, k, h4, h5⟩
    have := h3 c k h5 h4
    cases E with
    | nil => exact absurd rfl this
    | cons e E => rfl

/-- **C178**, partial: each message names a clause and a macro inside the statement the clause is
attached to, or this statement if its range is not in a single file. -/
theorem messages_partial {s : Src} {n : ℕ} {kids : List Node} (ha : Attached (.node n kids))
    (hm : Mono s (.node n kids)) :
    (∀ c loc, .atMacro c loc ∈ errors s (.node n kids) →
      ∃ k, Asserted (.node n kids) c k ∧ loc ∈ s.macros k) ∧
    (∀ c k, .range c k ∈ errors s (.node n kids) →
      Asserted (.node n kids) c k ∧ s.single k = false) := by
  obtain ⟨E, h1, h2, -⟩ := visit_ok s (.node n kids) (fun c h => nomatch h) ha hm []
  have he : errors s (.node n kids) = E := by
    unfold errors
    rw [h1]
    simp
  rw [he]
  constructor
  · intro c loc h
    obtain ⟨c', k, h4, h5⟩ := h2 _ h
    unfold check at h4
    rcases List.mem_append.1 h4 with h4 | h4
    · obtain ⟨l, hl, e⟩ := List.mem_map.1 h4
      cases e
      exact ⟨k, h5, hl⟩
    · cases hs : s.single k <;> simp [hs] at h4
  · intro c k h
    obtain ⟨c', k', h4, h5⟩ := h2 _ h
    unfold check at h4
    rcases List.mem_append.1 h4 with h4 | h4
    · obtain ⟨l, hl, e⟩ := List.mem_map.1 h4
      cases e
    · cases hs : s.single k' with
      | true => simp [hs] at h4
      | false =>
        simp only [hs, Bool.false_eq_true, if_false, List.mem_singleton, Err.range.injEq] at h4
        obtain ⟨rfl, rfl⟩ := h4
        exact ⟨h5, hs⟩

/-- Each of given nodes contains a macro. -/
def exSrc (bad : List ℕ) : Src := ⟨fun n => if n ∈ bad then [100 + n] else [], fun _ => true⟩

/-- **C178**, disagreement: a clause at the end of a block is applied to a statement after the block, so
a program without violated assertions is rejected. -/
theorem dangling_fails : ∃ (s : Src) (n : ℕ) (kids : List Node), Mono s (.node n kids) ∧
    (¬ ∃ c k, Asserted (.node n kids) c k) ∧ invalid s (.node n kids) = true := by
  refine ⟨exSrc [0, 3], 0, [.node 1 [.node 2 [], .clause 7], .node 3 []], ?_, ?_, by decide +kernel⟩
  · intro m ks h n ks' hn hb
    have hb0 : ∀ n, Bad (exSrc [0, 3]) n → n = 0 ∨ n = 3 := by
      intro n h
      unfold Bad exSrc at h
      simp at h
      omega
    cases h with
    | refl => exact Or.inl (by decide)
    | child hk h =>
      simp only [List.mem_cons, List.not_mem_nil, or_false] at hk
      rcases hk with rfl | rfl
      · cases h with
        | refl =>
          simp only [List.mem_cons, List.not_mem_nil, or_false, Node.node.injEq, reduceCtorEq] at hn
          rcases hb0 n hb with h | h <;> omega
        | child hk h =>
          simp only [List.mem_cons, List.not_mem_nil, or_false] at hk
          rcases hk with rfl | rfl
          · cases h with
            | refl => cases hn
            | child hk => cases hk
          · cases h
      · cases h with
        | refl => cases hn
        | child hk => cases hk
  · rintro ⟨c, k, h⟩
    rw [asserted_node] at h
    rcases h with h | ⟨x, hx, h⟩
    · cases h with
      | there h => cases h with
        | there h => cases h
    · simp only [List.mem_cons, List.not_mem_nil, or_false] at hx
      rcases hx with rfl | rfl
      · rw [asserted_node] at h
        rcases h with h | ⟨x, hx, h⟩
        · cases h with
          | there h => cases h with
            | here h => cases h
            | there h => cases h
        · simp only [List.mem_cons, List.not_mem_nil, or_false] at hx
          rcases hx with rfl | rfl
          · rw [asserted_node] at h
            rcases h with h | ⟨x, hx, h⟩
            · cases h
            · cases hx
          · obtain ⟨m, ks, h, _⟩ := h
            cases h
      · rw [asserted_node] at h
        rcases h with h | ⟨x, hx, h⟩
        · cases h
        · cases hx

/-! ## C179: a module -/

theorem runAll_errs : ∀ (fs : List (Option (Src × Node))) (st : Bool × List Err),
    (runAll fs st).2 = st.2 ++ fs.flatMap fun f => match f with
      | none => []
      | some (s, t) => errors s t
  | [], st => by simp [runAll]
  | none :: fs, st => by
    rw [runAll, runAll_errs fs]
    simp
  | some (s, t) :: fs, st => by
    rw [runAll, runAll_errs fs]
    simp

/-- **C179**: each violated assertion of each processed unit is reported. -/
theorem all_reported (fs : List (Option (Src × Node))) (e : Err) :
    e ∈ (runAll fs (false, [])).2 ↔ ∃ s t, some (s, t) ∈ fs ∧ e ∈ errors s t := by
  rw [runAll_errs, List.nil_append, List.mem_flatMap]
  constructor
  · rintro ⟨f, hf, he⟩
    cases f with
    | none => cases he
    | some p => exact ⟨p.1, p.2, hf, he⟩
  · rintro ⟨s, t, hf, he⟩
    exact ⟨_, hf, he⟩

/-- **C179**, partial: if all functions belong to one translation unit then a module is marked as
invalid exactly if an error is reported. Missing: several units, see `last_fails`. -/
theorem result_partial (s : Src) (t : Node) : ∀ (fs : List (Option (Src × Node))),
    (∀ f ∈ fs, f = none ∨ f = some (s, t)) →
    ((runAll fs (false, [])).1 = true ↔ (runAll fs (false, [])).2 ≠ []) := by
  have key : ∀ (fs : List (Option (Src × Node))) (st : Bool × List Err),
      (∀ f ∈ fs, f = none ∨ f = some (s, t)) → (st.1 = true ↔ st.2 ≠ []) →
      (st.1 = true → invalid s t = true) →
      ((runAll fs st).1 = true ↔ (runAll fs st).2 ≠ []) := by
    intro fs
    induction fs with
    | nil => exact fun st _ h _ => h
    | cons f fs ih =>
      intro st hf h h'
      rcases hf f (by simp) with rfl | rfl
      · exact ih st (fun g hg => hf g (by simp [hg])) h h'
      · rw [runAll]
        refine ih _ (fun g hg => hf g (by simp [hg])) ?_ (fun h => h)
        simp only [ne_eq, List.append_eq_nil_iff, not_and]
        have hi : invalid s t = true ↔ errors s t ≠ [] := by
          unfold invalid
          cases errors s t <;> simp
        constructor
        · exact fun hv _ => hi.1 hv
        · intro hv
          cases hs : st.1 with
          | true => exact h' hs
          | false =>
            refine hi.2 (hv ?_)
            by_contra hne
            rw [h.2 hne] at hs
            cases hs
  exact fun fs hf => key fs (false, []) hf (by simp) (by simp)

/-- A unit: the statement 1 is asserted. -/
def exUnit : Node := .node 0 [.clause 7, .pragma, .node 1 [.clause 8, .node 2 []], .node 3 []]

/-- **C179**, disagreement: the result for the last function replaces results for other translation
units, so a module with reported errors is marked as valid. -/
theorem last_fails : ∃ (fs : List (Option (Src × Node))),
    (runAll fs (false, [])).2 ≠ [] ∧ (runAll fs (false, [])).1 = false :=
  ⟨[some (exSrc [0, 1], exUnit), some (exSrc [], .node 9 [])], by decide +kernel, by decide +kernel⟩

/-- **C179**, disagreement: an error is reported for each function of a translation unit. -/
theorem repeated_fails : ∃ (s : Src) (t : Node), (errors s t).length = 1 ∧
    ∀ n, (runAll (List.replicate n (some (s, t))) (false, [])).2.length = n := by
  refine ⟨exSrc [0, 1], exUnit, by decide +kernel, fun n => ?_⟩
  have h : (errors (exSrc [0, 1]) exUnit).length = 1 := by decide +kernel
  rw [runAll_errs]
  induction n with
  | zero => rfl
  | succ n ih =>
    rw [List.replicate_succ, List.flatMap_cons]
    simp only [List.nil_append, List.length_append] at ih ⊢
    omega

example : Asserted exUnit 7 1 := ⟨0, _, .refl, .here (.pragma .here)⟩
example : Asserted exUnit 8 2 :=
  ⟨1, _, .child (k := .node 1 [.clause 8, .node 2 []]) (by simp) .refl, .here .here⟩
example : errors (exSrc [0, 1]) exUnit = [.atMacro 7 101] := by decide +kernel
example : errors (exSrc [0, 3]) exUnit = [] := by decide +kernel

/-- Hypotheses of `rejected_partial` are met. -/
example : Attached exUnit ∧ Mono (exSrc [0, 1, 2]) exUnit := by
  have hs : ∀ m ks, Sub exUnit m ks → (m = 0 ∧ exUnit = .node 0 ks) ∨
      (m = 1 ∧ ks = [.clause 8, .node 2 []]) ∨ ks = [] := by
    intro m ks h
    cases h with
    | refl => exact Or.inl ⟨rfl, rfl⟩
    | child hk h =>
      simp only [List.mem_cons, List.not_mem_nil, or_false] at hk
      rcases hk with rfl | rfl | rfl | rfl
      · cases h
      · cases h
      · cases h with
        | refl => exact Or.inr (Or.inl ⟨rfl, rfl⟩)
        | child hk h =>
          simp only [List.mem_cons, List.not_mem_nil, or_false] at hk
          rcases hk with rfl | rfl
          · cases h
          · cases h with
            | refl => exact Or.inr (Or.inr rfl)
            | child hk => cases hk
      · cases h with
        | refl => exact Or.inr (Or.inr rfl)
        | child hk => cases hk
  constructor
  · intro m ks h pre c post e
    rcases hs m ks h with ⟨_, h⟩ | ⟨_, h⟩ | h
    · simp only [exUnit, Node.node.injEq, true_and] at h
      subst h
      rcases pre with _ | ⟨a, _ | ⟨b, _ | ⟨d, _ | ⟨f, _ | ⟨g, pre⟩⟩⟩⟩⟩ <;> simp at e
      obtain ⟨_, rfl⟩ := e
      exact ⟨1, .pragma .here⟩
    · subst h
      rcases pre with _ | ⟨a, _ | ⟨b, _ | ⟨d, pre⟩⟩⟩ <;> simp at e
      obtain ⟨_, rfl⟩ := e
      exact ⟨2, .here⟩
    · subst h
      simp at e
  · intro m ks h n ks' hn _
    rcases hs m ks h with ⟨rfl, _⟩ | ⟨rfl, _⟩ | rfl
    · exact Or.inl (by decide)
    · exact Or.inl (by decide)
    · cases hn

end Tsar.NoMacro
