import Verif.DbgValue.Props
/-!
# Other properties of the search, witnesses and examples
-/
namespace Tsar.DbgValue

variable {F : Func} {dominates : Pos → Pos → Bool} {V : Nat} {users : List Pos}

/-- **C111.** The location `findMetadata` returns is one of reported locations, so that it holds the value as well. -/
theorem findFirst_mem {domBB : Nat → Nat → Bool} {l : Loc} (h : findFirst F dominates V users domBB = some l) :
    l ∈ findMetadata F dominates V users := List.mem_of_find?_eq_some h

theorem firstIn_true {l l' : Loc} (hd : l'.expr.hasDeref = false) (hne : l' ≠ l) : ∀ {is : List Inst},
    firstIn V l l' is = true → ∀ k : Nat, is[k]? = some (Inst.dbg V l') → ∃ j < k, is[j]? = some (Inst.dbg V l) := by
  intro is
  induction is with
  | nil => intro _ k h; simp at h
  | cons i is ih =>
    intro h k hk
    have step : firstIn V l l' is = true → i ≠ .dbg V l' → ∃ j < k, (i :: is)[j]? = some (Inst.dbg V l) := by
      intro h hi
      cases k with
      | zero => exact absurd (by simpa using hk) hi
      | succ k =>
        obtain ⟨j, h1, h2⟩ := ih h k (by simpa using hk)
        exact ⟨j + 1, by omega, by simpa using h2⟩
    cases i with
    | dbg v m =>
      simp only [firstIn] at h
      split at h
      · next hc =>
        obtain ⟨rfl, hc⟩ := hc
        split at h
        · next he =>
          subst he
          cases k with
          | zero => simp at hk; exact absurd hk.symm hne
          | succ k => exact ⟨0, by omega, rfl⟩
        · split at h
          · cases h
          · next he => exact step h (fun hx => by cases hx; exact he rfl)
      · next hc => exact step h (fun hx => by cases hx; exact hc ⟨rfl, hd⟩)
    | dfn v => exact step h (by simp)
    | other => exact step h (by simp)

/-- **C111.** Let `findMetadata` return a location. A block which associates another reported location with the value
is dominated by any block which associates the returned one, and inside a common block the returned one is associated
with the value first. So it is the variable which got the value before the others. -/
theorem findFirst_first {domBB : Nat → Nat → Bool} {l l' : Loc} (h : findFirst F dominates V users domBB = some l)
    (hl' : l' ∈ findMetadata F dominates V users) (hne : l' ≠ l)
    {p p' : Pos} (hp : (p, l) ∈ domDbg F dominates V users) (hp' : (p', l') ∈ domDbg F dominates V users) :
    (p.1 ≠ p'.1 → domBB p.1 p'.1 = true) ∧
    (p.1 = p'.1 → ∃ j < p'.2, F.inst? (p'.1, j) = some (.dbg V l)) := by
  have h1 := List.find?_some h
  simp only [List.all_eq_true, Bool.or_eq_true, beq_iff_eq, List.mem_filter, List.mem_range, and_imp] at h1
  have blk : ∀ {q m}, (q, m) ∈ domDbg F dominates V users → q.1 < F.blocks.length ∧
      domBlock F dominates V users m q.1 = true := by
    intro q m hq
    refine ⟨?_, ?_⟩
    · have := (mem_domDbg hq).1
      simp only [Func.inst?, Func.block] at this
      by_contra hlt
      rw [List.getD_eq_getElem?_getD, List.getElem?_eq_none (l := F.blocks) (by omega)] at this
      simp at this
    · simp only [domBlock, List.any_eq_true, Bool.and_eq_true, beq_iff_eq]
      exact ⟨(q, m), hq, rfl, rfl⟩
  have h2 := (h1 l' hl').resolve_left hne p'.1 (blk hp').1 (blk hp').2 p.1 (blk hp).1 (blk hp).2
  constructor
  · intro hb; rwa [if_neg hb] at h2
  · intro hb
    rw [if_pos hb, hb] at h2
    exact firstIn_true (mem_domDbg hp').2.1 hne h2 p'.2 (mem_domDbg hp').1

/-- **C111.** The backward traversal visits a block at most once, so it terminates. -/
theorem search_total (hF : ∀ b, ∀ p ∈ F.preds b, p < F.blocks.length) (isAlias isDom : Nat → Bool) (b : Nat) :
    (search F isAlias isDom (F.blocks.length + 1) [b] []).isSome :=
  search_some F.blocks.length hF _ _ _ List.nodup_nil (by simp) (by simp; omega)

/-- **C111.** Fragments of a variable may alias exactly if they have a common bit. -/
theorem mayAlias_iff (o s o' s' : Nat) :
    mayAlias (.frag o s) (.frag o' s') = true ↔ ∃ bit, Expr.covers (.frag o s) bit ∧ Expr.covers (.frag o' s') bit := by
  constructor
  · intro h
    simp only [mayAlias] at h
    split at h
    · cases h
    · simp only [Bool.or_eq_true, beq_iff_eq, Bool.and_eq_true, decide_eq_true_eq] at h
      refine ⟨max o o', ?_⟩
      simp only [Expr.covers]
      omega
  · rintro ⟨bit, h1, h2⟩
    exact mayAlias_of_covers h1 h2

/-! ## Straight-line functions -/

/-- A function with a single block. -/
def line (is : List Inst) : Func := ⟨[is], fun _ => []⟩

def lineDom (p q : Pos) : Bool := p.1 == 0 && q.1 == 0 && decide (p.2 < q.2)

theorem line_trace {is : List Inst} : ∀ {t}, Trace (line is) t → ∀ q t', t = q :: t' → q.1 = 0 ∧ ∀ j < q.2, (0, j) ∈ t' := by
  intro t h
  induction h with
  | start => intro q t' h; cases h; exact ⟨rfl, by simp⟩
  | @next p t h hl ih =>
    intro q t' hq
    cases hq
    obtain ⟨h1, h2⟩ := ih p t rfl
    refine ⟨h1, fun j hj => ?_⟩
    rcases Nat.lt_succ_iff_lt_or_eq.1 hj with hj | rfl
    · exact List.mem_cons_of_mem _ (h2 j hj)
    · obtain ⟨a, b⟩ := p
      simp only at h1
      subst h1
      exact List.mem_cons_self
  | jump h hl hb ih => cases hb

theorem lineDom_dom {is : List Inst} (p q : Pos) (h : lineDom p q = true) : Dom (line is) p q := by
  intro t ht
  simp only [lineDom, Bool.and_eq_true, beq_iff_eq, decide_eq_true_eq] at h
  obtain ⟨a, b⟩ := p
  obtain ⟨⟨rfl, _⟩, h2⟩ := h
  exact (line_trace ht q t rfl).2 b h2

theorem line_block {is : List Inst} {b : Nat} {i : Inst} {k : Nat} (h : (line is).inst? (b, k) = some i) :
    b = 0 ∧ is[k]? = some i := by
  cases b with
  | zero => exact ⟨rfl, h⟩
  | succ b => simp [Func.inst?, Func.block, line] at h

theorem tr4 (is : List Inst) (h : 3 < is.length) : Trace (line is) [(0, 4), (0, 3), (0, 2), (0, 1), (0, 0)] :=
  .next (.next (.next (.next .start (by simp [Func.block, line]; omega)) (by simp [Func.block, line]; omega))
    (by simp [Func.block, line]; omega)) (by simp [Func.block, line]; omega)

/-- A value is assigned to a variable, then the first byte of the variable is changed:
`x = v; x.byte0 = w; use(v)`. -/
def fragProg : List Inst := [.dfn 7, .dfn 8, .dbg 7 ⟨0, .whole⟩, .dbg 8 ⟨0, .frag 0 8⟩, .other]

/-- `x = v; x is in memory now; use(v)`. -/
def derefProg : List Inst := [.dfn 7, .dfn 8, .dbg 7 ⟨0, .whole⟩, .dbg 8 ⟨0, .other 1 true⟩, .other]

theorem line_ssa {is : List Inst} {v k : Nat} (hk : ∀ p, is[p]? = some (.dfn v) → p = k)
    (hd : ∀ d l, is[d]? = some (.dbg v l) → k < d) : Ssa (line is) v := by
  rintro ⟨b, i⟩ h
  obtain ⟨rfl, h⟩ := line_block h
  cases hk _ h
  refine ⟨?_, ?_⟩
  · rintro ⟨b', i'⟩ h'
    obtain ⟨rfl, h'⟩ := line_block h'
    cases hk _ h'
    rfl
  · rintro ⟨b', d⟩ l h'
    obtain ⟨rfl, h'⟩ := line_block h'
    exact lineDom_dom _ _ (by simp [lineDom, hd _ _ h'])

theorem fragProg_ssa : Ssa (line fragProg) 7 := by
  apply line_ssa (k := 0)
  · intro p h
    match p with
    | 0 => rfl
    | 1 => simp [fragProg] at h
    | 2 => simp [fragProg] at h
    | 3 => simp [fragProg] at h
    | 4 => simp [fragProg] at h
    | n + 5 => simp [fragProg] at h
  · intro d l h
    match d with
    | 0 => simp [fragProg] at h
    | n + 1 => omega

theorem derefProg_ssa : Ssa (line derefProg) 7 := by
  apply line_ssa (k := 0)
  · intro p h
    match p with
    | 0 => rfl
    | 1 => simp [derefProg] at h
    | 2 => simp [derefProg] at h
    | 3 => simp [derefProg] at h
    | 4 => simp [derefProg] at h
    | n + 5 => simp [derefProg] at h
  · intro d l h
    match d with
    | 0 => simp [derefProg] at h
    | n + 1 => omega

/-- **C111, negation.** `hclean` of `findMetadata_partial` cannot be omitted: the backward traversal of the user's
block only looks for intrinsics with the same expression, so a change of a part of the variable is missed
(`findAliasBlocks` takes parts into account, but it is not consulted for the block of the user). -/
theorem findMetadata_fails : ∃ (F : Func) (dominates : Pos → Pos → Bool) (V : Nat) (users : List Pos) (l : Loc)
    (u : Pos) (t : List Pos), (∀ p q, dominates p q = true → Dom F p q) ∧ Ssa F V ∧
    (∀ u ∈ users, ∀ v l', F.inst? u ≠ some (.dbg v l')) ∧
    (∀ p v l', F.inst? p = some (.dbg v l') → l'.var = l.var → l'.expr.hasDeref = false) ∧
    l ∈ findMetadata F dominates V users ∧ u ∈ users ∧ Trace F (u :: t) ∧
    ∀ o s₀, ¬ Holds (stateOf F o s₀ t) V l := by
  refine ⟨line fragProg, lineDom, 7, [(0, 4)], ⟨0, .whole⟩, (0, 4), [(0, 3), (0, 2), (0, 1), (0, 0)], lineDom_dom,
    fragProg_ssa, ?_, ?_, by decide +kernel, by simp, tr4 _ (by simp [fragProg]), ?_⟩
  · intro u hu v l' h
    simp only [List.mem_singleton] at hu
    subst hu
    simp [Func.inst?, Func.block, line, fragProg] at h
  · rintro ⟨b, k⟩ v l' hi _
    obtain ⟨rfl, h⟩ := line_block hi
    clear hi
    match k with
    | 0 => simp [fragProg] at h
    | 1 => simp [fragProg] at h
    | 2 => simp [fragProg] at h; rw [← h.2]; rfl
    | 3 => simp [fragProg] at h; rw [← h.2]; rfl
    | 4 => simp [fragProg] at h
    | n + 5 => simp [fragProg] at h
  · intro o s₀ h
    have := h 0 trivial
    simp [stateOf, exec, Func.inst?, Func.block, line, fragProg, Expr.covers] at this

/-- **C111, negation.** `hderef` of `findMetadata_partial` cannot be omitted: intrinsics with a dereference are
skipped, although the variable does not hold the value after such an intrinsic. -/
theorem findMetadata_deref_fails : ∃ (F : Func) (dominates : Pos → Pos → Bool) (V : Nat) (users : List Pos) (l : Loc)
    (u : Pos) (t : List Pos), (∀ p q, dominates p q = true → Dom F p q) ∧ Ssa F V ∧
    (∀ u ∈ users, ∀ v l', F.inst? u ≠ some (.dbg v l')) ∧
    l ∈ findMetadata F dominates V users ∧ u ∈ users ∧ Trace F (u :: t) ∧
    ∀ o s₀, ¬ Holds (stateOf F o s₀ t) V l := by
  refine ⟨line derefProg, lineDom, 7, [(0, 4)], ⟨0, .whole⟩, (0, 4), [(0, 3), (0, 2), (0, 1), (0, 0)], lineDom_dom,
    derefProg_ssa, ?_, by decide +kernel, by simp, tr4 _ (by simp [derefProg]), ?_⟩
  · intro u hu v l' h
    simp only [List.mem_singleton] at hu
    subst hu
    simp [Func.inst?, Func.block, line, derefProg] at h
  · intro o s₀ h
    have := h 0 trivial
    simp [stateOf, exec, Func.inst?, Func.block, line, derefProg, Expr.covers] at this

/-! ## Examples -/

/-- A loop: `v = ...; x = v; do { y = x (a user of v is here) } while (...)`: the value is used in the block 1 which is
its own predecessor. -/
def loopF : Func := ⟨[[.dfn 7, .dbg 7 ⟨0, .whole⟩], [.other, .dbg 7 ⟨1, .whole⟩]], fun b => if b = 1 then [0, 1] else []⟩

def loopDom (p q : Pos) : Bool := p == (0, 1) && q.1 == 1

theorem loopDom_dom (p q : Pos) (h : loopDom p q = true) : Dom loopF p q := by
  simp only [loopDom, Bool.and_eq_true, beq_iff_eq] at h
  obtain ⟨rfl, hq⟩ := h
  have inv : ∀ {t}, Trace loopF t → ∀ q t', t = q :: t' → (q.1 = 0 ∧ q.2 ≤ 1) ∨ (0, 1) ∈ t' := by
    intro t h
    induction h with
    | start => intro q t' h; cases h; left; simp
    | @next p t h hl ih =>
      intro q t' hq
      cases hq
      rcases ih p t rfl with ⟨h1, h2⟩ | h2
      · obtain ⟨a, b⟩ := p
        simp only at h1 h2
        subst h1
        rcases Nat.lt_or_eq_of_le h2 with h2 | rfl
        · left; simp; omega
        · right; simp
      · right; simp [h2]
    | @jump p t b h hl hb ih =>
      intro q t' hq
      cases hq
      right
      rcases ih p t rfl with ⟨h1, h2⟩ | h2
      · obtain ⟨a, b⟩ := p
        simp only at h1 h2
        subst h1
        simp [Func.block, loopF] at hl
        omega
      · simp [h2]
  intro t ht
  rcases inv ht q t rfl with ⟨h1, _⟩ | h
  · omega
  · exact h

-- x holds the value in the loop, y does not: it has not been assigned before the first iteration.
example : findMetadata loopF loopDom 7 [(1, 0)] = [⟨0, .whole⟩] := by decide +kernel
example : findFirst loopF loopDom 7 [(1, 0)] (fun b b' => decide (b ≤ b')) = some ⟨0, .whole⟩ := by decide +kernel

-- The hypotheses of `findMetadata_partial` hold for the loop.
example (t : List Pos) (ht : Trace loopF ((1, 0) :: t)) (o : Nat → Int) (s₀ : State) :
    Holds (stateOf loopF o s₀ t) 7 ⟨0, .whole⟩ := by
  have cases : ∀ b k i, loopF.inst? (b, k) = some i → (b = 0 ∧ k = 0 ∧ i = .dfn 7) ∨
      (b = 0 ∧ k = 1 ∧ i = .dbg 7 ⟨0, .whole⟩) ∨ (b = 1 ∧ k = 0 ∧ i = .other) ∨
      (b = 1 ∧ k = 1 ∧ i = .dbg 7 ⟨1, .whole⟩) := by
    intro b k i h
    match b, k with
    | 0, 0 => simp [Func.inst?, Func.block, loopF] at h; simp [h]
    | 0, 1 => simp [Func.inst?, Func.block, loopF] at h; simp [h]
    | 0, n + 2 => simp [Func.inst?, Func.block, loopF] at h
    | 1, 0 => simp [Func.inst?, Func.block, loopF] at h; simp [h]
    | 1, 1 => simp [Func.inst?, Func.block, loopF] at h; simp [h]
    | 1, n + 2 => simp [Func.inst?, Func.block, loopF] at h
    | n + 2, k => simp [Func.inst?, Func.block, loopF] at h
  refine findMetadata_partial loopDom_dom ?_ ?_ ?_ ?_ (by decide +kernel) (List.mem_singleton.2 rfl) ht o s₀
  · rintro ⟨b, k⟩ h
    rcases cases _ _ _ h with ⟨rfl, rfl, _⟩ | ⟨rfl, rfl, h⟩ | ⟨rfl, rfl, h⟩ | ⟨rfl, rfl, h⟩ <;> try cases h
    refine ⟨?_, ?_⟩
    · rintro ⟨b, k⟩ h
      rcases cases _ _ _ h with ⟨rfl, rfl, _⟩ | ⟨rfl, rfl, h⟩ | ⟨rfl, rfl, h⟩ | ⟨rfl, rfl, h⟩ <;> first | rfl | cases h
    · rintro d l hd t ht
      have inv : ∀ {t}, Trace loopF t → ∀ q t', t = q :: t' → q = (0, 0) ∨ (0, 0) ∈ t' := by
        intro t h
        induction h with
        | start => intro q t' h; cases h; left; rfl
        | @next p t h hl ih =>
          intro q t' hq
          cases hq
          right
          rcases ih p t rfl with h | h <;> simp [h]
        | @jump p t b h hl hb ih =>
          intro q t' hq
          cases hq
          right
          rcases ih p t rfl with h | h <;> simp [h]
      rcases inv ht d t rfl with rfl | h
      · simp [Func.inst?, Func.block, loopF] at hd
      · exact h
  · intro u hu v l' h
    simp only [List.mem_singleton] at hu
    subst hu
    simp [Func.inst?, Func.block, loopF] at h
  · rintro ⟨b, k⟩ v l' h _
    rcases cases _ _ _ h with ⟨rfl, rfl, h⟩ | ⟨rfl, rfl, h⟩ | ⟨rfl, rfl, h⟩ | ⟨rfl, rfl, h⟩ <;> cases h <;> rfl
  · intro u hu j hj
    simp only [List.mem_singleton] at hu
    subst hu
    cases hj

-- If the variable is changed at the end of the loop, it is not reported.
example : findMetadata ⟨[[.dfn 7, .dbg 7 ⟨0, .whole⟩], [.other, .dbg 8 ⟨0, .whole⟩]], fun b => if b = 1 then [0, 1] else []⟩
    loopDom 7 [(1, 0)] = [] := by decide +kernel
-- A change of another part of the variable does not matter.
example : findMetadata ⟨[[.dfn 7, .dbg 7 ⟨0, .frag 0 8⟩], [.other, .dbg 8 ⟨0, .frag 8 8⟩]], fun b => if b = 1 then [0, 1] else []⟩
    loopDom 7 [(1, 0)] = [⟨0, .frag 0 8⟩] := by decide +kernel
-- `x = v; y = x; use(v)`: `x` is returned.
example : findFirst (line [.dfn 7, .dbg 7 ⟨0, .whole⟩, .dbg 7 ⟨1, .whole⟩, .other]) lineDom 7 [(0, 3)] (fun _ _ => true) =
    some ⟨0, .whole⟩ := by decide +kernel

end Tsar.DbgValue
