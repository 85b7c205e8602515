import Verif.MemSet.Inter

/-!
# Queries, merge, intersection and equality of sets
-/

namespace Tsar.MemSet

open Tsar.Range

/-- Properties of a list of tails in the loops of `findContaining` and `subtractFrom`. -/
def TailsOK (o : Obj) (p : Option Nat) (tails : List Loc) : Prop :=
  ∀ t ∈ tails, t.ptr = p ∧ WfLoc o t

theorem stepTails_spec {o : Obj} {S : Solver} (hS : SolverOK S) {p : Option Nat} {c : Loc}
    {tails : List Loc} (hc : c.ptr = p ∧ WfLoc o c) (ht : TailsOK o p tails) :
    TailsOK o p (stepTails S c tails) ∧
    (∀ b, (∃ t ∈ tails, Reach t b) → (∃ t ∈ stepTails S c tails, Reach t b) ∨ Reach c b) ∧
    (∀ b, (∃ t ∈ stepTails S c tails, Reach t b) → ∃ t ∈ tails, Reach t b) := by
  have hmem : ∀ x, x ∈ stepTails S c tails ↔ ∃ t ∈ tails,
      x ∈ tailStep S c t := by
    intro x; unfold stepTails; rw [List.mem_flatMap]
  have hok : ∀ t ∈ tails, InterOK o c t true (intersect S false true threshold c t) :=
    fun t h => interOK hS (hc.1.trans (ht t h).1.symm) hc.2 (ht t h).2
  refine ⟨?_, ?_, ?_⟩
  · intro x hx
    obtain ⟨t, htm, hx⟩ := (hmem x).1 hx
    have h := hok t htm
    unfold tailStep at hx
    rcases hq : intersect S false true threshold c t with ⟨q, lc, rc⟩
    rw [hq] at h hx
    have hpc := h.pieces
    simp only at hpc
    cases q <;> simp only [List.mem_append, List.mem_singleton] at hx
    case exact m =>
      have := hpc x hx
      exact ⟨this.1.trans (ht t htm).1, this.2.1⟩
    all_goals
      rcases hx with hx | rfl
      · have := hpc x hx
        exact ⟨this.1.trans (ht t htm).1, this.2.1⟩
      · exact ht _ htm
  · rintro b ⟨t, htm, hr⟩
    have h := hok t htm
    rcases hq : intersect S false true threshold c t with ⟨q, lc, rc⟩
    rw [hq] at h
    cases q with
    | exact m =>
      by_cases hcb : Reach c b
      · exact Or.inr hcb
      · obtain ⟨x, hx, hxb⟩ := ((h.exact m rfl).2.2.2 rfl b).2 ⟨hr, hcb⟩
        left
        refine ⟨x, (hmem x).2 ⟨t, htm, ?_⟩, hxb⟩
        unfold tailStep; rw [hq]; exact hx
    | ub => exact absurd rfl h.noUb
    | none =>
      left
      refine ⟨t, (hmem t).2 ⟨t, htm, ?_⟩, hr⟩
      unfold tailStep; rw [hq]; simp
    | unknown =>
      left
      refine ⟨t, (hmem t).2 ⟨t, htm, ?_⟩, hr⟩
      unfold tailStep; rw [hq]; simp
  · rintro b ⟨x, hx, hr⟩
    obtain ⟨t, htm, hx⟩ := (hmem x).1 hx
    have h := hok t htm
    unfold tailStep at hx
    rcases hq : intersect S false true threshold c t with ⟨q, lc, rc⟩
    rw [hq] at h hx
    have hpc := h.pieces
    simp only at hpc
    refine ⟨t, htm, ?_⟩
    cases q <;> simp only [List.mem_append, List.mem_singleton] at hx
    case exact m => exact (hpc x hx).2.2 b hr
    all_goals
      rcases hx with hx | rfl
      · exact (hpc x hx).2.2 b hr
      · exact hr

theorem tailsOf_spec {o : Obj} {S : Solver} (hS : SolverOK S) {p : Option Nat} :
    ∀ {cs tails : List Loc}, (∀ c ∈ cs, c.ptr = p ∧ WfLoc o c) → TailsOK o p tails →
    TailsOK o p (tailsOf S cs tails) ∧
    (∀ b, (∃ t ∈ tails, Reach t b) →
      (∃ t ∈ tailsOf S cs tails, Reach t b) ∨ ∃ c ∈ cs, Reach c b) ∧
    (∀ b, (∃ t ∈ tailsOf S cs tails, Reach t b) → ∃ t ∈ tails, Reach t b)
  | [], tails, _, ht => ⟨ht, fun _ h => Or.inl h, fun _ h => h⟩
  | c :: cs, tails, hc, ht => by
    obtain ⟨s1, s2, s3⟩ := stepTails_spec hS (hc c (by simp)) ht
    obtain ⟨i1, i2, i3⟩ := tailsOf_spec hS (cs := cs) (fun c h => hc c (by simp [h])) s1
    refine ⟨i1, ?_, fun b h => s3 b (i3 b h)⟩
    intro b h
    rcases s2 b h with h | h
    · rcases i2 b h with h | ⟨c', hc', h⟩
      · exact Or.inl h
      · exact Or.inr ⟨c', by simp [hc'], h⟩
    · exact Or.inr ⟨c, by simp, h⟩

/-- A non-empty byte range with known bounds. -/
def Solid (l : Loc) : Prop :=
  l.kind.collapsed = false ∧ l.dims = [] ∧ ∃ lo up, l.lower = some lo ∧ l.upper = some up ∧ lo < up

theorem stepTails_solid {S : Solver} {p : Option Nat} {c : Loc} {tails : List Loc}
    (hp : p ≠ none) (hc : c.ptr = p ∧ c.kind.collapsed = false ∧ c.IsScalar)
    (ht : ∀ t ∈ tails, t.ptr = p ∧ Solid t) :
    (∀ t ∈ stepTails S c tails, t.ptr = p ∧ Solid t) ∧
    ∀ b, (∃ t ∈ stepTails S c tails, Reach t b) ↔ (∃ t ∈ tails, Reach t b) ∧ ¬ Reach c b := by
  obtain ⟨hcp, hcc, _, cl, cu, hcl, hcu⟩ := hc
  have key : ∀ t ∈ tails, ∃ xs : List Loc,
      tailStep S c t = xs ∧ (∀ x ∈ xs, x.ptr = p ∧ Solid x) ∧
      ∀ b, (∃ x ∈ xs, Reach x b) ↔ Reach t b ∧ ¬ Reach c b := by
    intro t htm
    obtain ⟨htp, htc, htd, tl, tu, htl, htu, hlt⟩ := ht t htm
    unfold tailStep
    rw [intersect_scalars (hcp.trans htp.symm) (hcp ▸ hp) hcc htc]
    unfold intersectScalar
    rw [if_neg (by simp [hcp, htp]), if_neg (by simp [hcc, htc])]
    simp only [hcl, hcu, htl, htu]
    by_cases h : cu > tl ∧ cl < tu
    · rw [if_pos h]
      refine ⟨_, rfl, ?_, ?_⟩
      · intro x hx
        simp only [List.mem_append] at hx
        rcases hx with hx | hx <;> split at hx <;> simp only [List.mem_singleton, List.not_mem_nil] at hx
        · subst hx
          exact ⟨htp, htc, htd, tl, _, rfl, rfl, by omega⟩
        · subst hx
          exact ⟨htp, htc, htd, _, tu, rfl, rfl, by omega⟩
      · intro b
        by_cases h1 : tl < max cl tl <;> by_cases h2 : tu > min cu tu <;>
          simp only [h1, h2, if_true, if_false, List.mem_append, List.mem_singleton,
            List.not_mem_nil, or_false, false_or, exists_eq_left, or_and_right, exists_or,
            false_and, exists_false] <;>
          simp [Reach, hcc, htc, hcl, hcu, htl, htu] <;> omega
    · rw [if_neg h]
      refine ⟨[t], rfl, ?_, ?_⟩
      · intro x hx
        simp only [List.mem_singleton] at hx
        subst hx
        exact ht _ htm
      · intro b
        simp [Reach, hcc, htc, hcl, hcu, htl, htu]
        omega
  constructor
  · intro x hx
    unfold stepTails at hx
    obtain ⟨t, htm, hx⟩ := List.mem_flatMap.1 hx
    obtain ⟨xs, h1, h2, _⟩ := key t htm
    rw [h1] at hx
    exact h2 x hx
  · intro b
    unfold stepTails
    simp only [List.mem_flatMap]
    constructor
    · rintro ⟨x, ⟨t, htm, hx⟩, hr⟩
      obtain ⟨xs, h1, _, h3⟩ := key t htm
      rw [h1] at hx
      have := (h3 b).1 ⟨x, hx, hr⟩
      exact ⟨⟨t, htm, this.1⟩, this.2⟩
    · rintro ⟨⟨t, htm, hr⟩, hn⟩
      obtain ⟨xs, h1, _, h3⟩ := key t htm
      obtain ⟨x, hx, hxr⟩ := (h3 b).2 ⟨hr, hn⟩
      exact ⟨x, ⟨t, htm, h1 ▸ hx⟩, hxr⟩

theorem tailsOf_solid {S : Solver} {p : Option Nat} (hp : p ≠ none) :
    ∀ {cs tails : List Loc}, (∀ c ∈ cs, c.ptr = p ∧ c.kind.collapsed = false ∧ c.IsScalar) →
    (∀ t ∈ tails, t.ptr = p ∧ Solid t) →
    (∀ t ∈ tailsOf S cs tails, t.ptr = p ∧ Solid t) ∧
    ∀ b, (∃ t ∈ tailsOf S cs tails, Reach t b) ↔
      (∃ t ∈ tails, Reach t b) ∧ ¬ ∃ c ∈ cs, Reach c b
  | [], tails, _, ht => ⟨ht, fun b => by simp [tailsOf]⟩
  | c :: cs, tails, hc, ht => by
    obtain ⟨s1, s2⟩ := stepTails_solid (S := S) hp (hc c (by simp)) ht
    obtain ⟨i1, i2⟩ := tailsOf_solid hp (cs := cs) (fun c h => hc c (by simp [h])) s1
    refine ⟨i1, fun b => ?_⟩
    simp only [tailsOf, i2, s2, List.mem_cons, or_and_right, exists_or, exists_eq_left, not_or,
      and_assoc]

theorem any_of_locs {s : MSet} {p : Option Nat} {l : Loc} (h : l ∈ locs s p) :
    (s.any fun e => decide (e.1 = p)) = true := by
  by_contra hn
  rw [locs_of_not_any hn] at h
  simp at h

theorem coveredBy_spec {ob : Option Nat → Obj} {S : Solver} (hS : SolverOK S) {s : MSet}
    (h : SetWf ob s) {loc : Loc} (hl : WfLoc (ob loc.ptr) loc) :
    (∀ m ∈ coveredBy S s loc, m.ptr = loc.ptr ∧ WfLoc (ob m.ptr) m) ∧
    ∀ b, (∃ m ∈ coveredBy S s loc, Reach m b) → SetByte s loc.ptr b ∧ Reach loc b := by
  have key : ∀ m ∈ coveredBy S s loc, m.ptr = loc.ptr ∧ WfLoc (ob m.ptr) m ∧
      ∀ b, Reach m b → SetByte s loc.ptr b ∧ Reach loc b := by
    intro m hm
    unfold coveredBy at hm
    obtain ⟨c, hc, hm⟩ := List.mem_filterMap.1 hm
    have hcw := locs_wf h hc
    have hi := interOK hS (wl := false) (wr := false) (th := threshold) hcw.1 hcw.2 hl
    split at hm
    · rename_i m' hq
      obtain rfl := Option.some.inj hm
      obtain ⟨e1, e2, e3, _⟩ := hi.exact _ hq
      have hpp : m'.ptr = loc.ptr := e1.trans hcw.1
      refine ⟨hpp, hpp.symm ▸ e2, ?_⟩
      intro b hb
      have := (e3 b).1 hb
      exact ⟨(setByte_iff h).2 ⟨c, hc, this.1⟩, this.2⟩
    · simp at hm
  exact ⟨fun m hm => ⟨(key m hm).1, (key m hm).2.1⟩,
    fun b ⟨m, hm, hr⟩ => (key m hm).2.2 b hr⟩

theorem foldl_merge {ob : Option Nat → Obj} : ∀ {ls : List Loc} {acc : MSet × Bool},
    SetWf ob acc.1 → (∀ l ∈ ls, WfLoc (ob l.ptr) l) →
    let r := ls.foldl (fun acc loc => ((insert acc.1 loc).1, acc.2 || (insert acc.1 loc).2)) acc
    SetWf ob r.1 ∧ (∀ p b, SetByte r.1 p b ↔ SetByte acc.1 p b ∨ ListByte ls p b) ∧
    (r.2 = false → acc.2 = false ∧ r.1 = acc.1)
  | [], acc, h, _ => by simp [h, ListByte]
  | l :: ls, acc, h, hl => by
    obtain ⟨h1, h2, h3⟩ := insert_spec h (hl l (by simp))
    obtain ⟨i1, i2, i3⟩ := foldl_merge (ls := ls)
      (acc := ((insert acc.1 l).1, acc.2 || (insert acc.1 l).2)) h1
      (fun l hm => hl l (by simp [hm]))
    simp only [List.foldl_cons]
    refine ⟨i1, ?_, ?_⟩
    · intro p b
      rw [i2, h2]
      simp only [ListByte, List.mem_cons, or_and_right, exists_or, exists_eq_left]
      rw [or_assoc, eq_comm (a := p)]
    · intro h
      obtain ⟨h4, h5⟩ := i3 h
      simp only [Bool.or_eq_false_iff] at h4
      exact ⟨h4.1, h5.trans (h3.1 h4.2)⟩

theorem sanitizeFrom_reach : ∀ {cs : List Loc} {back : Loc},
    back.kind.collapsed = false → (∃ lo, back.lower = some lo) →
    (∀ c ∈ cs, c.kind.collapsed = false ∧ ∃ lo, c.lower = some lo) →
    ∀ b, (∃ l ∈ sanitizeFrom back cs, Reach l b) ↔ Reach back b ∨ ∃ c ∈ cs, Reach c b
  | [], back, _, _, _ => fun b => by simp [sanitizeFrom]
  | c :: cs, back, hb, ⟨lo, hlo⟩, hc => fun b => by
    obtain ⟨hcc, lo', hlo'⟩ := hc c (by simp)
    have hcs := fun c' h => hc c' (List.mem_cons_of_mem c h)
    unfold sanitizeFrom
    by_cases h : (sizeLt c.lower back.upper && sizeLt back.lower c.upper) = true
    · have ih := sanitizeFrom_reach (cs := cs)
        (back := { back with
          lower := if sizeLt back.lower c.lower then back.lower else c.lower,
          upper := if sizeLt c.upper back.upper then back.upper else c.upper }) hb
        (by simp only [hlo, hlo', sizeLt]; split <;> exact ⟨_, rfl⟩) hcs b
      rw [if_pos h, ih]
      simp only [List.mem_cons, or_and_right, exists_or, exists_eq_left, ← or_assoc]
      apply or_congr_left
      simp only [Bool.and_eq_true, hlo, hlo'] at h
      simp only [Reach, hb, hcc, hlo, hlo', Bool.false_eq_true, if_false, Option.some.injEq,
        exists_eq_left']
      cases hu1 : back.upper with
      | none =>
        cases hu2 : c.upper with
        | none =>
          simp [sizeLt]
          by_cases h3 : lo < lo' <;> simp [h3] <;> omega
        | some b2 =>
          simp [hu1, hu2, sizeLt] at h ⊢
          by_cases h3 : lo < lo' <;> simp [h3] <;> omega
      | some b1 =>
        cases hu2 : c.upper with
        | none =>
          simp [hu1, hu2, sizeLt] at h ⊢
          by_cases h3 : lo < lo' <;> simp [h3] <;> omega
        | some b2 =>
          simp [hu1, hu2, sizeLt] at h ⊢
          by_cases h3 : lo < lo' <;> by_cases h4 : b2 < b1 <;> simp [h3, h4] <;> omega
    · rw [if_neg h]
      simp only [List.mem_cons, or_and_right, exists_or, exists_eq_left]
      rw [sanitizeFrom_reach hcc ⟨lo', hlo'⟩ hcs]

end Tsar.MemSet
