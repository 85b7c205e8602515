import Verif.DbgValue.Lemmas
/-!
# A variable which is reported for a value holds this value
-/
namespace Tsar.DbgValue

variable {F : Func} {dominates : Pos → Pos → Bool} {V : Nat} {users : List Pos}

theorem mem_domDbg {d : Pos} {l : Loc} (h : (d, l) ∈ domDbg F dominates V users) :
    F.inst? d = some (.dbg V l) ∧ l.expr.hasDeref = false ∧ ∀ u ∈ users, dominates d u = true := by
  simp only [domDbg, List.mem_flatMap, List.mem_filterMap] at h
  obtain ⟨b, _, x, hx, h⟩ := h
  obtain ⟨i, k⟩ := x
  have hk := List.mem_zipIdx_iff_getElem?.1 hx
  cases i with
  | dbg v l' =>
    simp only at h
    split at h
    · next hc =>
      simp only [Option.some.injEq, Prod.mk.injEq] at h
      obtain ⟨rfl, rfl⟩ := h
      obtain ⟨rfl, h2, h3⟩ := hc
      exact ⟨hk, h2, by simpa using h3⟩
    · cases h
  | dfn v => cases h
  | other => cases h

theorem scan_some {l : Loc} : ∀ {is : List Inst} {r : Bool}, scan V l is = some r →
    ∃ (k : Nat) (v : Nat), is[k]? = some (Inst.dbg v l) ∧ r = (v == V) ∧ ∀ (j v' : Nat), j < k → is[j]? ≠ some (Inst.dbg v' l) := by
  intro is
  induction is with
  | nil => intro r h; simp [scan] at h
  | cons i is ih =>
    intro r h
    have step : ∀ r, scan V l is = some r → (∀ v, i ≠ .dbg v l) →
        ∃ (k : Nat) (v : Nat), (i :: is)[k]? = some (Inst.dbg v l) ∧ r = (v == V) ∧ ∀ (j v' : Nat), j < k → (i :: is)[j]? ≠ some (Inst.dbg v' l) := by
      intro r h hi
      obtain ⟨k, v, h1, h2, h3⟩ := ih h
      refine ⟨k + 1, v, by simpa using h1, h2, ?_⟩
      intro j v' hj
      cases j with
      | zero => simpa using hi v'
      | succ j => simpa using h3 j v' (by omega)
    cases i with
    | dbg v l' =>
      simp only [scan] at h
      split at h
      · next hc =>
        obtain ⟨_, rfl⟩ := hc
        exact ⟨0, v, rfl, by simpa using h.symm, by omega⟩
      · next hc =>
        by_cases hl : l' = l
        · subst hl
          -- an intrinsic with a dereference does not describe a location without it
          obtain ⟨k, v', h1, h2, h3⟩ := ih h
          exact absurd h (by
            have : l'.expr.hasDeref ≠ false := fun hd => hc ⟨hd, rfl⟩
            clear ih h h1 h2 h3 hc step
            have none : ∀ is : List Inst, scan V l' is = none := by
              intro is
              induction is with
              | nil => rfl
              | cons i is ih =>
                cases i with
                | dbg w m =>
                  simp only [scan]
                  rw [if_neg (by rintro ⟨h, rfl⟩; exact this h)]
                  exact ih
                | dfn w => exact ih
                | other => exact ih
            rw [none]; simp)
        · exact step r h (fun w hw => hl (by cases hw; rfl))
    | dfn v => exact step r h (by simp)
    | other => exact step r h (by simp)

theorem scan_none {l : Loc} (hl : l.expr.hasDeref = false) : ∀ {is : List Inst}, scan V l is = none →
    ∀ v, .dbg v l ∉ is := by
  intro is
  induction is with
  | nil => intro _ v; simp
  | cons i is ih =>
    intro h v hm
    cases i with
    | dbg w l' =>
      simp only [scan] at h
      split at h
      · cases h
      · next hc =>
        rcases List.mem_cons.1 hm with hm | hm
        · cases hm; exact hc ⟨hl, rfl⟩
        · exact ih h v hm
    | dfn w =>
      rcases List.mem_cons.1 hm with hm | hm
      · cases hm
      · exact ih h v hm
    | other =>
      rcases List.mem_cons.1 hm with hm | hm
      · cases hm
      · exact ih h v hm

/-- A block which is not in `findAliasBlocks`: after any intrinsic which may change the location there is an intrinsic
which associates the location with the value. -/
theorem not_alias {l : Loc} {b i : Nat} (h : aliasBlock F V l b = false) {v : Nat} {l' : Loc}
    (hi : F.inst? (b, i) = some (.dbg v l')) (hv : l'.var = l.var) (hd : l'.expr.hasDeref = false)
    (ha : mayAlias l'.expr l.expr = true) : ∃ j, i ≤ j ∧ F.inst? (b, j) = some (.dbg V l) := by
  have h1 : (Inst.dbg v l', i) ∈ (F.block b).zipIdx := List.mem_zipIdx_iff_getElem?.2 hi
  have h2 := List.any_eq_false.1 h _ h1
  simp only [hv, beq_self_eq_true, hd, Bool.not_false, ha, Bool.and_true, Bool.true_and, Bool.not_eq_true,
    Bool.not_eq_false', List.any_eq_true, beq_iff_eq] at h2
  obtain ⟨x, hx, rfl⟩ := h2
  obtain ⟨k, hk⟩ := List.mem_iff_getElem?.1 hx
  rw [List.getElem?_drop] at hk
  exact ⟨i + k, by omega, hk⟩

/-- Execution which does not touch a location and does not define a register. -/
theorem stateOf_append {o : Nat → Int} {s₀ : State} {l : Loc} {rest : List Pos} : ∀ (pre : List Pos),
    (∀ p ∈ pre, ¬ Touch F l p) → (∀ p ∈ pre, F.inst? p ≠ some (.dfn V)) →
    (stateOf F o s₀ (pre ++ rest)).val V = (stateOf F o s₀ rest).val V ∧
    ∀ bit, l.expr.covers bit → (stateOf F o s₀ (pre ++ rest)).cell l.var bit = (stateOf F o s₀ rest).cell l.var bit := by
  intro pre
  induction pre with
  | nil => intro _ _; exact ⟨rfl, fun _ _ => rfl⟩
  | cons p pre ih =>
    intro h1 h2
    obtain ⟨i1, i2⟩ := ih (fun q hq => h1 q (by simp [hq])) (fun q hq => h2 q (by simp [hq]))
    have h1 := h1 p (by simp)
    have h2 := h2 p (by simp)
    simp only [List.cons_append, stateOf]
    cases hi : F.inst? p with
    | none => exact ⟨i1, i2⟩
    | some i =>
      cases i with
      | dbg v l' =>
        refine ⟨i1, fun bit hb => ?_⟩
        simp only [exec]
        rw [if_neg ?_]
        · exact i2 bit hb
        · rintro ⟨hv, hc⟩
          exact h1 ⟨v, l', hi, hv.symm, bit, hc, hb⟩
      | dfn v =>
        refine ⟨?_, i2⟩
        simp only [exec]
        rw [if_neg ?_]
        · exact i1
        · rintro rfl; exact h2 hi
      | other => exact ⟨i1, i2⟩

/-- **C111.** Let `findMetadata` report a location for a value and a list of its users. Then on each path from the
entry to a user the location holds the current value when the user is executed.

It is assumed that the dominator tree is right, the value is in SSA form and users are not `llvm.dbg.value`.
`hclean` and `hderef` are what is missing: see `findMetadata_fails` and `findMetadata_deref_fails`. -/
theorem findMetadata_partial {l : Loc}
    (hdom : ∀ p q, dominates p q = true → Dom F p q) (hssa : Ssa F V)
    (huser : ∀ u ∈ users, ∀ v l', F.inst? u ≠ some (.dbg v l'))
    (hderef : ∀ p v l', F.inst? p = some (.dbg v l') → l'.var = l.var → l'.expr.hasDeref = false)
    (hclean : ∀ u ∈ users, ∀ j < u.2, ∀ v l', F.inst? (u.1, j) = some (.dbg v l') → l'.var = l.var →
      (∃ bit, l'.expr.covers bit ∧ l.expr.covers bit) → l' = l)
    (h : l ∈ findMetadata F dominates V users) {u : Pos} (hu : u ∈ users) {t : List Pos} (ht : Trace F (u :: t))
    (o : Nat → Int) (s₀ : State) : Holds (stateOf F o s₀ t) V l := by
  intro bit hbit
  simp only [findMetadata, List.mem_filter, List.mem_dedup, List.mem_map, Bool.and_eq_true, List.all_eq_true] at h
  obtain ⟨⟨⟨d, l'⟩, hd, rfl⟩, _, hr⟩ := h
  simp only at hr hbit hclean hderef
  obtain ⟨hd1, hd2, hd3⟩ := mem_domDbg hd
  have hdu := hdom _ _ (hd3 u hu)
  have htouch : Touch F l' d := ⟨V, l', hd1, rfl, bit, hbit, hbit⟩
  obtain ⟨pre, e, post, rfl, he, hpre⟩ := exists_last (P := Touch F l') (hdu t ht) htouch
  have hndef : ∀ p ∈ pre, F.inst? p ≠ some (.dfn V) :=
    not_dfn hssa hd1 hdu (rest := e :: post) ht (fun hm => hpre d hm htouch)
  have hclean' : ∀ j < u.2, Touch F l' (u.1, j) → ∃ v, F.inst? (u.1, j) = some (.dbg v l') := by
    rintro j hj ⟨v, m, h1, h2, h3⟩
    exact ⟨v, by rw [h1, hclean u hu j hj v m h1 h2 h3]⟩
  have hexact : F.inst? e = some (.dbg V l') := by
    have hback := back_of_trace he pre u ht hpre
    have hr := hr u hu
    simp only [reached] at hr
    have hub : ∀ k, k ≤ u.2 → ∀ v m, F.inst? (u.1, k) = some (.dbg v m) → k < u.2 := by
      intro k hk v m hi
      rcases Nat.lt_or_eq_of_le hk with h | rfl
      · exact h
      · exact absurd hi (huser u hu v m)
    cases hs : scan V l' ((F.block u.1).take (u.2 + 1)).reverse with
    | some r =>
      simp only [hs] at hr
      subst hr
      obtain ⟨k, v, h1, h2, h3⟩ := scan_some hs
      have hv : v = V := by simpa using h2.symm
      subst hv
      -- the nearest intrinsic
      have hkl := (List.getElem?_eq_some_iff.1 h1).1
      rw [List.getElem?_reverse (by simpa using hkl)] at h1
      simp only [List.length_reverse] at hkl
      obtain ⟨n, hn⟩ : ∃ n, n = ((F.block u.1).take (u.2 + 1)).length := ⟨_, rfl⟩
      rw [← hn] at h1 hkl
      have hn2 : n = min (u.2 + 1) (F.block u.1).length := by rw [hn, List.length_take]
      have hat : ∀ j, j < n → ((F.block u.1).take (u.2 + 1))[j]? = F.inst? (u.1, j) := by
        intro j hj
        rw [List.getElem?_take_of_lt (by omega)]
        rfl
      rw [hat _ (by omega)] at h1
      have hk := hub (n - 1 - k) (by omega) _ _ h1
      have hkt : Touch F l' (u.1, n - 1 - k) := ⟨v, l', h1, rfl, bit, hbit, hbit⟩
      cases hback with
      | here g1 g2 g3 =>
        rcases Nat.lt_trichotomy e.2 (n - 1 - k) with h | h | h
        · exact absurd hkt (g3 _ h hk)
        · rw [← g1, ← h] at h1; exact h1
        · obtain ⟨w, hw⟩ := hclean' e.2 g2 (by rw [← g1]; exact he)
          have helt : e.2 < (F.block u.1).length := by rw [← g1]; exact he.lt
          have := h3 (n - 1 - e.2) w (by omega)
          rw [List.getElem?_reverse (by rw [← hn]; omega), ← hn, hat _ (by omega)] at this
          rw [show n - 1 - (n - 1 - e.2) = e.2 by omega] at this
          exact absurd hw this
      | prev g1 g2 g3 => exact absurd hkt (g1 _ hk)
    | none =>
      simp only [hs] at hr
      have hnone : ∀ j < u.2, ¬ Touch F l' (u.1, j) := by
        intro j hj htj
        obtain ⟨v, hv⟩ := hclean' j hj htj
        apply scan_none hd2 hs v
        rw [List.mem_reverse]
        exact List.mem_iff_getElem?.2 ⟨j, by rw [List.getElem?_take_of_lt (by omega)]; exact hv⟩
      cases hback with
      | here g1 g2 g3 => exact absurd (by rw [← g1]; exact he) (hnone _ g2)
      | @prev _ b g1 g2 g3 =>
        have hsr : search F (aliasBlock F V l') (domBlock F dominates V users l') (F.blocks.length + 1) [u.1] [] =
            some true := by
          cases hx : search F (aliasBlock F V l') (domBlock F dominates V users l') (F.blocks.length + 1) [u.1] [] with
          | none => simp [hx] at hr
          | some r => simpa [hx] using hr
        obtain ⟨W, hW1, hW2⟩ := search_closed _ _ _ [] hsr (by simp) (by simp)
        have hbb := hW2 u.1 (hW1 u.1 (by simp)) b g2
        obtain ⟨c1, c2⟩ := back_closed (W := fun w => w ∈ W) hW2 (l := l') (e := e) (by
          intro c hc
          simp only [domBlock, List.any_eq_true, Bool.and_eq_true, beq_iff_eq] at hc
          obtain ⟨⟨⟨c', k⟩, m⟩, hm, rfl, rfl⟩ := hc
          exact ⟨k, V, m, (mem_domDbg hm).1, rfl, bit, hbit, hbit⟩) _ g3 rfl hbb.1 hbb.2
        obtain ⟨v, m, i1, i2, bit', i3, i4⟩ := he
        obtain ⟨j, j1, j2⟩ := not_alias c1 (i := e.2) i1 i2 (hderef _ _ _ i1 i2) (mayAlias_of_covers i3 i4)
        rcases Nat.lt_or_eq_of_le j1 with h | rfl
        · exact absurd ⟨V, l', j2, rfl, bit, hbit, hbit⟩ (c2 j h)
        · exact j2
  obtain ⟨h1, h2⟩ := stateOf_append (F := F) (V := V) (o := o) (s₀ := s₀) (l := l') (rest := e :: post) pre hpre hndef
  rw [h2 bit hbit, h1]
  simp only [stateOf, hexact, exec]
  rw [if_pos ⟨rfl, hbit⟩]

end Tsar.DbgValue
