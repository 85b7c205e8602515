import Verif.InterchangeSem.Indep

/-!
# Loop interchange preserves results (C171, C172)
-/

namespace Tsar.InterchangeSem

/-! ## Accepted loops -/

theorem scan_dep {v : Loc} : ∀ {ts : List Tr} {i : Info}, (scan v ts i).dep = false →
    ∀ t ∈ ts, t.kind = .noDep ∨ t.kind = .priv ∨ t.kind = .reduction ∨
      (t.kind = .induction ∧ t.loc = v) ∨ t.kind = .secondToLast
  | t :: ts, i, h, u, hu => by
    rw [scan] at h
    cases hk : t.kind <;> simp only [hk] at h <;>
      rcases List.mem_cons.1 hu with rfl | hu
    · exact Or.inl hk
    · exact scan_dep h u hu
    · exact Or.inr (Or.inl hk)
    · exact scan_dep h u hu
    · exact Or.inr (Or.inr (Or.inl hk))
    · exact scan_dep h u hu
    · by_cases hc : (u.whole && u.loc == v) = true
      · rw [Bool.and_eq_true, beq_iff_eq] at hc
        exact Or.inr (Or.inr (Or.inr (Or.inl ⟨hk, hc.2⟩)))
      · rw [if_neg hc] at h
        cases h
    · by_cases hc : (t.whole && t.loc == v) = true
      · rw [if_pos hc] at h
        exact scan_dep h u hu
      · rw [if_neg hc] at h
        cases h
    · exact Or.inr (Or.inr (Or.inr (Or.inr hk)))
    · by_cases hc : t.whole = true
      · rw [if_pos hc] at h
        exact scan_dep h u hu
      · rw [if_neg hc] at h
        cases h
    · cases h
    · cases h

theorem scan_dim {v d : Loc} : ∀ {ts : List Tr} {i : Info}, (∀ e, i.dim = some e → e = v) →
    (scan v ts i).dim = some d → d = v
  | [], i, hi, h => hi d h
  | t :: ts, i, hi, h => by
    rw [scan] at h
    cases hk : t.kind <;> simp only [hk] at h
    · exact scan_dim hi h
    · exact scan_dim hi h
    · exact scan_dim hi h
    · by_cases hc : (t.whole && t.loc == v) = true
      · rw [if_pos hc] at h
        rw [Bool.and_eq_true, beq_iff_eq] at hc
        exact scan_dim (fun e he => by cases he; exact hc.2) h
      · rw [if_neg hc] at h
        exact hi d h
    · by_cases hc : t.whole = true
      · rw [if_pos hc] at h
        exact scan_dim (i := { i with vars := i.vars ++ [t.loc] }) (fun e he => hi e he) h
      · rw [if_neg hc] at h
        exact hi d h
    · exact hi d h

theorem accessedIn_false {may : Loc → Loc → Bool} (hmay : ∀ x, may x x = true) {d : Loc} :
    ∀ {e : Val}, accessedIn may d e = false → ¬ Loads e d
  | .const _, _ => id
  | .load x, h => by
    rintro (rfl : d = x)
    rw [accessedIn, hmay] at h
    cases h
  | .call _ _, _ => id
  | .op _ a b, h => by
    rw [accessedIn, Bool.or_eq_false_iff] at h
    rintro (h' | h')
    · exact accessedIn_false hmay h.1 h'
    · exact accessedIn_false hmay h.2 h'

/-- Facts about a loop which is accepted in strict mode. -/
structure Passed (may : Loc → Loc → Bool) (loops : List Lp) (i m : ℕ) (l : Lp) : Prop where
  canonical : l.canonical = true
  analyzed : l.analyzed = true
  kinds : ∀ t ∈ l.traits, t.kind = .noDep ∨ t.kind = .priv ∨ t.kind = .reduction ∨
      (t.kind = .induction ∧ t.loc = l.hdr.var) ∨ t.kind = .secondToLast
  headers : ∀ l' ∈ (loops.take (m + 1)).drop (i + 1), accessedInHdr may l.hdr.var l'.hdr = false

theorem checkLoop_ok {may : Loc → Loc → Bool} {loops : List Lp} {i m : ℕ}
    (h : checkLoop may true loops i m = .ok) :
    ∃ l, loops[i]? = some l ∧ Passed may loops i m l := by
  rw [checkLoop] at h
  cases hl : loops[i]? with
  | none => simp [hl] at h
  | some l =>
    refine ⟨l, rfl, ?_⟩
    simp only [hl] at h
    by_cases hc : l.canonical = true
    · rw [if_neg (by simp [hc])] at h
      by_cases hd : (info true l).dep = true
      · rw [if_pos hd] at h; cases h
      · rw [if_neg hd, if_neg (by simp)] at h
        by_cases ha : l.analyzed = true
        · rw [if_neg (by simp [ha])] at h
          by_cases hv : (!((info true l).vars.all fun v =>
              (loops.drop (i + 1)).any fun l' => inductVar l' == some v)) = true
          · rw [if_pos hv] at h; cases h
          · rw [if_neg hv] at h
            have hinf : info true l = scan l.hdr.var l.traits ⟨false, none, []⟩ := by
              rw [info, if_pos (by simp [hc, ha])]
            cases hdim : (info true l).dim with
            | none => simp [hdim] at h
            | some d =>
              simp only [hdim] at h
              have hdv : d = l.hdr.var := by
                rw [hinf] at hdim
                exact scan_dim (fun e he => by cases he) hdim
              subst hdv
              by_cases hany : (((loops.take (m + 1)).drop (i + 1)).any fun l' =>
                  accessedInHdr may l.hdr.var l'.hdr) = true
              · rw [if_pos hany] at h; cases h
              · refine ⟨hc, ha, ?_, fun l' hl' => ?_⟩
                · rw [hinf] at hd
                  exact scan_dep (by simpa using hd)
                · by_contra hn
                  exact hany (List.any_eq_true.2 ⟨l', hl', by simpa using hn⟩)
        · rw [if_pos (by simp [ha])] at h; cases h
    · rw [if_pos (by simp [hc])] at h; cases h

theorem accepted_all {may : Loc → Loc → Bool} {strict : Bool} {loops : List Lp} {m : ℕ}
    (h : accepted may strict loops m = true) : ∀ i ≤ m, checkLoop may strict loops i m = .ok := by
  rw [accepted, Bool.and_eq_true, List.all_eq_true] at h
  intro i hi
  rcases Nat.lt_or_eq_of_le hi with hi | rfl
  · have := h.1 i (List.mem_range.2 hi)
    rw [Bool.and_eq_true] at this
    exact eq_of_beq this.2
  · exact eq_of_beq h.2

/-! ## Independence of iterations of an accepted nest -/

section

variable {may : Loc → Loc → Bool} {loops : List Lp} {m : ℕ} {acc : Acc} {s : State}

theorem passed (hacc : accepted may true loops m = true) {i : ℕ} {l : Lp}
    (hl : (loops.take (m + 1))[i]? = some l) : Passed may loops i m l := by
  have hi : i < m + 1 := by
    by_contra hc
    rw [List.getElem?_eq_none (by rw [List.length_take]; omega)] at hl
    cases hl
  rw [List.getElem?_take_of_lt hi] at hl
  obtain ⟨l', hl', hp⟩ := checkLoop_ok (accepted_all hacc i (by omega))
  rw [hl] at hl'
  cases hl'
  exact hp

theorem written_trait (hacc : accepted may true loops m = true) (hr : Right loops m acc s)
    {i : ℕ} {l : Lp} (hl : (loops.take (m + 1))[i]? = some l) {v : Vec}
    (hv : Space ((loops.take (m + 1)).map Lp.hdr) s v) {x : Loc} (hw : acc.W v x) :
    ∃ t ∈ l.traits, t.loc = x ∧
      TraitTrue ((loops.take (m + 1)).map Lp.hdr) acc s i x t.kind ∧
      (t.kind = .noDep ∨ t.kind = .priv ∨ t.kind = .reduction ∨ t.kind = .secondToLast) := by
  have hp := passed hacc hl
  have hm : l ∈ loops.take (m + 1) := List.mem_iff_getElem?.2 ⟨i, hl⟩
  obtain ⟨t, ht, rfl⟩ := hr.covered l hm hp.canonical hp.analyzed v hv x hw
  refine ⟨t, ht, rfl, hr.traits i l hl hp.canonical hp.analyzed t ht, ?_⟩
  rcases hp.kinds t ht with h | h | h | ⟨_, h⟩ | h
  · exact Or.inl h
  · exact Or.inr (Or.inl h)
  · exact Or.inr (Or.inr (Or.inl h))
  · exact absurd (h ▸ hw) (hr.fixed l.hdr (List.mem_map.2 ⟨l, hm, rfl⟩) v)
  · exact Or.inr (Or.inr (Or.inr h))

theorem no_read (hacc : accepted may true loops m = true) (hr : Right loops m acc s)
    {v : Vec} (hv : Space ((loops.take (m + 1)).map Lp.hdr) s v) {x : Loc} (hR : acc.R v x) :
    ∀ (n i : ℕ) (v' : Vec), ((loops.take (m + 1)).map Lp.hdr).length - i ≤ n →
      Space ((loops.take (m + 1)).map Lp.hdr) s v' →
      SamePrefix ((loops.take (m + 1)).map Lp.hdr) i v v' → v' ≠ v → ¬ acc.W v' x
  | n, i, v', hn, hv', hp, hne, hw => by
    obtain ⟨k, hik, hk, h1, h2⟩ := first_diff hv hv' hne.symm n i hn hp
    have hk' : k < (loops.take (m + 1)).length := by rwa [List.length_map] at hk
    obtain ⟨t, ht, _, htt, hkind⟩ := written_trait hacc hr (List.getElem?_eq_getElem hk') hv' hw
    have hsym : ∀ {j}, SamePrefix ((loops.take (m + 1)).map Lp.hdr) j v v' →
        SamePrefix ((loops.take (m + 1)).map Lp.hdr) j v' v :=
      fun h j hj h' e => (h j hj h' e).symm
    have hsym' : ∀ {j}, SamePrefix ((loops.take (m + 1)).map Lp.hdr) j v' v →
        SamePrefix ((loops.take (m + 1)).map Lp.hdr) j v v' :=
      fun h j hj h' e => (h j hj h' e).symm
    have first : WrittenFirst ((loops.take (m + 1)).map Lp.hdr) acc s k x → False := by
      intro hf
      obtain ⟨v'', g1, g2, g3, g4⟩ := hf v hv hR
      cases n with
      | zero => omega
      | succ n => exact no_read hacc hr hv hR n (k + 1) v'' (by omega) g1 g2 g3 g4
    rcases hkind with h | h | h | h <;> rw [h] at htt
    · exact (htt v' v hv' hv (hsym h1) (fun h => h2 (hsym' h)) hw).1 hR
    · exact first htt
    · exact htt.2 v hv hR
    · exact first htt

theorem indep (hacc : accepted may true loops m = true) (hr : Right loops m acc s) :
    Indep acc (Space ((loops.take (m + 1)).map Lp.hdr) s) fun x => ¬ Hidden loops m x where
  read v v' hv hv' hne x hw hR :=
    no_read hacc hr hv hR _ 0 v' (le_refl _) hv' (fun j hj => absurd hj (Nat.not_lt_zero j)) hne hw
  write v v' hv hv' hne x hh hred hw := by
    obtain ⟨k, _, hk, h1, h2⟩ := first_diff hv' hv hne _ 0 (le_refl _)
      (fun j hj => absurd hj (Nat.not_lt_zero j))
    have hk' : k < (loops.take (m + 1)).length := by rwa [List.length_map] at hk
    obtain ⟨t, ht, hx, htt, hkind⟩ := written_trait hacc hr (List.getElem?_eq_getElem hk') hv' hw
    have hm := List.getElem_mem hk'
    rcases hkind with h | h | h | h
    · rw [h] at htt
      exact (htt v' v hv' hv h1 h2 hw).2
    · exact absurd ⟨_, hm, t, ht, hx, Or.inl h⟩ hh
    · rw [h] at htt
      exact absurd htt.1 hred
    · exact absurd ⟨_, hm, t, ht, hx, Or.inr h⟩ hh

theorem bounds_regular (hmay : ∀ x, may x x = true) (hacc : accepted may true loops m = true)
    (hr : Right loops m acc s) (hreg : Regular ((loops.take (m + 1)).map Lp.hdr) acc) :
    ∀ x, BR ((loops.take (m + 1)).map Lp.hdr) x →
      ¬ IsVar ((loops.take (m + 1)).map Lp.hdr) x ∧ ∀ v, ¬ acc.W v x := by
  rintro x ⟨h, hm, hx⟩
  rcases hx with hx | hx
  · exact hreg.startFixed h hm x hx
  · obtain ⟨l, hl, rfl⟩ := List.mem_map.1 hm
    obtain ⟨k, hk⟩ := List.mem_iff_getElem?.1 hl
    obtain ⟨h1, h2⟩ := hr.invariant k l hk (passed hacc hk).canonical x hx
    refine ⟨fun hv => ?_, h1⟩
    have hv' := hv
    obtain ⟨_, hm', e⟩ := hv'
    obtain ⟨l', hl', rfl⟩ := List.mem_map.1 hm'
    obtain ⟨j, hj⟩ := List.mem_iff_getElem?.1 hl'
    by_cases hjk : k ≤ j
    · exact h2 j l' hjk hj e
    · have hp := (passed hacc hj).headers l (by
        refine List.mem_iff_getElem?.2 ⟨k - (j + 1), ?_⟩
        rw [List.getElem?_drop, show j + 1 + (k - (j + 1)) = k by omega]
        exact hk)
      rw [accessedInHdr, Bool.or_eq_false_iff, Bool.or_eq_false_iff] at hp
      rw [e] at hp
      rcases hreg.noCalls l.hdr hm x hx hv with hL | hL
      · exact accessedIn_false hmay hp.1.2 hL
      · exact accessedIn_false hmay hp.2 hL

end

/-- C171. A nest of loops which is accepted in strict mode has the same results after any
permutation of headers: if the original nest stops then the new one stops, and values of all
locations are the same except for private variables and induction variables of the nest; values of
private variables are the same if they are written in each iteration of the nest; values of
induction variables are the same if each loop has at least one iteration. -/
theorem interchange_partial {may : Loc → Loc → Bool} (hmay : ∀ x, may x x = true)
    {loops : List Lp} {m : ℕ} (hacc : accepted may true loops m = true)
    {acc : Acc} {body : State → State}
    (hd : Describes ((loops.take (m + 1)).map Lp.hdr) acc body)
    {s t : State} (hr : Right loops m acc s)
    (hreg : Regular ((loops.take (m + 1)).map Lp.hdr) acc)
    {hs' : List Hdr} (hp : hs'.Perm ((loops.take (m + 1)).map Lp.hdr))
    (he : Exec body ((loops.take (m + 1)).map Lp.hdr) s t) :
    ∃ t', Exec body hs' s t' ∧
      (∀ x, ¬ IsVar ((loops.take (m + 1)).map Lp.hdr) x → (¬ Hidden loops m x ∨ acc.red x) →
        t' x = t x) ∧
      (∀ x, ¬ IsVar ((loops.take (m + 1)).map Lp.hdr) x →
        Determined ((loops.take (m + 1)).map Lp.hdr) acc body x → t' x = t x) ∧
      ((∀ h ∈ hs', NonEmpty s h) → ∀ h ∈ hs', t' h.var = t h.var) := by
  generalize hhs : (loops.take (m + 1)).map Lp.hdr = hs at *
  have hpos : ∀ h ∈ hs, 0 < h.step.eval s := by
    intro h hm
    rw [← hhs] at hm
    obtain ⟨l, hl, rfl⟩ := List.mem_map.1 hm
    obtain ⟨k, hk⟩ := List.mem_iff_getElem?.1 hl
    exact hr.positive l hl (passed hacc hk).canonical s
  have hvl : ∀ h : Hdr, ∃ l, h ∈ hs → Vals (h.stop.eval s) (h.step.eval s) (h.start.eval s) l := by
    intro h
    by_cases hm : h ∈ hs
    · obtain ⟨l, hl⟩ := Vals.exists (hpos h hm) _ (h.start.eval s) (le_refl _)
      exact ⟨l, fun _ => hl⟩
    · exact ⟨[], fun h => absurd h hm⟩
  choose vl hvl using hvl
  have hn : (hs.map Hdr.var).Nodup := by
    rw [← hhs, List.map_map]
    exact hr.distinct
  have hn' : (hs'.map Hdr.var).Nodup := (hp.map _).nodup_iff.2 hn
  have E : Env hs acc body s vl := by
    refine ⟨hd, ?_, ?_, fun h hm => hvl h hm⟩
    · rw [← hhs] at hreg ⊢
      exact bounds_regular hmay hacc hr hreg
    · rintro x ⟨h, hm, rfl⟩ v
      rw [← hhs] at hm
      exact hr.fixed h hm v
  obtain ⟨t₀, h1, h2, _, h4⟩ := exec_exists E hs (fun _ h => h) hn s fun _ _ => rfl
  obtain ⟨t', g1, g2, _, g4⟩ := exec_exists E hs' (fun k hk => hp.mem_iff.1 hk) hn' s fun _ _ => rfl
  have := Exec.det he h1
  subst this
  have hS : ∀ v ∈ enum vl hs (vecOf hs s), Space hs s v := by
    intro v hv
    obtain ⟨a, b⟩ := enum_mem vl hs hn _ _ hv
    refine ⟨fun h hm => (Vals.mem (hvl h hm) _ (a h hm)), fun y hy => ?_⟩
    rw [b y hy]
    exact vecOf_zero y hy
  have hi := indep hacc hr
  rw [hhs] at hi
  have hperm := enum_perm vl hp.symm hn (vecOf hs s)
  have hnd := enum_nodup vl hs hn (fun h hm => Vals.nodup (hpos h hm) (hvl h hm)) (vecOf hs s)
  refine ⟨t', g1, fun x hx hh => ?_, fun x hx hdet => ?_, fun hne h hm => ?_⟩
  · rw [g2 x hx, h2 x hx]
    exact (run_perm hd hi (fun v hv => hv.2) hperm hS hnd s hx hh).symm
  · rw [g2 x hx, h2 x hx]
    by_cases hnil : enum vl hs (vecOf hs s) = []
    · rw [hnil] at hperm ⊢
      rw [List.nil_perm.1 hperm]
    · have hv := enum_nonempty vl hs hn hnil
      obtain ⟨L, w, e1, a1, b1⟩ := enum_last vl hs hn hv (vecOf hs s)
      obtain ⟨L', w', e2, a2, b2⟩ := enum_last vl hs' hn' (fun k hk => hv k (hp.mem_iff.1 hk))
        (vecOf hs s)
      have hw : w = w' := by
        funext y
        by_cases hy : IsVar hs y
        · obtain ⟨h, hm, rfl⟩ := hy
          rw [a1 h hm, a2 h (hp.mem_iff.2 hm)]
        · rw [b1 y hy, b2 y fun ⟨k, hk, e⟩ => hy ⟨k, hp.mem_iff.1 hk, e⟩]
      subst hw
      rw [e1] at hS hnd hperm ⊢
      rw [e2] at hperm ⊢
      rw [run_last hd hi (fun v hv => hv.2) hS hnd s hdet,
        run_last hd hi (fun v hv => hv.2) (fun v hv => hS v (hperm.mem_iff.2 hv))
          (hperm.nodup_iff.1 hnd) s hdet]
  · have hne' : ∀ k ∈ hs', vl k ≠ [] := by
      intro k hk e
      have hv := hvl k (hp.mem_iff.1 hk)
      rw [e] at hv
      cases hv with
      | nil hc => exact hc (hne k hk)
    rw [g4 hne' h hm, h4 (fun k hk => hne' k (hp.mem_iff.2 hk)) h (hp.mem_iff.1 hm)]

/-! ## Exact conditions -/

/-- A loop number `i` may be interchanged with loops up to the loop `m` in strict mode. -/
structure Legal (may : Loc → Loc → Bool) (loops : List Lp) (i m : ℕ) (l : Lp) : Prop where
  canonical : l.canonical = true
  analyzed : l.analyzed = true
  /-- there are no dependencies except for the listed ones -/
  kinds : ∀ t ∈ l.traits, t.kind = .noDep ∨ t.kind = .priv ∨ t.kind = .reduction ∨
      (t.kind = .induction ∧ t.whole = true ∧ t.loc = l.hdr.var) ∨
      (t.kind = .secondToLast ∧ t.whole = true ∧
        ∃ j l', i < j ∧ loops[j]? = some l' ∧ l'.canonical = true ∧ l'.hdr.var = t.loc)
  /-- the induction variable is known -/
  induction : ∃ t ∈ l.traits, t.kind = .induction
  /-- headers of inner loops do not access the induction variable -/
  headers : ∀ j l', i < j → j ≤ m → loops[j]? = some l' →
    accessedIn may l.hdr.var l'.hdr.start = false ∧ accessedIn may l.hdr.var l'.hdr.stop = false ∧
    accessedIn may l.hdr.var l'.hdr.step = false

theorem scan_true {v : Loc} : ∀ {ts : List Tr} {i : Info},
    (scan v ts i).dep = true ↔ i.dep = true ∨ ∃ t ∈ ts, t.kind = .other ∨
      (t.kind = .induction ∧ ¬ (t.whole = true ∧ t.loc = v)) ∨
      (t.kind = .secondToLast ∧ t.whole = false)
  | [], i => by simp [scan]
  | t :: ts, i => by
    rw [scan]
    cases hk : t.kind <;> simp only [List.mem_cons, exists_eq_or_imp, hk]
    · rw [scan_true]; simp
    · rw [scan_true]; simp
    · rw [scan_true]; simp
    · by_cases hc : (t.whole && t.loc == v) = true
      · rw [if_pos hc, scan_true]
        rw [Bool.and_eq_true, beq_iff_eq] at hc
        simp [hc]
      · rw [if_neg hc]
        rw [Bool.and_eq_true, beq_iff_eq] at hc
        simp only [true_iff]
        exact Or.inr (Or.inl (Or.inr (Or.inl ⟨trivial, hc⟩)))
    · by_cases hc : t.whole = true
      · rw [if_pos hc, scan_true]
        simp [hc]
      · rw [if_neg hc]
        simp [hc]
    · simp

theorem scan_vars {v : Loc} : ∀ {ts : List Tr} {i : Info}, (scan v ts i).dep = false → ∀ x,
    x ∈ (scan v ts i).vars ↔ x ∈ i.vars ∨ ∃ t ∈ ts, t.kind = .secondToLast ∧ t.loc = x
  | [], i, _, x => by simp [scan]
  | t :: ts, i, h, x => by
    rw [scan] at h ⊢
    cases hk : t.kind <;> simp only [hk] at h ⊢ <;>
      simp only [List.mem_cons, exists_eq_or_imp, hk]
    · rw [scan_vars h]; simp
    · rw [scan_vars h]; simp
    · rw [scan_vars h]; simp
    · by_cases hc : (t.whole && t.loc == v) = true
      · rw [if_pos hc] at h ⊢
        rw [scan_vars h]; simp
      · rw [if_neg hc] at h; cases h
    · by_cases hc : t.whole = true
      · rw [if_pos hc] at h ⊢
        rw [scan_vars h]
        simp only [List.mem_append, List.mem_singleton, true_and, or_assoc]
        constructor
        · rintro (a | rfl | a)
          · exact Or.inl a
          · exact Or.inr (Or.inl rfl)
          · exact Or.inr (Or.inr a)
        · rintro (a | rfl | a)
          · exact Or.inl a
          · exact Or.inr (Or.inl rfl)
          · exact Or.inr (Or.inr a)
      · rw [if_neg hc] at h; cases h
    · cases h

theorem scan_dim_isSome {v : Loc} : ∀ {ts : List Tr} {i : Info}, (scan v ts i).dep = false →
    ((scan v ts i).dim.isSome = true ↔ i.dim.isSome = true ∨ ∃ t ∈ ts, t.kind = .induction)
  | [], i, _ => by simp [scan]
  | t :: ts, i, h => by
    rw [scan] at h ⊢
    cases hk : t.kind <;> simp only [hk] at h ⊢ <;>
      simp only [List.mem_cons, exists_eq_or_imp, hk]
    · rw [scan_dim_isSome h]; simp
    · rw [scan_dim_isSome h]; simp
    · rw [scan_dim_isSome h]; simp
    · by_cases hc : (t.whole && t.loc == v) = true
      · rw [if_pos hc] at h ⊢
        rw [scan_dim_isSome h]; simp
      · rw [if_neg hc] at h; cases h
    · by_cases hc : t.whole = true
      · rw [if_pos hc] at h ⊢
        rw [scan_dim_isSome h]; simp
      · rw [if_neg hc] at h; cases h
    · cases h

theorem mem_drop_take {loops : List Lp} {i m : ℕ} {l' : Lp} :
    l' ∈ (loops.take (m + 1)).drop (i + 1) ↔ ∃ j, i < j ∧ j ≤ m ∧ loops[j]? = some l' := by
  rw [List.mem_iff_getElem?]
  constructor
  · rintro ⟨j, hj⟩
    rw [List.getElem?_drop] at hj
    have hlt : i + 1 + j < m + 1 := by
      by_contra hc
      rw [List.getElem?_eq_none (by rw [List.length_take]; omega)] at hj
      cases hj
    rw [List.getElem?_take_of_lt hlt] at hj
    exact ⟨_, by omega, by omega, hj⟩
  · rintro ⟨j, h1, h2, hj⟩
    refine ⟨j - (i + 1), ?_⟩
    rw [List.getElem?_drop, show i + 1 + (j - (i + 1)) = j by omega,
      List.getElem?_take_of_lt (by omega)]
    exact hj

theorem mem_drop {loops : List Lp} {i : ℕ} {l' : Lp} :
    l' ∈ loops.drop (i + 1) ↔ ∃ j, i < j ∧ loops[j]? = some l' := by
  rw [List.mem_iff_getElem?]
  constructor
  · rintro ⟨j, hj⟩
    rw [List.getElem?_drop] at hj
    exact ⟨_, by omega, hj⟩
  · rintro ⟨j, h1, hj⟩
    refine ⟨j - (i + 1), ?_⟩
    rw [List.getElem?_drop, show i + 1 + (j - (i + 1)) = j by omega]
    exact hj

theorem inductVar_eq {l : Lp} {v : Loc} :
    (inductVar l == some v) = true ↔ l.canonical = true ∧ l.hdr.var = v := by
  rw [beq_iff_eq, inductVar]
  by_cases hc : l.canonical = true
  · rw [if_pos hc]; simp [hc]
  · rw [if_neg hc]; simp [hc]

theorem checkLoop_iff {may : Loc → Loc → Bool} {loops : List Lp} {i m : ℕ} :
    checkLoop may true loops i m = .ok ↔ ∃ l, loops[i]? = some l ∧ Legal may loops i m l := by
  constructor
  · intro h
    obtain ⟨l, hl, hp⟩ := checkLoop_ok h
    refine ⟨l, hl, hp.canonical, hp.analyzed, ?_, ?_, ?_⟩
    all_goals
      rw [checkLoop] at h
      simp only [hl] at h
      have hinf : info true l = scan l.hdr.var l.traits ⟨false, none, []⟩ := by
        rw [info, if_pos (by simp [hp.canonical, hp.analyzed])]
      rw [if_neg (by simp [hp.canonical]), hinf] at h
      by_cases hd : (scan l.hdr.var l.traits ⟨false, none, []⟩).dep = true
      · rw [if_pos hd] at h; cases h
      have hd' : (scan l.hdr.var l.traits ⟨false, none, []⟩).dep = false := by simpa using hd
      rw [if_neg hd, if_neg (by simp), if_neg (by simp [hp.analyzed])] at h
    · intro t ht
      have hno : ¬ (t.kind = .other ∨ (t.kind = .induction ∧ ¬ (t.whole = true ∧ t.loc = l.hdr.var))
          ∨ (t.kind = .secondToLast ∧ t.whole = false)) := fun hc =>
        hd (scan_true.2 (Or.inr ⟨t, ht, hc⟩))
      cases hk : t.kind with
      | noDep => exact Or.inl rfl
      | priv => exact Or.inr (Or.inl rfl)
      | reduction => exact Or.inr (Or.inr (Or.inl rfl))
      | induction =>
        refine Or.inr (Or.inr (Or.inr (Or.inl ⟨rfl, ?_⟩)))
        by_contra hc
        exact hno (Or.inr (Or.inl ⟨hk, hc⟩))
      | secondToLast =>
        refine Or.inr (Or.inr (Or.inr (Or.inr ⟨rfl, ?_, ?_⟩)))
        · by_contra hc
          exact hno (Or.inr (Or.inr ⟨hk, by simpa using hc⟩))
        · by_cases hv : (!((scan l.hdr.var l.traits ⟨false, none, []⟩).vars.all fun v =>
              (loops.drop (i + 1)).any fun l' => inductVar l' == some v)) = true
          · rw [if_pos hv] at h; cases h
          · rw [Bool.not_eq_true', Bool.not_eq_false, List.all_eq_true] at hv
            have := hv t.loc ((scan_vars hd' t.loc).2 (Or.inr ⟨t, ht, hk, rfl⟩))
            obtain ⟨l', hl', hv'⟩ := List.any_eq_true.1 this
            obtain ⟨j, h1, h2⟩ := mem_drop.1 hl'
            obtain ⟨h3, h4⟩ := inductVar_eq.1 hv'
            exact ⟨j, l', h1, h2, h3, h4⟩
      | other => exact absurd (Or.inl hk) hno
    · by_cases hv : (!((scan l.hdr.var l.traits ⟨false, none, []⟩).vars.all fun v =>
          (loops.drop (i + 1)).any fun l' => inductVar l' == some v)) = true
      · rw [if_pos hv] at h; cases h
      · rw [if_neg hv] at h
        have hs : (scan l.hdr.var l.traits ⟨false, none, []⟩).dim.isSome = true := by
          cases hdim : (scan l.hdr.var l.traits ⟨false, none, []⟩).dim with
          | none => simp [hdim] at h
          | some d => rfl
        rcases (scan_dim_isSome hd').1 hs with hc | hc
        · cases hc
        · exact hc
    · intro j l' h1 h2 h3
      have := hp.headers l' (mem_drop_take.2 ⟨j, h1, h2, h3⟩)
      rw [accessedInHdr, Bool.or_eq_false_iff, Bool.or_eq_false_iff] at this
      exact ⟨this.1.1, this.1.2, this.2⟩
  · rintro ⟨l, hl, hL⟩
    rw [checkLoop]
    simp only [hl]
    have hinf : info true l = scan l.hdr.var l.traits ⟨false, none, []⟩ := by
      rw [info, if_pos (by simp [hL.canonical, hL.analyzed])]
    have hd : ¬ (scan l.hdr.var l.traits ⟨false, none, []⟩).dep = true := by
      intro hc
      rcases scan_true.1 hc with hc | ⟨t, ht, hc⟩
      · cases hc
      · rcases hL.kinds t ht with h | h | h | ⟨h, h'⟩ | ⟨h, h', _⟩ <;> rw [h] at hc
        · simp at hc
        · simp at hc
        · simp at hc
        · rcases hc with hc | ⟨_, hc⟩ | hc
          · cases hc
          · exact hc h'
          · cases hc.1
        · rcases hc with hc | hc | ⟨_, hc⟩
          · cases hc
          · cases hc.1
          · rw [h'] at hc; cases hc
    have hd' : (scan l.hdr.var l.traits ⟨false, none, []⟩).dep = false := by simpa using hd
    rw [if_neg (by simp [hL.canonical]), hinf, if_neg hd, if_neg (by simp),
      if_neg (by simp [hL.analyzed]), if_neg]
    · obtain ⟨d, hdim⟩ := Option.isSome_iff_exists.1
        ((scan_dim_isSome (v := l.hdr.var) hd').2 (Or.inr hL.induction))
      have hdv : d = l.hdr.var := scan_dim (fun e he => by cases he) hdim
      subst hdv
      simp only [hdim]
      rw [if_neg]
      intro hc
      obtain ⟨l', hl', hc⟩ := List.any_eq_true.1 hc
      obtain ⟨j, h1, h2, h3⟩ := mem_drop_take.1 hl'
      obtain ⟨a, b, c⟩ := hL.headers j l' h1 h2 h3
      rw [accessedInHdr, a, b, c] at hc
      cases hc
    · rw [Bool.not_eq_true', Bool.not_eq_false, List.all_eq_true]
      intro x hx
      rcases (scan_vars hd' x).1 hx with hc | ⟨t, ht, hk, rfl⟩
      · cases hc
      · rcases hL.kinds t ht with h | h | h | ⟨h, _⟩ | ⟨_, _, j, l', h1, h2, h3, h4⟩
        · rw [hk] at h; cases h
        · rw [hk] at h; cases h
        · rw [hk] at h; cases h
        · rw [hk] at h; cases h
        · exact List.any_eq_true.2 ⟨l', mem_drop.2 ⟨j, h1, h2⟩, inductVar_eq.2 ⟨h3, h4⟩⟩

/-- C172. In strict mode headers are interchanged exactly if all loops up to the innermost named one
are legal and outer loops are perfect. -/
theorem strict_exact {may : Loc → Loc → Bool} {loops : List Lp} {m : ℕ} :
    accepted may true loops m = true ↔ ∀ i ≤ m, ∃ l, loops[i]? = some l ∧
      (i < m → l.perfect = true) ∧ Legal may loops i m l := by
  constructor
  · intro h i hi
    obtain ⟨l, hl, hL⟩ := checkLoop_iff.1 (accepted_all h i hi)
    refine ⟨l, hl, fun hlt => ?_, hL⟩
    rw [accepted, Bool.and_eq_true, List.all_eq_true] at h
    have := h.1 i (List.mem_range.2 hlt)
    rw [Bool.and_eq_true, hl] at this
    exact this.1
  · intro h
    rw [accepted, Bool.and_eq_true, List.all_eq_true]
    refine ⟨fun i hi => ?_, ?_⟩
    · obtain ⟨l, hl, hp, hL⟩ := h i (List.mem_range.1 hi).le
      rw [Bool.and_eq_true, hl]
      exact ⟨hp (List.mem_range.1 hi), by rw [checkLoop_iff.2 ⟨l, hl, hL⟩]; rfl⟩
    · obtain ⟨l, hl, hp, hL⟩ := h m (le_refl _)
      rw [checkLoop_iff.2 ⟨l, hl, hL⟩]
      rfl

/-- C172. Without strict mode only canonical form and perfect nesting are required. -/
theorem nostrict_exact {may : Loc → Loc → Bool} {loops : List Lp} {m : ℕ} :
    accepted may false loops m = true ↔ ∀ i ≤ m, ∃ l, loops[i]? = some l ∧
      (i < m → l.perfect = true) ∧ l.canonical = true := by
  have hiff : ∀ i, checkLoop may false loops i m = .ok ↔
      ∃ l, loops[i]? = some l ∧ l.canonical = true := by
    intro i
    rw [checkLoop]
    cases hl : loops[i]? with
    | none => simp
    | some l =>
      have hinf : info false l = ⟨false, none, []⟩ := by rw [info, if_neg (by simp)]
      by_cases hc : l.canonical = true
      · simp [hc, hinf]
      · simp [hc]
  constructor
  · intro h i hi
    obtain ⟨l, hl, hL⟩ := (hiff i).1 (accepted_all h i hi)
    refine ⟨l, hl, fun hlt => ?_, hL⟩
    rw [accepted, Bool.and_eq_true, List.all_eq_true] at h
    have := h.1 i (List.mem_range.2 hlt)
    rw [Bool.and_eq_true, hl] at this
    exact this.1
  · intro h
    rw [accepted, Bool.and_eq_true, List.all_eq_true]
    refine ⟨fun i hi => ?_, ?_⟩
    · obtain ⟨l, hl, hp, hL⟩ := h i (List.mem_range.1 hi).le
      rw [Bool.and_eq_true, hl]
      exact ⟨hp (List.mem_range.1 hi), by rw [(hiff i).2 ⟨l, hl, hL⟩]; rfl⟩
    · obtain ⟨l, hl, hp, hL⟩ := h m (le_refl _)
      rw [(hiff m).2 ⟨l, hl, hL⟩]
      rfl

/-- C172. The check of an existing loop does not dereference a null pointer if traits of each
analyzed loop contain its induction variable. -/
theorem check_defined {may : Loc → Loc → Bool} {strict : Bool} {loops : List Lp} {i m : ℕ} {l : Lp}
    (hl : loops[i]? = some l)
    (hind : l.canonical = true → l.analyzed = true → ∃ t ∈ l.traits, t.kind = .induction) :
    checkLoop may strict loops i m ≠ .crash := by
  rw [checkLoop]
  simp only [hl]
  by_cases hc : l.canonical = true
  · rw [if_neg (by simp [hc])]
    by_cases hd : (info strict l).dep = true
    · rw [if_pos hd]; exact fun h => by cases h
    · rw [if_neg hd]
      cases strict
      · rw [if_pos (by simp)]; exact fun h => by cases h
      · rw [if_neg (by simp)]
        by_cases ha : l.analyzed = true
        · rw [if_neg (by simp [ha])]
          split
          · exact fun h => by cases h
          · have hinf : info true l = scan l.hdr.var l.traits ⟨false, none, []⟩ := by
              rw [info, if_pos (by simp [hc, ha])]
            rw [hinf] at hd ⊢
            obtain ⟨d, hdim⟩ := Option.isSome_iff_exists.1
              ((scan_dim_isSome (v := l.hdr.var) (i := ⟨false, none, []⟩)
                (by simpa using hd)).2 (Or.inr (hind hc ha)))
            simp only [hdim]
            split <;> exact fun h => by cases h
        · rw [if_pos (by simp [ha])]; exact fun h => by cases h
  · rw [if_pos (by simp [hc])]; exact fun h => by cases h

/-! ## Examples and counterexamples -/

/-- Execution of a loop with a limited number of iterations. -/
def iterF (h : Hdr) (B : State → Option State) : ℕ → State → Option State
  | 0, _ => none
  | n + 1, s =>
    if s h.var < h.stop.eval s then
      (B s).bind fun s₁ => iterF h B n (upd s₁ h.var (s₁ h.var + h.step.eval s₁))
    else some s

/-- Execution of a nest with limited numbers of iterations. -/
def execF (n : ℕ) (body : State → State) : List Hdr → State → Option State
  | [], s => some (body s)
  | h :: hs, s => iterF h (execF n body hs) n (upd s h.var (h.start.eval s))

theorem iterF_sound {h : Hdr} {B : State → Option State} {B' : State → State → Prop}
    (hB : ∀ s t, B s = some t → B' s t) : ∀ {n : ℕ} {s t : State}, iterF h B n s = some t →
    Iter h B' s t
  | n + 1, s, t, e => by
    rw [iterF] at e
    by_cases hc : s h.var < h.stop.eval s
    · rw [if_pos hc] at e
      obtain ⟨s₁, h1, h2⟩ := Option.bind_eq_some_iff.1 e
      exact .step hc (hB _ _ h1) (iterF_sound hB h2)
    · rw [if_neg hc] at e
      cases e
      exact .done hc

theorem execF_sound {n : ℕ} {body : State → State} : ∀ {hs : List Hdr} {s t : State},
    execF n body hs s = some t → Exec body hs s t
  | [], s, t, e => by
    rw [execF] at e
    cases e
    rfl
  | k :: hs, _, _, e => iterF_sound (h := k) (B := execF n body hs) (B' := Exec body hs)
      (fun _ _ h => execF_sound h) e

theorem exec_of_execF {n : ℕ} {body : State → State} {hs : List Hdr} {s : State} {x : Loc} {a : ℤ}
    (h : (execF n body hs s).map (· x) = some a) : ∃ t, Exec body hs s t ∧ t x = a := by
  obtain ⟨t, h1, h2⟩ := Option.map_eq_some_iff.1 h
  exact ⟨t, execF_sound h1, h2⟩

/-- A body which counts its executions in the location 2. -/
def cntBody (s : State) : State := upd s 2 (s 2 + 1)

/-- Accesses of `cntBody`. -/
def cntAcc : Acc := ⟨fun _ _ => False, fun _ x => x = 2, fun x => x = 2, fun _ a b => a + b,
  fun _ _ => 1⟩

theorem cnt_describes (hs : List Hdr) : Describes hs cntAcc cntBody where
  keep s x hx := upd_ne hx
  value s t _ _ x hw hr := absurd hw hr
  accum s x hw _ := by
    rw [show x = 2 from hw]
    exact upd_same _ _ _
  contrib s t _ _ x _ := rfl
  comm x _ a b c := by simp only [cntAcc]; omega

/-- A nest of two loops with induction variables 0 and 1 which counts iterations. -/
def cntLoops (h₀ h₁ : Hdr) : List Lp :=
  [⟨h₀, true, true, true, [⟨0, .induction, true⟩, ⟨1, .priv, true⟩, ⟨2, .reduction, true⟩]⟩,
   ⟨h₁, true, true, true, [⟨1, .induction, true⟩, ⟨2, .reduction, true⟩]⟩]

theorem cnt_right {h₀ h₁ : Hdr} (e₀ : h₀.var = 0) (e₁ : h₁.var = 1)
    (r₀ : ∀ x, ¬ (h₀.stop.Reads x ∨ h₀.step.Reads x))
    (r₁ : ∀ x, h₁.stop.Reads x ∨ h₁.step.Reads x → x = 0)
    (p₀ : ∀ s, 0 < h₀.step.eval s) (p₁ : ∀ s, 0 < h₁.step.eval s) (s : State) :
    Right (cntLoops h₀ h₁) 1 cntAcc s where
  size := by simp [cntLoops]
  distinct := by simp [cntLoops, e₀, e₁]
  fixed h hm v := by
    simp only [cntLoops, List.take, List.map, List.mem_cons, List.not_mem_nil, or_false] at hm
    rcases hm with rfl | rfl
    · rw [e₀]; simp [cntAcc]
    · rw [e₁]; simp [cntAcc]
  invariant k l hk _ x hx := by
    match k, hk with
    | 0, hk =>
      cases hk
      exact absurd hx (r₀ x)
    | 1, hk =>
      cases hk
      have := r₁ x hx
      subst this
      refine ⟨fun v h => (by cases h), fun j l' hj hl' => ?_⟩
      match j, hl' with
      | 1, hl' => cases hl'; rw [show Hdr.var _ = 1 from e₁]; decide
    | k + 2, hk => simp [cntLoops] at hk
  positive l hm _ s' := by
    simp only [cntLoops, List.take, List.mem_cons, List.not_mem_nil, or_false] at hm
    rcases hm with rfl | rfl
    · exact p₀ s'
    · exact p₁ s'
  covered l hm _ _ v _ x hw := by
    simp only [cntLoops, List.take, List.mem_cons, List.not_mem_nil, or_false] at hm
    rw [show x = 2 from hw]
    rcases hm with rfl | rfl
    · exact ⟨⟨2, .reduction, true⟩, by simp, rfl⟩
    · exact ⟨⟨2, .reduction, true⟩, by simp, rfl⟩
  traits i l hl _ _ t ht := by
    match i, hl with
    | 0, hl =>
      cases hl
      simp only [List.mem_cons, List.not_mem_nil, or_false] at ht
      rcases ht with rfl | rfl | rfl
      · trivial
      · exact fun v _ h => h.elim
      · exact ⟨rfl, fun v _ h => h⟩
    | 1, hl =>
      cases hl
      simp only [List.mem_cons, List.not_mem_nil, or_false] at ht
      rcases ht with rfl | rfl
      · trivial
      · exact ⟨rfl, fun v _ h => h⟩
    | i + 2, hl => simp [cntLoops] at hl

/-- Different locations are in unrelated nodes of an alias tree. -/
def exMay (x y : Loc) : Bool := x == y

/-- `for (i = 0; i < 2; ++i)`. -/
def exI : Hdr := ⟨0, .const 0, .const 2, .const 1⟩

/-- `for (j = 0; j < 2; ++j)`. -/
def exJ : Hdr := ⟨1, .const 0, .const 2, .const 1⟩

/-- `for (i = j; i < 2; ++i)`. -/
def exIFromJ : Hdr := ⟨0, .load 1, .const 2, .const 1⟩

/-- `for (j = 0; j < f(); ++j)`, the function returns the value of `i`. -/
def exJCall : Hdr := ⟨1, .const 0, .call [0] fun l => l.headD 0, .const 1⟩

/-- `for (j = 0; j < 0; ++j)`. -/
def exJEmpty : Hdr := ⟨1, .const 0, .const 0, .const 1⟩

/-- C171 is false in general: the initial value of an outer loop may depend on the induction variable
of an inner one, it is never checked.  The nest `for (i = j; ..) for (j = 0; ..)` is accepted and has
another number of iterations after interchange. -/
theorem start_fails : ∃ (loops : List Lp) (m : ℕ) (acc : Acc) (body : State → State) (s t : State)
    (hs' : List Hdr) (x : Loc), accepted exMay true loops m = true ∧
    Describes ((loops.take (m + 1)).map Lp.hdr) acc body ∧ Right loops m acc s ∧
    hs'.Perm ((loops.take (m + 1)).map Lp.hdr) ∧ Exec body ((loops.take (m + 1)).map Lp.hdr) s t ∧
    ¬ IsVar ((loops.take (m + 1)).map Lp.hdr) x ∧ ¬ Hidden loops m x ∧
    ∃ t', Exec body hs' s t' ∧ t' x ≠ t x := by
  obtain ⟨t, h1, h2⟩ := exec_of_execF (n := 5) (body := cntBody) (hs := [exIFromJ, exJ])
    (s := fun _ => 0) (x := 2) (a := 4) (by decide +kernel)
  obtain ⟨t', g1, g2⟩ := exec_of_execF (n := 5) (body := cntBody) (hs := [exJ, exIFromJ])
    (s := fun _ => 0) (x := 2) (a := 3) (by decide +kernel)
  refine ⟨cntLoops exIFromJ exJ, 1, cntAcc, cntBody, fun _ => 0, t, [exJ, exIFromJ], 2,
    by decide +kernel, cnt_describes _, ?_, List.Perm.swap _ _ _, h1, ?_, ?_, t', g1, ?_⟩
  · refine cnt_right rfl rfl ?_ ?_ ?_ ?_ _ <;> simp [exIFromJ, exJ, Val.Reads, Val.eval]
  · simp [IsVar, cntLoops, exIFromJ, exJ]
  · simp [Hidden, cntLoops]
  · rw [g2, h2]; decide

/-- C171 is false in general: calls in headers of inner loops are ignored.  The nest
`for (i = 0; ..) for (j = 0; j < f(); ..)` is accepted although the function reads `i`. -/
theorem call_fails : ∃ (loops : List Lp) (m : ℕ) (acc : Acc) (body : State → State) (s t : State)
    (hs' : List Hdr) (x : Loc), accepted exMay true loops m = true ∧
    Describes ((loops.take (m + 1)).map Lp.hdr) acc body ∧ Right loops m acc s ∧
    hs'.Perm ((loops.take (m + 1)).map Lp.hdr) ∧ Exec body ((loops.take (m + 1)).map Lp.hdr) s t ∧
    ¬ IsVar ((loops.take (m + 1)).map Lp.hdr) x ∧ ¬ Hidden loops m x ∧
    ∃ t', Exec body hs' s t' ∧ t' x ≠ t x := by
  obtain ⟨t, h1, h2⟩ := exec_of_execF (n := 5) (body := cntBody) (hs := [exI, exJCall])
    (s := fun _ => 0) (x := 2) (a := 1) (by decide +kernel)
  obtain ⟨t', g1, g2⟩ := exec_of_execF (n := 5) (body := cntBody) (hs := [exJCall, exI])
    (s := fun _ => 0) (x := 2) (a := 0) (by decide +kernel)
  refine ⟨cntLoops exI exJCall, 1, cntAcc, cntBody, fun _ => 0, t, [exJCall, exI], 2,
    by decide +kernel, cnt_describes _, ?_, List.Perm.swap _ _ _, h1, ?_, ?_, t', g1, ?_⟩
  · refine cnt_right rfl rfl ?_ ?_ ?_ ?_ _ <;> simp [exI, exJCall, Val.Reads, Val.eval]
  · simp [IsVar, cntLoops, exI, exJCall]
  · simp [Hidden, cntLoops]
  · rw [g2, h2]; decide

/-- C171 is false in general: if the inner loop has no iterations then the induction variable of the
outer one is not changed after interchange. -/
theorem empty_fails : ∃ (loops : List Lp) (m : ℕ) (acc : Acc) (body : State → State) (s t : State)
    (hs' : List Hdr) (x : Loc), accepted exMay true loops m = true ∧
    Describes ((loops.take (m + 1)).map Lp.hdr) acc body ∧ Right loops m acc s ∧
    Regular ((loops.take (m + 1)).map Lp.hdr) acc ∧
    hs'.Perm ((loops.take (m + 1)).map Lp.hdr) ∧ Exec body ((loops.take (m + 1)).map Lp.hdr) s t ∧
    IsVar ((loops.take (m + 1)).map Lp.hdr) x ∧ ¬ Hidden loops m x ∧
    ∃ t', Exec body hs' s t' ∧ t' x ≠ t x := by
  obtain ⟨t, h1, h2⟩ := exec_of_execF (n := 5) (body := cntBody) (hs := [exI, exJEmpty])
    (s := fun _ => 0) (x := 0) (a := 2) (by decide +kernel)
  obtain ⟨t', g1, g2⟩ := exec_of_execF (n := 5) (body := cntBody) (hs := [exJEmpty, exI])
    (s := fun _ => 0) (x := 0) (a := 0) (by decide +kernel)
  refine ⟨cntLoops exI exJEmpty, 1, cntAcc, cntBody, fun _ => 0, t, [exJEmpty, exI], 0,
    by decide +kernel, cnt_describes _, ?_, ⟨?_, ?_⟩, List.Perm.swap _ _ _, h1, ?_, ?_, t', g1, ?_⟩
  · refine cnt_right rfl rfl ?_ ?_ ?_ ?_ _ <;> simp [exI, exJEmpty, Val.Reads, Val.eval]
  · simp [cntLoops, exI, exJEmpty, Val.Reads]
  · simp [cntLoops, exI, exJEmpty, Val.Reads]
  · simp [IsVar, cntLoops, exI, exJEmpty]
  · simp [Hidden, cntLoops]
  · rw [g2, h2]; decide

/-- Array elements `a[i][j]` are written with the help of a private variable: locations of elements
are `10 + 2 * i + j`, the private variable is the location 3. -/
def arrBody (s : State) : State := fun x =>
  if x = 3 then s 0 + 5 * s 1 else if 10 ≤ x ∧ (x : ℤ) = 10 + 2 * s 0 + s 1 then
    2 * (s 0 + 5 * s 1) else s x

/-- Accesses of `arrBody`. -/
def arrAcc : Acc := ⟨fun _ _ => False, fun v x => x = 3 ∨ 10 ≤ x ∧ (x : ℤ) = 10 + 2 * v 0 + v 1,
  fun _ => False, fun _ a _ => a, fun _ _ => 0⟩

/-- A nest with the body `arrBody`. -/
def arrLoops : List Lp :=
  [⟨exI, true, true, true, [⟨0, .induction, true⟩, ⟨1, .secondToLast, true⟩, ⟨3, .priv, true⟩,
      ⟨10, .noDep, false⟩, ⟨11, .noDep, false⟩, ⟨12, .noDep, false⟩, ⟨13, .noDep, false⟩]⟩,
   ⟨exJ, true, false, true, [⟨1, .induction, true⟩, ⟨3, .priv, true⟩,
      ⟨10, .noDep, false⟩, ⟨11, .noDep, false⟩, ⟨12, .noDep, false⟩, ⟨13, .noDep, false⟩]⟩]

theorem arr_vec {s t : State} (h : vecOf [exI, exJ] s = vecOf [exI, exJ] t) :
    s 0 = t 0 ∧ s 1 = t 1 := by
  have h0 := congrFun h 0
  have h1 := congrFun h 1
  have i0 : IsVar [exI, exJ] 0 := ⟨exI, by simp, rfl⟩
  have i1 : IsVar [exI, exJ] 1 := ⟨exJ, by simp, rfl⟩
  rw [vecOf, vecOf, if_pos i0, if_pos i0] at h0
  rw [vecOf, vecOf, if_pos i1, if_pos i1] at h1
  exact ⟨h0, h1⟩

theorem arr_at (s : State) : vecOf [exI, exJ] s 0 = s 0 ∧ vecOf [exI, exJ] s 1 = s 1 := by
  have i0 : IsVar [exI, exJ] 0 := ⟨exI, by simp, rfl⟩
  have i1 : IsVar [exI, exJ] 1 := ⟨exJ, by simp, rfl⟩
  exact ⟨by rw [vecOf, if_pos i0], by rw [vecOf, if_pos i1]⟩

theorem arr_describes : Describes [exI, exJ] arrAcc arrBody where
  keep s x hx := by
    simp only [arrAcc, (arr_at s).1, (arr_at s).2, not_or] at hx
    simp only [arrBody, if_neg hx.1, if_neg hx.2]
  value s t h _ x hw _ := by
    obtain ⟨e0, e1⟩ := arr_vec h
    simp only [arrAcc, (arr_at s).1, (arr_at s).2] at hw
    left
    simp only [arrBody, ← e0, ← e1]
    by_cases h3 : x = 3
    · rw [if_pos h3, if_pos h3]
    · rw [if_neg h3, if_neg h3, if_pos (hw.resolve_left h3), if_pos (hw.resolve_left h3)]
  accum s x _ h := h.elim
  contrib s t _ _ x h := h.elim
  comm x h := h.elim

theorem arr_space {s : State} {v : Vec} (h : Space [exI, exJ] s v) :
    0 ≤ v 0 ∧ v 0 < 2 ∧ 0 ≤ v 1 ∧ v 1 < 2 := by
  obtain ⟨⟨i, hi⟩, h2⟩ := h.1 exI (by simp)
  obtain ⟨⟨j, hj⟩, h3⟩ := h.1 exJ (by simp)
  simp only [exI, exJ, Val.eval] at hi h2 hj h3
  omega

theorem arr_noDep {s : State} {i : ℕ} {x : Loc} (hx : x ≠ 3) :
    TraitTrue [exI, exJ] arrAcc s i x .noDep := by
  intro v v' hv hv' hp hp' hw
  refine ⟨fun h => h, fun hw' => hp' ?_⟩
  have a := arr_space hv
  have b := arr_space hv'
  simp only [arrAcc, hx, false_or] at hw hw'
  have e : v 0 = v' 0 ∧ v 1 = v' 1 := by omega
  intro j hj h hh
  match j, hh with
  | 0, hh => cases hh; exact e.1
  | 1, hh => cases hh; exact e.2
  | j + 2, hh => simp at hh

theorem arr_right (s : State) : Right arrLoops 1 arrAcc s where
  size := by simp [arrLoops]
  distinct := by simp [arrLoops, exI, exJ]
  fixed h hm v := by
    simp only [arrLoops, List.take, List.map, List.mem_cons, List.not_mem_nil, or_false] at hm
    rcases hm with rfl | rfl
    · rintro (h | ⟨h, _⟩)
      · cases h
      · exact absurd h (by decide)
    · rintro (h | ⟨h, _⟩)
      · cases h
      · exact absurd h (by decide)
  invariant k l hk _ x hx := by
    match k, hk with
    | 0, hk => cases hk; simp [exI, Val.Reads] at hx
    | 1, hk => cases hk; simp [exJ, Val.Reads] at hx
    | k + 2, hk => simp [arrLoops] at hk
  positive l hm _ s' := by
    simp only [arrLoops, List.take, List.mem_cons, List.not_mem_nil, or_false] at hm
    rcases hm with rfl | rfl <;> simp [exI, exJ, Val.eval]
  covered l hm _ _ v hv x hw := by
    have a := arr_space hv
    have hx : x = 3 ∨ x = 10 ∨ x = 11 ∨ x = 12 ∨ x = 13 := by
      rcases hw with h | h
      · exact Or.inl h
      · have key : ∀ (n : ℕ) (a b : ℤ), (n : ℤ) = 10 + 2 * a + b → 0 ≤ a ∧ a < 2 ∧ 0 ≤ b ∧ b < 2 →
            n = 3 ∨ n = 10 ∨ n = 11 ∨ n = 12 ∨ n = 13 := by intros; omega
        exact key x _ _ h.2 a
    simp only [arrLoops, List.take, List.mem_cons, List.not_mem_nil, or_false] at hm
    rcases hm with rfl | rfl <;> rcases hx with rfl | rfl | rfl | rfl | rfl <;> simp
  traits i l hl _ _ t ht := by
    match i, hl with
    | 0, hl =>
      cases hl
      simp only [List.mem_cons, List.not_mem_nil, or_false] at ht
      rcases ht with rfl | rfl | rfl | rfl | rfl | rfl | rfl
      · trivial
      · exact fun v _ h => h.elim
      · exact fun v _ h => h.elim
      all_goals exact arr_noDep (by decide)
    | 1, hl =>
      cases hl
      simp only [List.mem_cons, List.not_mem_nil, or_false] at ht
      rcases ht with rfl | rfl | rfl | rfl | rfl | rfl
      · trivial
      · exact fun v _ h => h.elim
      all_goals exact arr_noDep (by decide)
    | i + 2, hl => simp [arrLoops] at hl

theorem arr_regular : Regular [exI, exJ] arrAcc := by
  constructor <;> simp [exI, exJ, Val.Reads]

/-- Hypotheses of `interchange_partial` hold for a nest with an array, a private variable and the
induction variable of the inner loop which is used after the nest; all elements of the array have
right values after interchange. -/
example (s t : State) (h : Exec arrBody [exI, exJ] s t) :
    ∃ t', Exec arrBody [exJ, exI] s t' ∧ t' 11 = t 11 ∧ t' 3 = t 3 ∧ t' 0 = t 0 ∧ t' 1 = t 1 := by
  obtain ⟨t', h1, h2, h3, h4⟩ := interchange_partial (may := exMay) (fun x => by simp [exMay])
    (loops := arrLoops) (m := 1) (by decide +kernel) arr_describes (arr_right s) arr_regular
    (List.Perm.swap _ _ _ : [exJ, exI].Perm [exI, exJ]) h
  have hne : ∀ h ∈ [exJ, exI], NonEmpty s h := by simp [NonEmpty, exI, exJ, Val.eval]
  refine ⟨t', h1, h2 11 ?_ (Or.inl ?_), h3 3 ?_ ?_, h4 hne exI (by simp), h4 hne exJ (by simp)⟩
  · simp [IsVar, arrLoops, exI, exJ]
  · simp [Hidden, arrLoops]
  · simp [IsVar, arrLoops, exI, exJ]
  · intro s₁ s₂ hv _
    obtain ⟨e0, e1⟩ := arr_vec hv
    simp [arrBody, e0, e1]

/-- Such executions exist. -/
example : ∃ t, Exec arrBody [exI, exJ] (fun _ => 0) t ∧ t 11 = 10 :=
  exec_of_execF (n := 5) (by decide +kernel)

/-- Exact conditions: each change of the nest leads to a diagnostic. -/
example : accepted exMay true arrLoops 1 = true ∧
    accepted exMay true (arrLoops.take 1) 1 = false ∧
    checkLoop exMay true [arrLoops.headD ⟨exI, true, true, true, []⟩] 0 0 = .dependency ∧
    checkLoop exMay true [⟨exI, true, true, true, []⟩] 0 0 = .crash ∧
    checkLoop exMay true (cntLoops exI ⟨1, .load 0, .const 2, .const 1⟩) 0 1 = .irregular ∧
    accepted exMay false [⟨exI, true, true, false, []⟩, ⟨exJ, true, false, false, []⟩] 1 = true ∧
    accepted exMay false [⟨exI, true, false, false, []⟩, ⟨exJ, true, false, false, []⟩] 1 = false :=
  by decide +kernel

end Tsar.InterchangeSem
