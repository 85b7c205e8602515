import Verif.Loop.Interchange
import Mathlib.Data.List.Induction

namespace Tsar.Loop.Interchange

theorem swapValues_eq {order : List (Option ℕ)} {a b : ℕ} (hn : order.Nodup)
    (ha : some a ∈ order) (hb : some b ∈ order) :
    swapValues order (some a) (some b) = some (order.map (Option.map (Equiv.swap a b))) := by
  unfold swapValues
  rw [if_pos ⟨ha, hb⟩]
  congr 1
  have hia := List.idxOf_lt_length_iff.2 ha
  have hib := List.idxOf_lt_length_iff.2 hb
  have hga : order[order.idxOf (some a)] = some a := List.getElem_idxOf hia
  have hgb : order[order.idxOf (some b)] = some b := List.getElem_idxOf hib
  apply List.ext_getElem
  · simp
  · intro i h1 h2
    simp only [List.length_set] at h1
    rw [List.getElem_set, List.getElem_map]
    by_cases hbi : order.idxOf (some b) = i
    · subst hbi
      rw [if_pos rfl, hgb]
      simp
    · rw [if_neg hbi, List.getElem_set]
      by_cases hai : order.idxOf (some a) = i
      · subst hai
        rw [if_pos rfl, hga]
        simp
      · rw [if_neg hai]
        cases hv : order[i] with
        | none => rfl
        | some v =>
          have hva : v ≠ a := by
            rintro rfl
            exact hai ((List.Nodup.getElem_inj_iff hn).1 (hga.trans hv.symm))
          have hvb : v ≠ b := by
            rintro rfl
            exact hbi ((List.Nodup.getElem_inj_iff hn).1 (hgb.trans hv.symm))
          simp [Equiv.swap_apply_of_ne_of_ne hva hvb]

/-- Composition of transpositions. -/
def comp (ps : List (ℕ × ℕ)) : Equiv.Perm ℕ :=
  ps.foldl (fun s p => Equiv.swap p.1 p.2 * s) 1

theorem foldl_comp (ps : List (ℕ × ℕ)) (σ : Equiv.Perm ℕ) :
    ps.foldl (fun s p => Equiv.swap p.1 p.2 * s) σ = comp ps * σ := by
  unfold comp
  induction ps generalizing σ with
  | nil => simp
  | cons p ps ih =>
    rw [List.foldl_cons, List.foldl_cons, ih, ih (Equiv.swap p.1 p.2 * 1), mul_one, mul_assoc]

theorem comp_cons (p : ℕ × ℕ) (ps : List (ℕ × ℕ)) :
    comp (p :: ps) = comp ps * Equiv.swap p.1 p.2 := by
  unfold comp
  rw [List.foldl_cons, foldl_comp, mul_one]
  rfl

theorem comp_snoc (ps : List (ℕ × ℕ)) (p : ℕ × ℕ) :
    comp (ps ++ [p]) = Equiv.swap p.1 p.2 * comp ps := by
  unfold comp
  rw [List.foldl_append]
  rfl

theorem map_swap_perm {order : List (Option ℕ)} {a b : ℕ} (hn : order.Nodup)
    (ha : some a ∈ order) (hb : some b ∈ order) :
    (order.map (Option.map (Equiv.swap a b))).Perm order := by
  have hinj : Function.Injective (Option.map (Equiv.swap a b)) :=
    Option.map_injective (Equiv.injective _)
  refine (List.perm_ext_iff_of_nodup (hn.map hinj) hn).2 fun x => ?_
  have key : ∀ x, x ∈ order → Option.map (Equiv.swap a b) x ∈ order := by
    intro x hx
    cases x with
    | none => exact hx
    | some v =>
      simp only [Option.map_some]
      rw [Equiv.swap_apply_def]
      split
      · exact hb
      · split
        · exact ha
        · exact hx
  constructor
  · intro hx
    obtain ⟨y, hy, rfl⟩ := List.mem_map.1 hx
    exact key y hy
  · intro hx
    refine List.mem_map.2 ⟨_, key x hx, ?_⟩
    cases x <;> simp

theorem applySwaps_eq {ps : List (ℕ × ℕ)} {order : List (Option ℕ)} (hn : order.Nodup)
    (hm : ∀ p ∈ ps, some p.1 ∈ order ∧ some p.2 ∈ order) :
    applySwaps (ps.flatMap fun p => [some p.1, some p.2]) order =
        some (order.map (Option.map (comp ps))) ∧
      (order.map (Option.map (comp ps))).Perm order := by
  induction ps generalizing order with
  | nil => simp [applySwaps, comp]
  | cons p ps ih =>
    obtain ⟨ha, hb⟩ := hm p (by simp)
    have hp := map_swap_perm hn ha hb
    obtain ⟨h1, h2⟩ := ih (order := order.map (Option.map (Equiv.swap p.1 p.2)))
      (hp.nodup_iff.2 hn) fun q hq => by
        rw [hp.mem_iff, hp.mem_iff]
        exact hm q (by simp [hq])
    have he : (order.map (Option.map (Equiv.swap p.1 p.2))).map (Option.map (comp ps)) =
        order.map (Option.map (comp (p :: ps))) := by
      rw [List.map_map]
      apply List.map_congr_left
      intro x _
      cases x <;> simp [comp_cons]
    rw [he] at h1 h2
    refine ⟨?_, h2.trans hp⟩
    simp only [List.flatMap_cons, List.cons_append, List.nil_append, applySwaps]
    rw [swapValues_eq hn ha hb]
    exact h1

theorem findLoop_eq {loops : List Lp} {nm : String} {i : ℕ} (h : findLoop loops nm = some i) :
    ∃ (l : Lp) (v : ℕ), loops[i]? = some l ∧ l.var = some v ∧ Named loops nm v := by
  unfold findLoop at h
  rw [List.findIdx?_eq_some_iff_getElem] at h
  obtain ⟨hi, h1, h2⟩ := h
  simp only [Bool.and_eq_true, beq_iff_eq] at h1
  obtain ⟨v, hv⟩ := Option.isSome_iff_exists.1 h1.1
  refine ⟨loops[i], v, List.getElem?_eq_getElem hi, hv, i, loops[i],
    List.getElem?_eq_getElem hi, h1.2, hv, ?_⟩
  intro j hj l' hl' hn
  obtain ⟨hj', rfl⟩ := List.getElem?_eq_some_iff.1 hl'
  have := h2 j hj
  simp only [hn, beq_self_eq_true, Bool.and_true, Bool.not_eq_true, Option.isSome_eq_false_iff,
    Option.isNone_iff_eq_none] at this
  exact this

theorem resolve_eq {loops : List Lp} {names : List String} {ps : List ℕ}
    (h : resolve loops names = some ps) :
    List.Forall₂ (fun nm i => findLoop loops nm = some i) names ps := by
  induction names generalizing ps with
  | nil =>
    simp only [resolve, Option.some.injEq] at h
    subst h
    exact .nil
  | cons nm names ih =>
    unfold resolve at h
    obtain ⟨i, hi, h⟩ := Option.bind_eq_some_iff.1 h
    obtain ⟨qs, hq, rfl⟩ := Option.map_eq_some_iff.1 h
    exact .cons hi (ih hq)

theorem le_foldl_max (ps : List ℕ) (m : ℕ) : m ≤ ps.foldl max m ∧ ∀ p ∈ ps, p ≤ ps.foldl max m := by
  induction ps generalizing m with
  | nil => simp
  | cons p ps ih =>
    obtain ⟨h1, h2⟩ := ih (max m p)
    rw [List.foldl_cons]
    refine ⟨by omega, ?_⟩
    simp only [List.mem_cons, forall_eq_or_imp]
    exact ⟨by omega, h2⟩

theorem literals_eq {clauses : List (String × String)}
    (hnm : ∀ c ∈ clauses, c.1 ≠ "interchange" ∧ c.2 ≠ "interchange") :
    literals clauses = clauses.flatMap fun c => [c.1, c.2] := by
  unfold literals
  rw [List.filter_eq_self]
  intro x hx
  obtain ⟨c, hc, hx⟩ := List.mem_flatMap.1 hx
  obtain ⟨h1, h2⟩ := hnm c hc
  simp only [List.mem_cons, List.not_mem_nil, or_false] at hx
  rcases hx with rfl | rfl <;> simpa

/-- Resolved clauses: pairs of variables. -/
theorem pairs_of_resolve {loops : List Lp} {clauses : List (String × String)} {positions : List ℕ}
    (h : List.Forall₂ (fun nm i => findLoop loops nm = some i)
      (clauses.flatMap fun c => [c.1, c.2]) positions) :
    ∃ ps : List (ℕ × ℕ),
      (positions.map fun p => (loops[p]?).bind Lp.var) = (ps.flatMap fun p => [some p.1, some p.2]) ∧
      List.Forall₂ (fun c p => Named loops c.1 p.1 ∧ Named loops c.2 p.2) clauses ps := by
  induction clauses generalizing positions with
  | nil =>
    simp only [List.flatMap_nil, List.forall₂_nil_left_iff] at h
    subst h
    exact ⟨[], rfl, .nil⟩
  | cons c cs ih =>
    simp only [List.flatMap_cons, List.cons_append, List.nil_append] at h
    cases h with
    | cons h1 h =>
      cases h with
      | cons h2 h =>
        obtain ⟨ps, e, hf⟩ := ih h
        obtain ⟨l1, v1, hl1, hv1, n1⟩ := findLoop_eq h1
        obtain ⟨l2, v2, hl2, hv2, n2⟩ := findLoop_eq h2
        refine ⟨(v1, v2) :: ps, ?_, .cons ⟨n1, n2⟩ hf⟩
        simp [e, hl1, hl2, hv1, hv2]

theorem composes_of_pairs {loops : List Lp} {clauses : List (String × String)}
    {ps : List (ℕ × ℕ)}
    (h : List.Forall₂ (fun c p => Named loops c.1 p.1 ∧ Named loops c.2 p.2) clauses ps) :
    Composes loops clauses (comp ps) := by
  induction ps using List.reverseRecOn generalizing clauses with
  | nil =>
    rw [List.forall₂_nil_right_iff] at h
    subst h
    exact .nil
  | append_singleton ps p ih =>
    have hne : clauses ≠ [] := by
      rintro rfl
      have := h.length_eq
      simp at this
    obtain ⟨cs, c, rfl⟩ : ∃ cs c, clauses = cs ++ [c] :=
      ⟨clauses.dropLast, clauses.getLast hne, (List.dropLast_append_getLast hne).symm⟩
    have hr := List.rel_reverse h
    simp only [List.reverse_append, List.reverse_singleton, List.singleton_append] at hr
    cases hr with
    | cons h1 h2 =>
      have h3 := List.rel_reverse h2
      simp only [List.reverse_reverse] at h3
      rw [comp_snoc]
      exact .snoc (ih h3) h1.1 h1.2

theorem newHeaders_eq {loops : List Lp} {order : List (Option ℕ)} {sources : List String}
    (g : ℕ → Lp → String) (ls : List Lp) (i : ℕ)
    (h : ∀ (k : ℕ) (l : Lp), ls[k]? = some l →
      newHeader loops order sources (i + k) l = some (g (i + k) l)) :
    ∃ hs, newHeaders loops order sources i ls = some hs ∧ hs.length = ls.length ∧
      ∀ (k : ℕ) (l : Lp), ls[k]? = some l → hs[k]? = some (g (i + k) l) := by
  induction ls generalizing i with
  | nil => exact ⟨[], rfl, rfl, by simp⟩
  | cons l ls ih =>
    obtain ⟨hs, h1, h2, h3⟩ := ih (i + 1) fun k l hk => by
      have := h (k + 1) l (by simpa using hk)
      rwa [show i + (k + 1) = i + 1 + k by omega] at this
    refine ⟨g i l :: hs, ?_, by simp [h2], ?_⟩
    · have := h 0 l (by simp)
      rw [Nat.add_zero] at this
      simp [newHeaders, this, h1]
    · intro k l' hk
      cases k with
      | zero => simp at hk; subst hk; simp
      | succ k =>
        rw [List.getElem?_cons_succ] at hk ⊢
        rw [show i + (k + 1) = i + 1 + k by omega]
        exact h3 k l' hk

/-- Everything about a transformation whose names are found and whose checks succeed. -/
theorem interchange_core {loops : List Lp} {ok : ℕ → ℕ → Bool} {clauses : List (String × String)}
    {positions : List ℕ} (hd : Distinct loops) (hok : Checks loops ok)
    (hnm : ∀ c ∈ clauses, c.1 ≠ "interchange" ∧ c.2 ≠ "interchange")
    (hres : resolve loops (literals clauses) = some positions)
    (hall : (List.range (positions.foldl max 0 + 1)).all (ok · (positions.foldl max 0)) = true) :
    ∃ hs σ, interchange loops ok clauses = .done hs ∧ Composes loops clauses σ ∧
      hs.Perm (loops.map Lp.header) ∧ hs.length = loops.length ∧
      (∀ (i : ℕ) (l : Lp) (v : ℕ), loops[i]? = some l → l.var = some v →
        ∃ (j : ℕ) (l' : Lp), loops[j]? = some l' ∧ l'.var = some (σ v) ∧
          hs[i]? = some l'.header) ∧
      (∀ (i : ℕ) (l : Lp), loops[i]? = some l → l.var = none → hs[i]? = some l.header) := by
  rw [literals_eq hnm] at hres
  have hf := resolve_eq hres
  obtain ⟨ps, hps, hpn⟩ := pairs_of_resolve hf
  set m := positions.foldl max 0 with hm
  have hle := (le_foldl_max positions 0).2
  rw [← hm] at hle
  -- loops up to `m` exist and are canonical
  have hcan : ∀ i, i ≤ m → ∃ (l : Lp) (v : ℕ), loops[i]? = some l ∧ l.var = some v := by
    intro i hi
    exact hok i m (List.all_eq_true.1 hall i (by simp; omega))
  have hlen : m + 1 ≤ loops.length := by
    obtain ⟨l, _, hl, _⟩ := hcan m le_rfl
    have := (List.getElem?_eq_some_iff.1 hl).1
    omega
  set order := (loops.take (m + 1)).map Lp.var with horder
  have holen : order.length = m + 1 := by simp [horder]; omega
  have hog : ∀ (i : ℕ) (l : Lp), i ≤ m → loops[i]? = some l → order[i]? = some l.var := by
    intro i l hi hl
    rw [horder, List.getElem?_map, List.getElem?_take, if_pos (by omega), hl]
    rfl
  have hnd : order.Nodup := by
    rw [List.nodup_iff_getElem?_ne_getElem?]
    intro i j hij hj
    rw [holen] at hj
    obtain ⟨l, v, hl, hv⟩ := hcan i (by omega)
    obtain ⟨l', v', hl', hv'⟩ := hcan j (by omega)
    rw [hog i l (by omega) hl, hog j l' (by omega) hl', hv, hv']
    intro he
    simp only [Option.some.injEq] at he
    subst he
    have := hd i j l l' v hl hl' hv hv'
    omega
  have hmem : ∀ p ∈ ps, some p.1 ∈ order ∧ some p.2 ∈ order := by
    have hsub : ∀ x ∈ positions.map (fun p => (loops[p]?).bind Lp.var), x ∈ order := by
      intro x hx
      obtain ⟨p, hp, rfl⟩ := List.mem_map.1 hx
      obtain ⟨l, v, hl, hv⟩ := hcan p (hle p hp)
      rw [hl]
      exact List.mem_of_getElem? (hog p l (hle p hp) hl)
    rw [hps] at hsub
    intro p hp
    exact ⟨hsub _ (List.mem_flatMap.2 ⟨p, hp, by simp⟩),
      hsub _ (List.mem_flatMap.2 ⟨p, hp, by simp⟩)⟩
  obtain ⟨happ, hperm⟩ := applySwaps_eq hnd hmem
  set order' := order.map (Option.map (comp ps)) with horder'
  have holen' : order'.length = m + 1 := by simp [horder', holen]
  -- the permutation does not touch other loops
  have hfix : ∀ v, some v ∉ order → comp ps v = v := by
    intro v hv
    have : ∀ qs : List (ℕ × ℕ), (∀ p ∈ qs, some p.1 ∈ order ∧ some p.2 ∈ order) →
        comp qs v = v := by
      intro qs
      induction qs using List.reverseRecOn with
      | nil => intro _; rfl
      | append_singleton qs p ih =>
        intro hq
        rw [comp_snoc, Equiv.Perm.mul_apply, ih fun q hq' => hq q (by simp [hq'])]
        obtain ⟨h1, h2⟩ := hq p (by simp)
        apply Equiv.swap_apply_of_ne_of_ne
        · rintro rfl; exact hv h1
        · rintro rfl; exact hv h2
    exact this ps hmem
  -- a loop with a given variable
  have hloop : ∀ v, some v ∈ order → ∃ (j : ℕ) (l : Lp), j ≤ m ∧ loops[j]? = some l ∧
      l.var = some v ∧ (loops.findIdx? fun l' => l'.var = some v) = some j := by
    intro v hv
    obtain ⟨j, hj, hjv⟩ := List.getElem_of_mem hv
    rw [holen] at hj
    obtain ⟨l, v', hl, hlv⟩ := hcan j (by omega)
    have h1 := hog j l (by omega) hl
    rw [List.getElem?_eq_getElem (by omega), hjv, hlv] at h1
    simp only [Option.some.injEq] at h1
    subst h1
    refine ⟨j, l, by omega, hl, hlv, ?_⟩
    rw [List.findIdx?_eq_some_iff_getElem]
    obtain ⟨hj', rfl⟩ := List.getElem?_eq_some_iff.1 hl
    refine ⟨hj', by simpa using hlv, ?_⟩
    intro k hk
    simp only [decide_eq_true_eq]
    intro hkv
    have := hd k j _ _ v (List.getElem?_eq_getElem (by omega)) hl hkv hlv
    omega
  -- the header of the loop with a given variable
  let hdr : Option ℕ → String := fun v =>
    (((loops.findIdx? fun l' => l'.var = v).bind fun j => loops[j]?).map Lp.header).getD ""
  have hhdr : ∀ (j : ℕ) (l : Lp), j ≤ m → loops[j]? = some l → hdr l.var = l.header := by
    intro j l hj hl
    obtain ⟨l', v, hl', hv⟩ := hcan j hj
    rw [hl] at hl'
    simp only [Option.some.injEq] at hl'
    subst hl'
    have hin : some v ∈ order := by
      rw [← hv]; exact List.mem_of_getElem? (hog j l hj hl)
    obtain ⟨k, lk, hk, hlk, hvk, hfk⟩ := hloop v hin
    have hjk := hd j k l lk v hl hlk hv hvk
    subst hjk
    simp only [hdr, hv, hfk, Option.bind_some, hl, Option.map_some, Option.getD_some]
  let g : ℕ → Lp → String := fun i l => match order'[i]? with
    | none => l.header
    | some v => hdr v
  have hg : ∀ (k : ℕ) (l : Lp), loops[k]? = some l →
      newHeader loops order' ((loops.take (m + 1)).map Lp.header) (0 + k) l =
        some (g (0 + k) l) := by
    intro k l hl
    rw [Nat.zero_add]
    unfold newHeader
    simp only [g]
    by_cases hk : k ≤ m
    · have ho := hog k l hk hl
      obtain ⟨l', v, hl', hv⟩ := hcan k hk
      rw [hl] at hl'
      simp only [Option.some.injEq] at hl'
      subst hl'
      have ho' : order'[k]? = some (some (comp ps v)) := by
        rw [horder', List.getElem?_map, ho, hv]; rfl
      rw [ho']
      dsimp only
      by_cases he : some (comp ps v) = l.var
      · rw [if_neg (by simpa using he), he, hhdr k l hk hl]
      · rw [if_pos he]
        have hin : some (comp ps v) ∈ order := by
          rw [← hperm.mem_iff]
          exact List.mem_of_getElem? ho'
        obtain ⟨j, lj, hj, hlj, hvj, hfj⟩ := hloop _ hin
        rw [hfj, ← hvj, hhdr j lj hj hlj, Option.bind_some, List.getElem?_map, List.getElem?_take,
          if_pos (by omega), hlj]
        rfl
    · rw [List.getElem?_eq_none (by omega)]
  obtain ⟨hs, hh1, hh2, hh3⟩ := newHeaders_eq g loops 0 hg
  simp only [Nat.zero_add] at hh3
  have hdone : interchange loops ok clauses = .done hs := by
    unfold interchange
    rw [literals_eq hnm, hres]
    dsimp only
    rw [← hm, if_pos hall, hps, ← horder, happ]
    dsimp only
    rw [hh1]
  refine ⟨hs, comp ps, hdone, composes_of_pairs hpn, ?_, hh2, ?_, ?_⟩
  · -- permutation of headers
    have e : hs = order'.map hdr ++ (loops.drop (m + 1)).map Lp.header := by
      apply List.ext_getElem?
      intro i
      by_cases hi : i < loops.length
      · rw [hh3 i _ (List.getElem?_eq_getElem hi), List.getElem?_append, List.length_map, holen']
        by_cases him : i < m + 1
        · rw [if_pos him, List.getElem?_map]
          simp only [g]
          rw [List.getElem?_eq_getElem (by omega)]
          rfl
        · rw [if_neg him, List.getElem?_map, List.getElem?_drop,
            show m + 1 + (i - (m + 1)) = i by omega, List.getElem?_eq_getElem hi]
          simp only [g]
          rw [List.getElem?_eq_none (by omega)]
          rfl
      · rw [List.getElem?_eq_none (by omega), List.getElem?_eq_none (by simp; omega)]
    have e0 : order.map hdr = (loops.take (m + 1)).map Lp.header := by
      rw [horder, List.map_map]
      apply List.map_congr_left
      intro l hl
      obtain ⟨j, hj, rfl⟩ := List.getElem_of_mem hl
      simp only [List.length_take] at hj
      rw [List.getElem_take]
      exact hhdr j _ (by omega) (List.getElem?_eq_getElem (by omega))
    rw [e]
    have := (hperm.map hdr).append_right ((loops.drop (m + 1)).map Lp.header)
    rw [e0, ← List.map_append, List.take_append_drop] at this
    exact this
  · intro i l v hl hv
    rw [hh3 i l hl]
    by_cases hi : i ≤ m
    · have ho' : order'[i]? = some (some (comp ps v)) := by
        rw [horder', List.getElem?_map, hog i l hi hl, hv]; rfl
      have hin : some (comp ps v) ∈ order := by
        rw [← hperm.mem_iff]
        exact List.mem_of_getElem? ho'
      obtain ⟨j, lj, hj, hlj, hvj, _⟩ := hloop _ hin
      refine ⟨j, lj, hlj, hvj, ?_⟩
      simp only [g]
      rw [ho', ← hvj]
      dsimp only
      rw [hhdr j lj hj hlj]
    · have hni : some v ∉ order := by
        intro hin
        obtain ⟨j, lj, hj, hlj, hvj, _⟩ := hloop _ hin
        have := hd i j l lj v hl hlj hv hvj
        omega
      refine ⟨i, l, hl, by rw [hfix v hni, hv], ?_⟩
      simp only [g]
      rw [List.getElem?_eq_none (by omega)]
  · intro i l hl hv
    rw [hh3 i l hl]
    by_cases hi : i ≤ m
    · obtain ⟨l', v, hl', hv'⟩ := hcan i hi
      rw [hl] at hl'
      simp only [Option.some.injEq] at hl'
      subst hl'
      rw [hv] at hv'
      exact absurd hv' (by simp)
    · simp only [g]
      rw [List.getElem?_eq_none (by omega)]

/-- **C45.**  After the transformation the headers are a permutation of the source headers, and the
loop with the variable `v` obtains the header of the loop with the variable `σ v`, where `σ` is
the composition of the requested transpositions; loops which have no induction variable keep their
headers.

Missing for the full property: a variable must not have the name of the clause itself
(`interchange_fails`). -/
theorem interchange_sound_partial {loops : List Lp} {ok : ℕ → ℕ → Bool}
    {clauses : List (String × String)} {hs : List String} (hd : Distinct loops)
    (hok : Checks loops ok)
    (hnm : ∀ c ∈ clauses, c.1 ≠ "interchange" ∧ c.2 ≠ "interchange")
    (h : interchange loops ok clauses = .done hs) :
    ∃ σ, Composes loops clauses σ ∧ hs.Perm (loops.map Lp.header) ∧ hs.length = loops.length ∧
      (∀ (i : ℕ) (l : Lp) (v : ℕ), loops[i]? = some l → l.var = some v →
        ∃ (j : ℕ) (l' : Lp), loops[j]? = some l' ∧ l'.var = some (σ v) ∧
          hs[i]? = some l'.header) ∧
      (∀ (i : ℕ) (l : Lp), loops[i]? = some l → l.var = none → hs[i]? = some l.header) := by
  cases hres : resolve loops (literals clauses) with
  | none => simp [interchange, hres] at h
  | some positions =>
    by_cases hall : (List.range (positions.foldl max 0 + 1)).all
        (ok · (positions.foldl max 0)) = true
    · obtain ⟨hs', σ, h1, h2, h3, h4, h5, h6⟩ := interchange_core hd hok hnm hres hall
      rw [h1] at h
      cases h
      exact ⟨σ, h2, h3, h4, h5, h6⟩
    · simp only [interchange, hres] at h
      rw [if_neg hall] at h
      cases h

/-- The transformation has no undefined behaviour. -/
theorem interchange_defined_partial {loops : List Lp} {ok : ℕ → ℕ → Bool}
    {clauses : List (String × String)} (hd : Distinct loops) (hok : Checks loops ok)
    (hnm : ∀ c ∈ clauses, c.1 ≠ "interchange" ∧ c.2 ≠ "interchange") :
    interchange loops ok clauses ≠ .undefined := by
  intro h
  cases hres : resolve loops (literals clauses) with
  | none => simp [interchange, hres] at h
  | some positions =>
    by_cases hall : (List.range (positions.foldl max 0 + 1)).all
        (ok · (positions.foldl max 0)) = true
    · obtain ⟨hs', σ, h1, _⟩ := interchange_core hd hok hnm hres hall
      rw [h1] at h
      cases h
    · simp only [interchange, hres] at h
      rw [if_neg hall] at h
      cases h

theorem findLoop_isSome {loops : List Lp} {nm : String} {v : ℕ} (h : Named loops nm v) :
    (findLoop loops nm).isSome := by
  obtain ⟨i, l, hl, hn, hv, _⟩ := h
  unfold findLoop
  rw [List.findIdx?_isSome, List.any_eq_true]
  exact ⟨l, List.mem_of_getElem? hl, by simp [hn, hv]⟩

theorem resolve_isSome {loops : List Lp} {names : List String}
    (h : ∀ nm ∈ names, ∃ v, Named loops nm v) : ∃ ps, resolve loops names = some ps := by
  induction names with
  | nil => exact ⟨[], rfl⟩
  | cons nm names ih =>
    obtain ⟨v, hv⟩ := h nm (by simp)
    obtain ⟨i, hi⟩ := Option.isSome_iff_exists.1 (findLoop_isSome hv)
    obtain ⟨ps, hps⟩ := ih fun x hx => h x (by simp [hx])
    exact ⟨i :: ps, by simp [resolve, hi, hps]⟩

/-- The transformation is performed if all names are known and all checks of existing canonical
loops succeed. -/
theorem interchange_done_partial {loops : List Lp} {ok : ℕ → ℕ → Bool}
    {clauses : List (String × String)} (hd : Distinct loops) (hok : Checks loops ok)
    (hnm : ∀ c ∈ clauses, c.1 ≠ "interchange" ∧ c.2 ≠ "interchange")
    (hknown : ∀ c ∈ clauses, (∃ v, Named loops c.1 v) ∧ ∃ v, Named loops c.2 v)
    (hchk : ∀ i m, i ≤ m → m < loops.length → ok i m = true) (hne : loops ≠ []) :
    ∃ hs, interchange loops ok clauses = .done hs := by
  obtain ⟨ps, hps⟩ := resolve_isSome (loops := loops) (names := literals clauses) (by
    rw [literals_eq hnm]
    intro nm hn
    obtain ⟨c, hc, hx⟩ := List.mem_flatMap.1 hn
    simp only [List.mem_cons, List.not_mem_nil, or_false] at hx
    rcases hx with rfl | rfl
    · exact (hknown c hc).1
    · exact (hknown c hc).2)
  have hlt : ps.foldl max 0 < loops.length := by
    have hin : ∀ p ∈ ps, p < loops.length := by
      intro p hp
      obtain ⟨k, hk, rfl⟩ := List.getElem_of_mem hp
      have hf := resolve_eq hps
      have hl := hf.length_eq
      have := (List.forall₂_iff_get.1 hf).2 k (by omega) hk
      obtain ⟨l, _, hl, _⟩ := findLoop_eq this
      exact (List.getElem?_eq_some_iff.1 hl).1
    have key : ∀ (qs : List ℕ) (m : ℕ), m < loops.length → (∀ q ∈ qs, q < loops.length) →
        qs.foldl max m < loops.length := by
      intro qs
      induction qs with
      | nil => intro m hm _; exact hm
      | cons q qs ih =>
        intro m hm hq
        exact ih _ (by have := hq q (by simp); omega) fun x hx => hq x (by simp [hx])
    exact key ps 0 (List.length_pos_of_ne_nil hne) hin
  obtain ⟨hs, _, h1, _⟩ := interchange_core hd hok hnm hps (by
    rw [List.all_eq_true]
    intro i hi
    simp only [List.mem_range] at hi
    exact hchk i _ (by omega) hlt)
  exact ⟨hs, h1⟩

/-- A nest of three loops; `j` is the variable of the middle one. -/
def exLoops : List Lp := [⟨some 0, "i", "i = 0; i < n; ++i"⟩, ⟨some 1, "j", "j = 0; j < m; ++j"⟩,
  ⟨some 2, "k", "k = 0; k < p; ++k"⟩]

/-- Checks accept all existing loops. -/
def exOk : ℕ → ℕ → Bool := fun i _ => decide (i < 3)

theorem exOk_checks : Checks exLoops exOk := by
  intro i m h
  simp only [exOk, decide_eq_true_eq] at h
  rcases (by omega : i = 0 ∨ i = 1 ∨ i = 2) with rfl | rfl | rfl
  · exact ⟨_, _, rfl, rfl⟩
  · exact ⟨_, _, rfl, rfl⟩
  · exact ⟨_, _, rfl, rfl⟩

theorem exLoops_distinct : Distinct exLoops := by
  intro i j l l' v hi hj hv hv'
  have hi3 : i < 3 := (List.getElem?_eq_some_iff.1 hi).1
  have hj3 : j < 3 := (List.getElem?_eq_some_iff.1 hj).1
  rcases (by omega : i = 0 ∨ i = 1 ∨ i = 2) with rfl | rfl | rfl <;>
  rcases (by omega : j = 0 ∨ j = 1 ∨ j = 2) with rfl | rfl | rfl <;>
  simp only [exLoops, List.getElem?_cons_zero, List.getElem?_cons_succ, Option.some.injEq] at hi hj <;>
  subst hi hj <;> simp_all

/-- `interchange(i, j) interchange(i, k)`: the hypotheses are met and the three headers are moved
cyclically. -/
example : interchange exLoops exOk [("i", "j"), ("i", "k")] =
    .done ["j = 0; j < m; ++j", "k = 0; k < p; ++k", "i = 0; i < n; ++i"] := by decide +kernel

/-- The full property is false: if the induction variable of a loop is named `interchange`, its
name is skipped as if it were the name of the clause, and an absent element of the list of
swapped variables is accessed. -/
theorem interchange_fails : ∃ (loops : List Lp) (ok : ℕ → ℕ → Bool)
    (clauses : List (String × String)), Distinct loops ∧ Checks loops ok ∧
    (∀ c ∈ clauses, (∃ v, Named loops c.1 v) ∧ ∃ v, Named loops c.2 v) ∧
    interchange loops ok clauses = .undefined := by
  refine ⟨[⟨some 0, "interchange", "a"⟩, ⟨some 1, "j", "b"⟩], fun i _ => decide (i < 2),
    [("interchange", "j")], ?_, ?_, ?_, by decide +kernel⟩
  · intro i j l l' v hi hj hv hv'
    have hi3 : i < 2 := (List.getElem?_eq_some_iff.1 hi).1
    have hj3 : j < 2 := (List.getElem?_eq_some_iff.1 hj).1
    rcases (by omega : i = 0 ∨ i = 1) with rfl | rfl <;>
    rcases (by omega : j = 0 ∨ j = 1) with rfl | rfl <;>
    simp only [List.getElem?_cons_zero, List.getElem?_cons_succ, Option.some.injEq] at hi hj <;>
    subst hi hj <;> simp_all
  · intro i m h
    simp only [decide_eq_true_eq] at h
    rcases (by omega : i = 0 ∨ i = 1) with rfl | rfl
    · exact ⟨_, _, rfl, rfl⟩
    · exact ⟨_, _, rfl, rfl⟩
  · intro c hc
    simp only [List.mem_singleton] at hc
    subst hc
    refine ⟨⟨0, 0, _, rfl, rfl, rfl, by omega⟩, ⟨1, 1, _, rfl, rfl, rfl, ?_⟩⟩
    intro k hk l' hl' hn
    obtain rfl : k = 0 := by omega
    simp only [List.getElem?_cons_zero, Option.some.injEq] at hl'
    subst hl'
    exact absurd hn (by decide)

end Tsar.Loop.Interchange
