import Verif.MemSet.Sets
import Verif.Range.Props

/-!
# Intersection of well-formed locations in terms of `Reach`
-/

namespace Tsar.MemSet

open Tsar.Range

set_option linter.unusedSimpArgs false

theorem compl_sub {want : Bool} {d i : Dim} {th : Nat} {ps : List Dim} (hd : d.Wf) (hi : i.Wf)
    (hsub : ∀ x, i.Mem x → d.Mem x) (h : compl want d i th = some ps) :
    ∀ p ∈ ps, p.Wf ∧ p.size = d.size ∧ ∀ x, p.Mem x → d.Mem x := by
  intro p hp
  obtain ⟨h1, h2⟩ := compl_spec hd hi hsub h
  refine ⟨(h1 p hp).1, (h1 p hp).2, fun x hx => ?_⟩
  cases want with
  | false => unfold Range.compl at h; simp at h; subst h; simp at hp
  | true => exact ((h2 rfl x).1 ⟨p, hp, hx⟩).1

/-- All pieces of the right location (even if the result is unknown or empty) are well-formed
parts of it. -/
theorem intersectDimsFrom_pieces {S : Solver} (hS : SolverOK S) (wantL wantR : Bool) (th : Nat) :
    ∀ (ls rs preL preR int : List Dim) (lc rc : List (List Dim)),
      (∀ d ∈ ls, d.Wf) → (∀ d ∈ rs, d.Wf) → ls.map Dim.size = rs.map Dim.size →
      ∀ t ∈ (intersectDimsFrom S wantL wantR th preL preR ls rs int lc rc).2.2,
        t ∈ rc ∨ ∃ t', t = preR ++ t' ∧ Shape t' rs ∧ ∀ v, DimsMem t' v → DimsMem rs v
  | [], rs, preL, preR, int, lc, rc, _, _, _ => by
    intro t ht
    unfold intersectDimsFrom at ht
    exact Or.inl ht
  | l :: ls, [], _, _, _, _, _, _, _, h => by simp at h
  | l :: ls, r :: rs, preL, preR, int, lc, rc, hl, hr, hsz => by
    simp only [List.map_cons, List.cons.injEq] at hsz
    intro t ht
    unfold intersectDimsFrom at ht
    rcases dimIntersect_spec hS (hl l (by simp)) (hr r (by simp)) hsz.1 with
      ⟨he, _⟩ | ⟨d, hd, hdw, hds, hdm⟩
    · rw [he] at ht; exact Or.inl ht
    · rw [hd] at ht
      simp only at ht
      cases hcl : compl wantL l d th with
      | none => rw [hcl] at ht; exact Or.inl ht
      | some cl =>
        rw [hcl] at ht
        simp only at ht
        cases hcr : compl wantR r d th with
        | none => rw [hcr] at ht; exact Or.inl ht
        | some cr =>
          rw [hcr] at ht
          simp only at ht
          have hpc := compl_sub (hr r (by simp)) hdw (fun x hx => ((hdm x).1 hx).2) hcr
          rcases intersectDimsFrom_pieces hS wantL wantR th ls rs _ _ _ _ _
            (fun d hd => hl d (by simp [hd])) (fun d hd => hr d (by simp [hd])) hsz.2 t ht with
            h | ⟨t', rfl, h1, h2⟩
          · rcases List.mem_append.1 h with h | h
            · exact Or.inl h
            · obtain ⟨c, hc, rfl⟩ := List.mem_map.1 h
              right
              obtain ⟨c1, c2, c3⟩ := hpc c hc
              refine ⟨c :: rs, rfl, ⟨by simp [c2], ?_⟩, ?_⟩
              · intro e he
                rcases List.mem_cons.1 he with rfl | he
                · exact c1
                · exact hr e (by simp [he])
              · intro v hv
                cases v with
                | nil => exact hv.elim
                | cons x v => exact ⟨c3 x hv.1, hv.2⟩
          · right
            refine ⟨r :: t', by simp, ⟨by simp [h1.1], ?_⟩, ?_⟩
            · intro e he
              rcases List.mem_cons.1 he with rfl | he
              · exact hr e (by simp)
              · exact h1.2 e he
            · intro v hv
              cases v with
              | nil => exact hv.elim
              | cons x v => exact ⟨hv.1, h2 v hv.2⟩

/-- What is guaranteed for the intersection of well-formed locations. -/
structure InterOK (o : Obj) (l r : Loc) (wr : Bool) (q : Res × List Loc × List Loc) : Prop where
  noUb : q.1 ≠ .ub
  none : q.1 = .none → ∀ b, ¬ (Reach l b ∧ Reach r b)
  exact : ∀ m, q.1 = .exact m → m.ptr = l.ptr ∧ WfLoc o m ∧
    (∀ b, Reach m b ↔ Reach l b ∧ Reach r b) ∧
    (wr = true → ∀ b, (∃ p ∈ q.2.2, Reach p b) ↔ Reach r b ∧ ¬ Reach l b)
  pieces : ∀ p ∈ q.2.2, p.ptr = r.ptr ∧ WfLoc o p ∧ ∀ b, Reach p b → Reach r b

theorem reach_byte {o : Obj} {l : Loc} (h : l.IsArray o.elem) (b : Nat) :
    Reach l b ↔ l.Byte b := by simp [Reach, h.1]

theorem reach_scalar {l : Loc} (h : l.kind.collapsed = false) {lo up : Nat}
    (h1 : l.lower = some lo) (h2 : l.upper = some up) (b : Nat) :
    Reach l b ↔ l.Byte b := by simp [Reach, h, h1, h2, Loc.Byte]

theorem fits_mono {o : Obj} {a b : Nat} (h : o.Fits b) (hab : a ≤ b) : o.Fits a := by
  rcases h with h | ⟨h1, h2, h3, h4⟩
  · exact Or.inl h
  · refine Or.inr ⟨by omega, h2, h3, ?_⟩
    rcases h4 with h4 | h4
    · exact Or.inl h4
    · exact Or.inr (by omega)

theorem interOK_scalars {o : Obj} {l r : Loc} {wr : Bool} (hp : l.ptr = r.ptr)
    (hl : WfLoc o l) (hr : WfLoc o r) (hlc : l.kind.collapsed = false)
    (hrc : r.kind.collapsed = false) : InterOK o l r wr (intersectScalar l r) := by
  obtain ⟨hlp, hl⟩ := hl
  obtain ⟨hrp, hr⟩ := hr
  rcases hl with ⟨_, hld, ⟨ll, hll⟩, hlf⟩ | ⟨ha, _⟩
  swap
  · simp [ha.1] at hlc
  rcases hr with ⟨_, hrd, ⟨rl, hrl⟩, hrf⟩ | ⟨ha, _⟩
  swap
  · simp [ha.1] at hrc
  unfold intersectScalar
  rw [if_neg (by simp [hp]), if_neg (by simp [hlc, hrc])]
  cases hlu : l.upper with
  | none =>
    simp only [hll, hlu, hrl, boundLe, Bool.false_or]
    cases hru : r.upper with
    | none =>
      simp only [boundLe]
      exact ⟨by simp, by simp, by simp, by simp⟩
    | some ru =>
      simp only [boundLe]
      split
      · rename_i h
        simp only [decide_eq_true_eq] at h
        refine ⟨by simp, ?_, by simp, by simp⟩
        intro _ b
        simp [Reach, hlc, hrc, hll, hlu, hrl, hru]
        omega
      · exact ⟨by simp, by simp, by simp, by simp⟩
  | some lu =>
    cases hru : r.upper with
    | none =>
      simp only [hll, hrl, boundLe, Bool.or_false]
      split
      · rename_i h
        simp only [decide_eq_true_eq] at h
        refine ⟨by simp, ?_, by simp, by simp⟩
        intro _ b
        simp [Reach, hlc, hrc, hll, hlu, hrl, hru]
        omega
      · exact ⟨by simp, by simp, by simp, by simp⟩
    | some ru =>
      simp only [hll, hrl]
      by_cases h : lu > rl ∧ ll < ru
      · rw [if_pos h]
        refine ⟨by simp, by simp, ?_, ?_⟩
        · rintro m hm
          simp only [Res.exact.injEq] at hm
          subst hm
          refine ⟨rfl, ⟨hlp, Or.inl ⟨hlc, hld, ⟨_, rfl⟩, ?_⟩⟩, ?_, ?_⟩
          · intro up hup
            simp only [Option.some.injEq] at hup
            exact fits_mono (hlf lu hlu) (by omega)
          · intro b
            simp [Reach, hlc, hrc, hll, hlu, hrl, hru]
            omega
          · intro _ b
            by_cases h1 : rl < max ll rl <;> by_cases h2 : ru > min lu ru <;>
              simp only [h1, h2, if_true, if_false, List.mem_append, List.mem_singleton,
                List.not_mem_nil, or_false, false_or, exists_eq_left, or_and_right, exists_or,
                false_and, exists_false] <;>
              simp [Reach, hlc, hrc, hll, hlu, hrl, hru] <;> omega
        · intro p hp'
          simp only [List.mem_append] at hp'
          rcases hp' with hp' | hp'
          · split at hp'
            · simp only [List.mem_singleton] at hp'
              subst hp'
              refine ⟨rfl, ⟨hrp, Or.inl ⟨hrc, hrd, ⟨_, rfl⟩, ?_⟩⟩, ?_⟩
              · intro up hup
                simp only [Option.some.injEq] at hup
                exact fits_mono (hrf ru hru) (by omega)
              · intro b
                simp [Reach, hlc, hrc, hll, hlu, hrl, hru]
                omega
            · simp at hp'
          · split at hp'
            · simp only [List.mem_singleton] at hp'
              subst hp'
              refine ⟨rfl, ⟨hrp, Or.inl ⟨hrc, hrd, ⟨_, rfl⟩, ?_⟩⟩, ?_⟩
              · intro up hup
                exact hrf up (hru.trans hup)
              · intro b
                simp [Reach, hlc, hrc, hll, hlu, hrl, hru]
                omega
            · simp at hp'
      · rw [if_neg h]
        refine ⟨by simp, ?_, by simp, by simp⟩
        intro _ b
        simp [Reach, hlc, hrc, hll, hlu, hrl, hru]
        omega

theorem interOK_arrays {o : Obj} {S : Solver} (hS : SolverOK S) {l r : Loc} {wl wr : Bool}
    {th : Nat} (hp : l.ptr = r.ptr) (hlp : l.ptr ≠ none)
    (hl : l.IsArray o.elem) (hr : r.IsArray o.elem) (hls : l.dims.map Dim.size = o.sizes)
    (hrs : r.dims.map Dim.size = o.sizes) :
    InterOK o l r wr (intersect S wl wr th l r) := by
  have hsz : l.dims.map Dim.size = r.dims.map Dim.size := hls.trans hrs.symm
  have hspec := intersect_arrays hS (wl := wl) (wr := wr) (th := th) hp hlp hl hr hsz
  have hlen : l.dims.length = r.dims.length := by
    have := congrArg List.length hsz; simpa using this
  have hpieces := intersectDimsFrom_pieces hS wl wr th l.dims r.dims [] [] [] [] []
    hl.2.2.2.2.2.1 hr.2.2.2.2.2.1 hsz
  have hfrom := intersectDimsFrom_spec hS wl wr th l.dims r.dims [] [] [] [] []
    hl.2.2.2.2.2.1 hr.2.2.2.2.2.1 hlen
  -- pieces
  have hpc : ∀ p ∈ (intersect S wl wr th l r).2.2,
      p.ptr = r.ptr ∧ WfLoc o p ∧ ∀ b, Reach p b → Reach r b := by
    rw [intersect_collapsed hp hlp hl.1 hr.1, if_neg (by simp [hlen])]
    intro p hpm
    by_cases heq : l.lower = r.lower ∧ l.upper = r.upper ∧ l.dims = r.dims
    · rw [if_pos heq] at hpm; simp at hpm
    rw [if_neg heq] at hpm
    have hpm' : p ∈ (intersectDimsFrom S wl wr th [] [] l.dims r.dims [] [] []).2.2.map
        fun ds => ({ r with dims := ds } : Loc) := by
      rcases hq : intersectDimsFrom S wl wr th [] [] l.dims r.dims [] [] [] with ⟨q, lc, rc⟩
      rw [hq] at hpm
      cases q <;> exact hpm
    obtain ⟨t, ht, rfl⟩ := List.mem_map.1 hpm'
    rcases hpieces t ht with h | ⟨t', rfl, hsh, hsub⟩
    · simp at h
    · simp only [List.nil_append]
      have harr := array_of_shape hr hsh hsub
      refine ⟨trivial, ⟨by rw [← hp]; exact hlp, Or.inr ⟨harr, hsh.1.trans hrs⟩⟩, ?_⟩
      intro b
      rw [reach_byte harr, reach_byte hr, array_byte hr, array_byte_of hr hsh.1]
      rintro ⟨v, hv, h⟩
      exact ⟨v, hsub v hv, h⟩
  rcases hq : intersect S wl wr th l r with ⟨q, lc, rc⟩
  rw [hq] at hspec hpc
  cases q with
  | ub => exact hspec.elim
  | none =>
    refine ⟨by simp, fun _ b => ?_, by simp, hpc⟩
    rw [reach_byte hl, reach_byte hr]; exact hspec b
  | unknown => exact ⟨by simp, by simp, by simp, hpc⟩
  | exact m =>
    refine ⟨by simp, by simp, ?_, hpc⟩
    rintro m' hm
    simp only [Res.exact.injEq] at hm
    subst hm
    have hm : m.IsArray o.elem ∧ m.dims.map Dim.size = o.sizes := by
      rw [intersect_collapsed hp hlp hl.1 hr.1, if_neg (by simp [hlen])] at hq
      by_cases heq : l.lower = r.lower ∧ l.upper = r.upper ∧ l.dims = r.dims
      · rw [if_pos heq] at hq
        simp only [Prod.mk.injEq, Res.exact.injEq] at hq
        rw [← hq.1]; exact ⟨hl, hls⟩
      · rw [if_neg heq] at hq
        rcases hfrom with h | ⟨h, _⟩ | ⟨ds, tl, tr, h, hm, hsh, _⟩
        · rcases hz : intersectDimsFrom S wl wr th [] [] l.dims r.dims [] [] [] with ⟨z, a, c⟩
          rw [hz] at h hq
          simp only at h
          subst h
          simp at hq
        · rcases hz : intersectDimsFrom S wl wr th [] [] l.dims r.dims [] [] [] with ⟨z, a, c⟩
          rw [hz] at h hq
          simp only at h
          subst h
          simp at hq
        · rw [h] at hq
          simp only [Prod.mk.injEq, Res.exact.injEq, List.nil_append] at hq
          rw [← hq.1]
          exact ⟨array_of_shape hl hsh fun v hv => ((hm v).1 hv).1, hsh.1.trans hls⟩
    obtain ⟨h1, h2, h3, h4⟩ := hspec
    refine ⟨h1, ⟨by rw [h1]; exact hlp, Or.inr hm⟩, ?_, ?_⟩
    · intro b; rw [reach_byte hm.1, reach_byte hl, reach_byte hr]; exact h2 b
    · intro hw b
      rw [reach_byte hl, reach_byte hr, ← h4 hw b]
      constructor
      · rintro ⟨p, hp', h⟩
        have := (hpc p hp').2.1
        refine ⟨p, hp', ?_⟩
        rcases this.2 with ⟨hc, _, ⟨lo, hlo⟩, _⟩ | ⟨ha, _⟩
        · simp only [Reach, hc, Bool.false_eq_true, if_false] at h
          exfalso
          -- pieces are arrays
          have hpk : p.kind = r.kind := by
            rw [intersect_collapsed hp hlp hl.1 hr.1, if_neg (by simp [hlen])] at hq
            by_cases heq : l.lower = r.lower ∧ l.upper = r.upper ∧ l.dims = r.dims
            · rw [if_pos heq] at hq
              simp only [Prod.mk.injEq] at hq
              rw [← hq.2.2] at hp'; simp at hp'
            · rw [if_neg heq] at hq
              rcases hz : intersectDimsFrom S wl wr th [] [] l.dims r.dims [] [] [] with ⟨z, a, c⟩
              rw [hz] at hq
              cases z <;> simp only [Prod.mk.injEq, reduceCtorEq, false_and] at hq
              rw [← hq.2.2] at hp'
              obtain ⟨t, _, rfl⟩ := List.mem_map.1 hp'
              rfl
          rw [hpk, hr.1] at hc
          simp at hc
        · exact (reach_byte ha b).1 h
      · rintro ⟨p, hp', h⟩
        refine ⟨p, hp', ?_⟩
        have := (hpc p hp').2.1
        rcases this.2 with ⟨hc, _, ⟨lo, hlo⟩, _⟩ | ⟨ha, _⟩
        · cases hup : p.upper with
          | none => simp [Loc.Byte, hlo, hup] at h
          | some up => exact (reach_scalar hc hlo hup b).2 h
        · exact (reach_byte ha b).2 h

theorem InterOK.congr {o : Obj} {l r l' r' : Loc} {wr : Bool} {q : Res × List Loc × List Loc}
    (h : InterOK o l' r' wr q) (hp : l'.ptr = l.ptr) (hp' : r'.ptr = r.ptr)
    (hl : ∀ b, Reach l' b ↔ Reach l b)
    (hr : ∀ b, Reach r' b ↔ Reach r b) : InterOK o l r wr q := by
  obtain ⟨h1, h2, h3, h4⟩ := h
  simp only [hl, hr, hp, hp'] at h2 h3 h4
  exact ⟨h1, h2, h3, h4⟩

theorem fitsIn_of {o : Obj} {a : Loc} (ha : a.IsArray o.elem) (hs : a.dims.map Dim.size = o.sizes)
    {up : Nat} (hf : o.Fits up) : FitsIn a o.elem up := by
  cases hd : a.dims with
  | nil => exact absurd hd ha.2.2.2.2.1
  | cons d ds =>
    rcases hf with hf | ⟨h1, h2, h3, h4⟩
    · rw [hd] at hs
      rw [← hs] at hf; simp at hf
    · rw [← hs] at h2 h3 h4
      refine ⟨h1, ?_, h3, d, ds, hd, ?_⟩
      · rw [hd] at h2 ⊢; simpa using h2
      · rcases h4 with h4 | h4
        · left; rw [hd] at h4; simpa using h4
        · right; exact h4

theorem interOK {o : Obj} {S : Solver} (hS : SolverOK S) {l r : Loc} {wl wr : Bool}
    {th : Nat} (hp : l.ptr = r.ptr) (hl : WfLoc o l) (hr : WfLoc o r) :
    InterOK o l r wr (intersect S wl wr th l r) := by
  have hlp := hl.1
  have hunk : InterOK o l r wr (.unknown, [], []) := ⟨by simp, by simp, by simp, by simp⟩
  rcases hl.2 with ⟨hlc, hld, ⟨ll, hll⟩, hlf⟩ | ⟨hla, hls⟩ <;>
    rcases hr.2 with ⟨hrc, hrd, ⟨rl, hrl⟩, hrf⟩ | ⟨hra, hrs⟩
  · rw [intersect_scalars hp hlp hlc hrc]
    exact interOK_scalars hp hl hr hlc hrc
  · by_cases hnc : l.kind.nonCollapsable
    · have : intersect S wl wr th l r = (.unknown, [], []) := by
        unfold intersect
        rw [if_neg (by rw [← hp]; simp [hlp]), if_neg (by simp [hp])]
        simp [hlc, hra.1, hnc]
      rw [this]; exact hunk
    cases hlu : l.upper with
    | none =>
      have : intersect S wl wr th l r = (.unknown, [], []) := by
        unfold intersect
        rw [if_neg (by rw [← hp]; simp [hlp]), if_neg (by simp [hp])]
        have hd : delinearize r l = some l := by
          unfold delinearize
          simp [hlc, hra.1, hnc, hll, hlu]
        simp [hlc, hra.1, hnc, hd]
      rw [this]; exact hunk
    | some lu =>
      obtain ⟨l', hl', h⟩ := delinearize_spec hra ⟨hlc, ll, lu, hll, hlu⟩ fun u hu => by
        rw [hlu] at hu; obtain rfl := Option.some.inj hu
        exact fitsIn_of hra hrs (hlf _ hlu)
      rcases h with rfl | ⟨harr, hsz, hptr, hb⟩
      · have : intersect S wl wr th l' r = (.unknown, [], []) := by
          unfold intersect
          rw [if_neg (by rw [← hp]; simp [hlp]), if_neg (by simp [hp])]
          simp [hlc, hra.1, hnc, hl']
        rw [this]; exact hunk
      · have : intersect S wl wr th l r = intersect S wl wr th l' r := by
          unfold intersect
          simp [hlc, hra.1, hnc, hl', harr.1, hptr]
        rw [this]
        have h2 := interOK_arrays hS (o := o) (wl := wl) (wr := wr) (th := th) (hptr.trans hp)
          (hptr ▸ hlp) harr hra (hsz.trans hrs) hrs
        refine h2.congr hptr rfl (fun b => ?_) (fun _ => Iff.rfl)
        rw [reach_byte harr, reach_scalar hlc hll hlu]; exact hb b
  · by_cases hnc : r.kind.nonCollapsable
    · have : intersect S wl wr th l r = (.unknown, [], []) := by
        unfold intersect
        rw [if_neg (by rw [← hp]; simp [hlp]), if_neg (by simp [hp])]
        simp [hla.1, hrc, hnc]
      rw [this]; exact hunk
    cases hru : r.upper with
    | none =>
      have : intersect S wl wr th l r = (.unknown, [], []) := by
        unfold intersect
        rw [if_neg (by rw [← hp]; simp [hlp]), if_neg (by simp [hp])]
        have hd : delinearize l r = some r := by
          unfold delinearize
          simp [hrc, hla.1, hnc, hrl, hru]
        simp [hla.1, hrc, hnc, hd]
      rw [this]; exact hunk
    | some ru =>
      obtain ⟨r', hr', h⟩ := delinearize_spec hla ⟨hrc, rl, ru, hrl, hru⟩ fun u hu => by
        rw [hru] at hu; obtain rfl := Option.some.inj hu
        exact fitsIn_of hla hls (hrf _ hru)
      rcases h with rfl | ⟨harr, hsz, hptr, hb⟩
      · have : intersect S wl wr th l r' = (.unknown, [], []) := by
          unfold intersect
          rw [if_neg (by rw [← hp]; simp [hlp]), if_neg (by simp [hp])]
          simp [hla.1, hrc, hnc, hr']
        rw [this]; exact hunk
      · have : intersect S wl wr th l r = intersect S wl wr th l r' := by
          unfold intersect
          simp [hrc, hla.1, hnc, hr', harr.1, hptr]
        rw [this]
        have h2 := interOK_arrays hS (o := o) (wl := wl) (wr := wr) (th := th)
          (hp.trans hptr.symm) hlp hla harr hls (hsz.trans hls)
        refine h2.congr rfl hptr (fun _ => Iff.rfl) (fun b => ?_)
        rw [reach_byte harr, reach_scalar hrc hrl hru]; exact hb b
  · exact interOK_arrays hS hp hlp hla hra hls hrs

end Tsar.MemSet
