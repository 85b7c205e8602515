import Verif.DvmhAcross.Model
import Mathlib.Tactic.Common
import Mathlib.Tactic.Linarith
import Mathlib.Data.List.Induction

/-!
# Properties C152-C155: regular dependencies in DVMH loops
-/

namespace Tsar.DvmhAcross

/-! ### C152: accepted accesses -/

/-- A subscript is affine and its columns are `cs`. -/
def HasCols (s : Option Sub) (dim : Nat) (cs : List Nat) : Prop := s = some ⟨dim, some cs⟩

/-- A subscript depends on a loop. -/
def Mentions (loop : Nat) (a : Access) : Prop := ∃ s ∈ a.subs, ∃ dim cs, HasCols s dim cs ∧ loop ∈ cs

theorem scanCols_dim {loop dim : Nat} : ∀ {cs : List Nat} {an : Bool} {r : Option Nat},
    scanCols loop dim cs an (some dim) = some r → r = some dim ∧ ∀ c ∈ cs, c = loop
  | [], an, r, h => by simp [scanCols] at h; simp [h]
  | c :: cs, an, r, h => by
    unfold scanCols at h
    by_cases hc : c = loop
    · rw [if_pos hc] at h
      split_ifs at h
      obtain ⟨h1, h2⟩ := scanCols_dim h
      exact ⟨h1, fun x hx => (List.mem_cons.mp hx).elim (fun e => e ▸ hc) (h2 x)⟩
    · rw [if_neg hc, if_pos rfl] at h
      simp at h

theorem scanCols_other {loop dim : Nat} : ∀ {cs : List Nat} {dd r : Option Nat},
    scanCols loop dim cs true dd = some r → r = dd ∧ loop ∉ cs
  | [], dd, r, h => by simp [scanCols] at h; simp [h]
  | c :: cs, dd, r, h => by
    unfold scanCols at h
    by_cases hc : c = loop
    · rw [if_pos hc] at h
      simp at h
    · rw [if_neg hc] at h
      split_ifs at h
      obtain ⟨h1, h2⟩ := scanCols_other h
      exact ⟨h1, by simp [h2, Ne.symm hc]⟩

/-- What is known after a subscript. -/
theorem scanCols_spec {loop dim : Nat} {cs : List Nat} {dd r : Option Nat} (h : scanCols loop dim cs false dd = some r) :
    (loop ∈ cs → r = some dim ∧ (dd = none ∨ dd = some dim) ∧ ∀ c ∈ cs, c = loop) ∧
      (loop ∉ cs → r = dd) ∧ (dd = some dim → ∀ c ∈ cs, c = loop) := by
  cases cs with
  | nil => simp [scanCols] at h; simp [h]
  | cons c cs =>
    refine ⟨fun hl => ?_, fun hl => ?_, fun hd => (scanCols_dim (hd ▸ h)).2⟩
    · unfold scanCols at h
      by_cases hc : c = loop
      · rw [if_pos hc] at h
        split_ifs at h with hb
        obtain ⟨h1, h2⟩ := scanCols_dim h
        refine ⟨h1, ?_, fun x hx => (List.mem_cons.mp hx).elim (fun e => e ▸ hc) (h2 x)⟩
        cases dd with
        | none => exact .inl rfl
        | some x => right; by_contra hx; exact hb (by simpa using hx)
      · rw [if_neg hc] at h
        split_ifs at h
        have := (scanCols_other h).2
        exact absurd (List.mem_cons.mp hl) (by simp [this, Ne.symm hc])
    · unfold scanCols at h
      rw [if_neg (fun e => hl (by simp [e]))] at h
      split_ifs at h
      exact (scanCols_other h).1

/-- Once a dimension is found it is not changed. -/
theorem scanCols_keep {loop dim : Nat} {cs : List Nat} {d : Nat} {r : Option Nat}
    (h : scanCols loop dim cs false (some d) = some r) : r = some d := by
  obtain ⟨h1, h2, -⟩ := scanCols_spec h
  by_cases hl : loop ∈ cs
  · obtain ⟨h3, h4, -⟩ := h1 hl
    rcases h4 with h4 | h4
    · simp at h4
    · rw [h3, ← h4]
  · exact h2 hl

theorem scanSubs_keep {loop : Nat} : ∀ {ss : List (Option Sub)} {d : Nat} {r : Option Nat},
    scanSubs loop ss (some d) = some r → r = some d
  | [], d, r, h => by simp [scanSubs] at h; exact h.symm
  | none :: _, d, r, h => by simp [scanSubs] at h
  | some ⟨dim, none⟩ :: ss, d, r, h => by simp [scanSubs] at h
  | some ⟨dim, some cs⟩ :: ss, d, r, h => by
    simp only [scanSubs] at h
    split at h
    · simp at h
    · rename_i hs
      rw [scanCols_keep hs] at h
      exact scanSubs_keep h

theorem scanSubs_spec {loop : Nat} : ∀ {ss : List (Option Sub)} {dd r : Option Nat}, scanSubs loop ss dd = some r →
    (∀ s ∈ ss, ∃ dim cs, HasCols s dim cs ∧ (loop ∈ cs → r = some dim ∧ ∀ c ∈ cs, c = loop) ∧
      (dd = some dim → ∀ c ∈ cs, c = loop)) ∧
    ((¬∃ s ∈ ss, ∃ dim cs, HasCols s dim cs ∧ loop ∈ cs) → r = dd)
  | [], dd, r, h => by simp [scanSubs] at h; simp [h]
  | none :: _, dd, r, h => by simp [scanSubs] at h
  | some ⟨dim, none⟩ :: ss, dd, r, h => by simp [scanSubs] at h
  | some ⟨dim, some cs⟩ :: ss, dd, r, h => by
    simp only [scanSubs] at h
    split at h
    · simp at h
    · rename_i dd' hs
      obtain ⟨h1, h2, h3⟩ := scanCols_spec hs
      obtain ⟨k1, k2⟩ := scanSubs_spec h
      refine ⟨fun s hm => ?_, fun hn => ?_⟩
      · rcases List.mem_cons.mp hm with rfl | hm
        · refine ⟨dim, cs, rfl, fun hl => ?_, h3⟩
          obtain ⟨e, -, ha⟩ := h1 hl
          rw [e] at h
          exact ⟨scanSubs_keep h, ha⟩
        · obtain ⟨dim', cs', hc, ha, hb⟩ := k1 s hm
          refine ⟨dim', cs', hc, ha, fun hd => hb ?_⟩
          rw [hd] at hs
          exact scanCols_keep hs
      · rw [k2 (fun ⟨s, hm, d, c, hc⟩ => hn ⟨s, List.mem_cons_of_mem _ hm, d, c, hc⟩)]
        exact h2 (fun hl => hn ⟨_, List.mem_cons_self, dim, cs, rfl, hl⟩)

theorem scanAll_keep {loop : Nat} : ∀ {as : List Access} {d : Nat} {r : Option Nat},
    scanAll loop as (some d) = some r → r = some d
  | [], d, r, h => by simp [scanAll] at h; exact h.symm
  | a :: as, d, r, h => by
    simp only [scanAll] at h
    split at h
    · simp at h
    · rename_i hs
      rw [scanSubs_keep hs] at h
      exact scanAll_keep h

theorem scanAll_spec {loop : Nat} : ∀ {as : List Access} {dd r : Option Nat}, scanAll loop as dd = some r →
    (∀ a ∈ as, ∀ s ∈ a.subs, ∃ dim cs, HasCols s dim cs ∧ (loop ∈ cs → r = some dim ∧ ∀ c ∈ cs, c = loop) ∧
      (dd = some dim → ∀ c ∈ cs, c = loop)) ∧
    ((¬∃ a ∈ as, Mentions loop a) → r = dd)
  | [], dd, r, h => by simp [scanAll] at h; simp [h]
  | a :: as, dd, r, h => by
    simp only [scanAll] at h
    split at h
    · simp at h
    · rename_i dd' hs
      obtain ⟨h1, h2⟩ := scanSubs_spec hs
      obtain ⟨k1, k2⟩ := scanAll_spec h
      refine ⟨fun b hb s hm => ?_, fun hn => ?_⟩
      · rcases List.mem_cons.mp hb with rfl | hb
        · obtain ⟨dim, cs, hc, hl, hd⟩ := h1 s hm
          refine ⟨dim, cs, hc, fun hlc => ?_, hd⟩
          obtain ⟨e, ha⟩ := hl hlc
          rw [e] at h
          exact ⟨scanAll_keep h, ha⟩
        · obtain ⟨dim, cs, hc, hl, hd⟩ := k1 b hb s hm
          refine ⟨dim, cs, hc, hl, fun e => hd ?_⟩
          rw [e] at hs
          exact scanSubs_keep hs
      · rw [k2 (fun ⟨b, hb, hm⟩ => hn ⟨b, List.mem_cons_of_mem _ hb, hm⟩)]
        exact h2 (fun hm => hn ⟨a, List.mem_cons_self, hm⟩)

/-- **C152.** If a dependent dimension is found then all subscripts are affine, the loop is mentioned in this dimension only
and there are no other loops in subscripts which mention it, and there is an access which mentions it. -/
theorem dependent_dim {loop d : Nat} {as : List Access} (h : scanAll loop as none = some (some d)) :
    (∀ a ∈ as, ∀ s ∈ a.subs, ∃ dim cs, HasCols s dim cs ∧ (loop ∈ cs → dim = d ∧ ∀ c ∈ cs, c = loop)) ∧
      ∃ a ∈ as, Mentions loop a := by
  obtain ⟨h1, h2⟩ := scanAll_spec h
  refine ⟨fun a ha s hs => ?_, ?_⟩
  · obtain ⟨dim, cs, hc, hl, -⟩ := h1 a ha s hs
    exact ⟨dim, cs, hc, fun hlc => ⟨by simpa using (hl hlc).1.symm, (hl hlc).2⟩⟩
  · by_contra hn
    simpa using h2 hn

theorem scanAll_append {loop : Nat} : ∀ {as bs : List Access} {dd r : Option Nat},
    scanAll loop (as ++ bs) dd = some r → ∃ m, scanAll loop as dd = some m ∧ scanAll loop bs m = some r
  | [], bs, dd, r, h => ⟨dd, rfl, h⟩
  | a :: as, bs, dd, r, h => by
    simp only [List.cons_append, scanAll] at h ⊢
    split at h
    · simp at h
    · exact scanAll_append h

/-- **C152 (partial).** Other loops are not mentioned in the dependent dimension of accesses which follow an access with this
loop.

The full statement is about all accesses: it is false, see `other_loop_fails`. -/
theorem only_loop_partial {loop d : Nat} {as bs : List Access} (h : scanAll loop (as ++ bs) none = some (some d))
    (hm : ∃ a ∈ as, Mentions loop a) :
    ∀ b ∈ bs, ∀ s ∈ b.subs, ∀ cs, HasCols s d cs → ∀ c ∈ cs, c = loop := by
  obtain ⟨m, h1, h2⟩ := scanAll_append h
  have hmd : m = some d := by
    cases m with
    | none =>
      obtain ⟨a, ha, s, hs, dim, cs, hc, hl⟩ := hm
      obtain ⟨dim', cs', hc', hl', -⟩ := (scanAll_spec h1).1 a ha s hs
      unfold HasCols at hc hc'
      rw [hc] at hc'
      injection hc' with hc'
      injection hc' with e1 e2
      injection e2 with e2
      have := (hl' (e2 ▸ hl)).1
      simp at this
    | some x => rw [scanAll_keep h2]
  intro b hb s hs cs hc
  obtain ⟨dim, cs', hc', -, hd⟩ := (scanAll_spec h2).1 b hb s hs
  unfold HasCols at hc hc'
  rw [hc] at hc'
  injection hc' with hc'
  injection hc' with e1 e2
  injection e2 with e2
  rw [e2]
  exact hd (by rw [hmd, e1])

/-- Accesses `A[i][j]` and `A[i - 1][j]` in a loop over `i` (loop `1`). -/
def exAccesses : List Access := [⟨7, [some ⟨0, some [1]⟩, some ⟨1, some [2]⟩]⟩, ⟨7, [some ⟨0, some [1]⟩, some ⟨1, some [2]⟩]⟩]

example : scanAll 1 exAccesses none = some (some 0) := by decide

/-- **C152 fails.** If an access `A[j]` precedes an access `A[i]` then they are accepted, if it follows the access then they are
rejected. -/
theorem other_loop_fails : scanAll 1 [⟨7, [some ⟨0, some [2]⟩]⟩, ⟨7, [some ⟨0, some [1]⟩]⟩] none = some (some 0) ∧
    scanAll 1 [⟨7, [some ⟨0, some [1]⟩]⟩, ⟨7, [some ⟨0, some [2]⟩]⟩] none = none := by decide

/-! ### C153: depth and widths -/

/-- The first `n` loops may be executed together: distances of inner loops are not less than the negated distance of the
outermost one. -/
def Joint (l : List Range) (n : Nat) : Prop :=
  n ≤ l.length ∧ ∀ i, 1 ≤ i → i < n → ∀ r f, l[i]? = some r → l[0]? = some f → 0 ≤ r.lo ∨ -r.lo < f.lo

theorem padRest_spec (m : Int) : ∀ (rs : List Range), padRest m rs ≤ rs.length ∧
    (∀ i < padRest m rs, ∀ r, rs[i]? = some r → 0 ≤ r.lo ∨ -r.lo < m) ∧
    (∀ r, rs[padRest m rs]? = some r → r.lo < 0 ∧ m ≤ -r.lo)
  | [] => by simp [padRest]
  | r :: rs => by
    obtain ⟨h1, h2, h3⟩ := padRest_spec m rs
    unfold padRest
    by_cases hc : r.lo < 0 ∧ -r.lo ≥ m
    · rw [if_pos (by simpa using hc)]
      simp only [Nat.zero_le, true_and, Nat.not_lt_zero, List.getElem?_cons_zero, Option.some.injEq]
      exact ⟨fun i hi => hi.elim, fun x hx => hx ▸ hc⟩
    · rw [if_neg (by simpa using hc)]
      refine ⟨by simp; omega, fun i hi x hx => ?_, fun x hx => ?_⟩
      · cases i with
        | zero =>
          simp only [List.getElem?_cons_zero, Option.some.injEq] at hx
          subst hx
          omega
        | succ i => exact h2 i (by omega) x (by simpa using hx)
      · rw [Nat.add_comm, List.getElem?_cons_succ] at hx
        exact h3 x hx

theorem updatePAD_le (p : Nat) (l : List Range) : updatePAD p l ≤ p := by
  cases l with
  | nil => exact le_refl _
  | cons r rs => exact Nat.min_le_left _ _

theorem Joint.mono {l : List Range} {n k : Nat} (h : Joint l n) (hk : k ≤ n) : Joint l k :=
  ⟨hk.trans h.1, fun i h1 h2 => h.2 i h1 (lt_of_lt_of_le h2 hk)⟩

theorem updatePAD_joint (p : Nat) {l : List Range} (hl : l ≠ []) : Joint l (updatePAD p l) := by
  cases l with
  | nil => exact absurd rfl hl
  | cons r rs =>
    obtain ⟨h1, h2, -⟩ := padRest_spec r.lo rs
    refine Joint.mono (n := 1 + padRest r.lo rs) ⟨by simp; omega, fun i hi1 hi2 x f hx hf => ?_⟩ (Nat.min_le_right _ _)
    simp only [List.getElem?_cons_zero, Option.some.injEq] at hf
    subst hf
    obtain ⟨j, rfl⟩ : ∃ j, i = j + 1 := ⟨i - 1, by omega⟩
    exact h2 j (by omega) x (by simpa using hx)

/-- Accesses to the array of a dependence. -/
def accessesOf (accs : List Access) (d : Dep) : List Access := accs.filter fun a => a.array = d.array

/-- A number of dimensions. -/
def dims (accs : List Access) (d : Dep) : Nat := ((accessesOf accs d).map fun a => a.subs.length).foldl max 0

theorem processDeps_spec {loop : Nat} {neg : Bool} {accs : List Access} : ∀ {ds : List Dep} {pad : Nat} {info : Nat → Widths},
    0 < (processDeps loop neg accs ds pad info).1 → (ds.map Dep.array).Nodup →
    (processDeps loop neg accs ds pad info).1 ≤ pad ∧
    (∀ d ∈ ds, (∀ l, l = d.flow ∨ l = d.anti → l ≠ [] → Joint l (processDeps loop neg accs ds pad info).1) ∧
      ∃ dim, scanAll loop (accessesOf accs d) none = some (some dim) ∧
        (processDeps loop neg accs ds pad info).2 d.array =
          (resize (dims accs d) (info d.array)).set dim (widths neg d)) ∧
    (∀ a, (∀ d ∈ ds, d.array ≠ a) → (processDeps loop neg accs ds pad info).2 a = info a)
  | [], pad, info, _, _ => ⟨le_refl _, fun d hd => by simp at hd, fun _ _ => rfl⟩
  | d :: ds, pad, info, h, hn => by
    rw [List.map_cons, List.nodup_cons] at hn
    unfold processDeps at h ⊢
    simp only at h ⊢
    by_cases he : (accs.filter fun a => a.array = d.array).isEmpty = true
    · rw [if_pos he] at h; simp at h
    rw [if_neg he] at h ⊢
    cases hs : scanAll loop (accs.filter fun a => a.array = d.array) none with
    | none => rw [hs] at h; simp at h
    | some dd =>
      cases dd with
      | none => rw [hs] at h; simp at h
      | some dim =>
        rw [hs] at h
        simp only at h ⊢
        obtain ⟨k1, k2, k3⟩ := processDeps_spec h hn.2
        have hle := k1.trans ((updatePAD_le _ d.anti).trans (updatePAD_le pad d.flow))
        refine ⟨hle, fun e hm => ?_, fun a ha => ?_⟩
        · rcases List.mem_cons.mp hm with rfl | hm
          · refine ⟨fun l hl hne => ?_, dim, hs, ?_⟩
            · rcases hl with rfl | rfl
              · exact (updatePAD_joint pad hne).mono (k1.trans (updatePAD_le _ _))
              · exact (updatePAD_joint _ hne).mono k1
            · rw [k3 e.array (fun f hf hfe => hn.1 (List.mem_map.mpr ⟨f, hf, hfe⟩))]
              simp only [if_true]
              rfl
          · obtain ⟨m1, dim', m2, m3⟩ := k2 e hm
            refine ⟨m1, dim', m2, ?_⟩
            rw [m3, if_neg (fun hfe => hn.1 (List.mem_map.mpr ⟨e, hm, hfe⟩))]
        · rw [k3 a (fun f hf => ha f (List.mem_cons_of_mem _ hf)), if_neg (fun e => ha d List.mem_cons_self e.symm)]

theorem processRegular_spec {loop : Nat} {neg : Bool} {accs : List Access} {ds : List Dep} {info : Nat → Widths}
    (h : 0 < (processRegular loop neg accs ds info).1) (hn : (ds.map Dep.array).Nodup) :
    (∀ d ∈ ds, (∀ l, l = d.flow ∨ l = d.anti → l ≠ [] → Joint l (processRegular loop neg accs ds info).1) ∧
      ∃ dim, scanAll loop (accessesOf accs d) none = some (some dim) ∧
        (processRegular loop neg accs ds info).2 d.array = (resize (dims accs d) (info d.array)).set dim (widths neg d)) ∧
    (∀ a, (∀ d ∈ ds, d.array ≠ a) → (processRegular loop neg accs ds info).2 a = info a) := by
  cases ds with
  | nil => simp [processRegular] at h
  | cons d ds => exact (processDeps_spec h hn).2

/-- **C152.** If a loop is accepted then for each dependence all loops inside the found depth may be executed together. -/
theorem depth_joint {loop : Nat} {neg : Bool} {accs : List Access} {ds : List Dep} {info : Nat → Widths}
    (h : 0 < (processRegular loop neg accs ds info).1) (hn : (ds.map Dep.array).Nodup) {d : Dep} (hd : d ∈ ds) :
    (d.flow ≠ [] → Joint d.flow (processRegular loop neg accs ds info).1) ∧
    (d.anti ≠ [] → Joint d.anti (processRegular loop neg accs ds info).1) :=
  let r := ((processRegular_spec h hn).1 d hd).1
  ⟨r _ (.inl rfl), r _ (.inr rfl)⟩

/-- There are known distances. -/
def Dep.Known (d : Dep) : Prop := d.flow ≠ [] ∨ d.anti ≠ []

theorem updatePAD_eq (p : Nat) (l : List Range) :
    updatePAD p l = p ∨ (l ≠ [] ∧ ∃ f, l[0]? = some f ∧ ∀ r, l[updatePAD p l]? = some r → r.lo < 0 ∧ f.lo ≤ -r.lo) := by
  cases l with
  | nil => exact .inl rfl
  | cons r rs =>
    have e : updatePAD p (r :: rs) = min p (1 + padRest r.lo rs) := rfl
    rw [e]
    rcases Nat.le_total p (1 + padRest r.lo rs) with h | h
    · exact .inl (Nat.min_eq_left h)
    · right
      refine ⟨by simp, r, rfl, fun x hx => ?_⟩
      rw [Nat.min_eq_right h, Nat.add_comm, List.getElem?_cons_succ] at hx
      exact (padRest_spec r.lo rs).2.2 x hx

/-- A next loop cannot be executed together with previous ones because of a dependence or there is no next loop. -/
def Blocked (ds : List Dep) (n : Nat) : Prop :=
  ∃ d ∈ ds, ∃ l, (l = d.flow ∨ l = d.anti) ∧ l ≠ [] ∧ ¬ Joint l (n + 1)

theorem blocked_of {ds : List Dep} {d : Dep} (hd : d ∈ ds) {l : List Range} (hl : l = d.flow ∨ l = d.anti) {n : Nat}
    (hn : 0 < n) (hne : l ≠ []) {f : Range} (hf : l[0]? = some f)
    (h : ∀ r, l[n]? = some r → r.lo < 0 ∧ f.lo ≤ -r.lo) : Blocked ds n := by
  refine ⟨d, hd, l, hl, hne, fun hj => ?_⟩
  have hlt : n < l.length := hj.1
  have hr : l[n]? = some l[n] := List.getElem?_eq_getElem hlt
  rcases hj.2 n hn (Nat.lt_succ_self n) _ f hr hf with h1 | h1
  · exact absurd (h _ hr).1 (not_lt.mpr h1)
  · exact absurd (h _ hr).2 (not_le.mpr h1)

theorem processDeps_max {loop : Nat} {neg : Bool} {accs : List Access} : ∀ {ds : List Dep} {pad : Nat} {info : Nat → Widths},
    0 < (processDeps loop neg accs ds pad info).1 →
    (processDeps loop neg accs ds pad info).1 = pad ∨ Blocked ds (processDeps loop neg accs ds pad info).1
  | [], pad, info, _ => .inl rfl
  | d :: ds, pad, info, h => by
    unfold processDeps at h ⊢
    simp only at h ⊢
    by_cases he : (accs.filter fun a => a.array = d.array).isEmpty = true
    · rw [if_pos he] at h; simp at h
    rw [if_neg he] at h ⊢
    cases hs : scanAll loop (accs.filter fun a => a.array = d.array) none with
    | none => rw [hs] at h; simp at h
    | some dd =>
      cases dd with
      | none => rw [hs] at h; simp at h
      | some dim =>
        rw [hs] at h
        simp only at h ⊢
        rcases processDeps_max h with hk | ⟨e, he, l, hl⟩
        · rw [hk] at h ⊢
          rcases updatePAD_eq (updatePAD pad d.flow) d.anti with h1 | ⟨hne, f, hf, h1⟩
          · rw [h1] at h ⊢
            rcases updatePAD_eq pad d.flow with h2 | ⟨hne, f, hf, h2⟩
            · exact .inl h2
            · exact .inr (blocked_of List.mem_cons_self (.inl rfl) h hne hf h2)
          · exact .inr (blocked_of List.mem_cons_self (.inr rfl) h hne hf h1)
        · exact .inr ⟨e, List.mem_cons_of_mem _ he, l, hl⟩

/-- **C152.** The found depth is the maximal one. -/
theorem depth_max {loop : Nat} {neg : Bool} {accs : List Access} {ds : List Dep} {info : Nat → Widths}
    (h : 0 < (processRegular loop neg accs ds info).1) : Blocked ds (processRegular loop neg accs ds info).1 := by
  cases ds with
  | nil => simp [processRegular] at h
  | cons d ds =>
    simp only [processRegular] at h ⊢
    rcases processDeps_max h with hk | hk
    · by_cases he : d.flow = []
      · rw [if_pos (by simp [he])] at h hk ⊢
        refine ⟨d, List.mem_cons_self, d.anti, .inr rfl, fun ha => ?_, fun hj => ?_⟩
        · rw [hk, ha] at h; simp at h
        · rw [hk] at hj; exact absurd hj.1 (by omega)
      · rw [if_neg (by simpa using he)] at h hk ⊢
        refine ⟨d, List.mem_cons_self, d.flow, .inl rfl, he, fun hj => ?_⟩
        rw [hk] at hj; exact absurd hj.1 (by omega)
    · exact hk

theorem resize_length (n : Nat) (w : Widths) : (resize n w).length = n := by
  simp only [resize, List.length_append, List.length_take, List.length_replicate]
  omega

/-- **C153.** Widths of a dependence are set in the dependent dimension, other dimensions and other arrays are not changed. -/
theorem widths_set {loop : Nat} {neg : Bool} {accs : List Access} {ds : List Dep} {info : Nat → Widths}
    (h : 0 < (processRegular loop neg accs ds info).1) (hn : (ds.map Dep.array).Nodup) :
    (∀ d ∈ ds, ∃ dim, scanAll loop (accessesOf accs d) none = some (some dim) ∧
      ((processRegular loop neg accs ds info).2 d.array).length = dims accs d ∧
      (dim < dims accs d → ((processRegular loop neg accs ds info).2 d.array)[dim]? = some (widths neg d)) ∧
      ∀ k, k ≠ dim → k < dims accs d →
        ((processRegular loop neg accs ds info).2 d.array)[k]? = some ((info d.array)[k]?.getD (none, none))) ∧
    (∀ a, (∀ d ∈ ds, d.array ≠ a) → (processRegular loop neg accs ds info).2 a = info a) := by
  obtain ⟨h1, h2⟩ := processRegular_spec h hn
  refine ⟨fun d hd => ?_, h2⟩
  obtain ⟨-, dim, hs, hw⟩ := h1 d hd
  refine ⟨dim, hs, by rw [hw, List.length_set, resize_length], fun hlt => ?_, fun k hk hlt => ?_⟩
  · rw [hw, List.getElem?_set_self (by rw [resize_length]; exact hlt)]
  · rw [hw, List.getElem?_set_ne (Ne.symm hk), resize, List.getElem?_append]
    split_ifs with hc
    · rw [List.getElem?_take_of_lt hlt, List.getElem?_eq_getElem (by simp at hc; omega)]
      simp
    · simp only [List.length_take, Nat.lt_min, not_and, not_lt] at hc
      rw [List.getElem?_replicate, if_pos (by simp; omega), List.getElem?_eq_none (hc hlt)]
      simp

/-- An element which differs from a written one by `off` is inside declared widths. -/
def Covers (w : Option Int × Option Int) (off : Int) : Prop :=
  (off < 0 → ∃ l, w.1 = some l ∧ -off ≤ l) ∧ (0 < off → ∃ r, w.2 = some r ∧ off ≤ r)

/-- A subscript at an iteration `k` of a loop which starts from `i0` with a step `s`. -/
def index (a b i0 s k : Int) : Int := a * (i0 + s * k) + b

/-- At an iteration `kr` an element is read which has been written at an earlier iteration, the distance between iterations is
known. -/
def FlowDep (d : Dep) (a b c i0 s kw kr : Int) : Prop :=
  kw < kr ∧ index a b i0 s kw = index a c i0 s kr ∧ ∃ r, d.flow.head? = some r ∧ kr - kw ≤ r.hi

/-- At an iteration `kr` an element is read which will be written at a later iteration. -/
def AntiDep (d : Dep) (a b c i0 s kw kr : Int) : Prop :=
  kr < kw ∧ index a b i0 s kw = index a c i0 s kr ∧ ∃ r, d.anti.head? = some r ∧ kw - kr ≤ r.hi

/-- **C153 (partial).** A read element is inside declared widths relatively to an element which is written at the same
iteration: if a subscript is `i + b` and a step is one or minus one.

The full statement is for all coefficients and steps: it is false, see `reversed_fails` and `strided_fails`. -/
theorem covered_partial {d : Dep} {b c i0 s kw kr : Int} (hs : s = 1 ∨ s = -1)
    (h : FlowDep d 1 b c i0 s kw kr ∨ AntiDep d 1 b c i0 s kw kr) :
    Covers (widths (decide (s < 0)) d) (index 1 c i0 s kr - index 1 b i0 s kr) := by
  rcases hs with rfl | rfl <;> rcases h with ⟨h1, h2, r, hr, h3⟩ | ⟨h1, h2, r, hr, h3⟩ <;>
    simp only [index] at h2 ⊢ <;> simp only [widths, Covers] <;> refine ⟨fun hlt => ?_, fun hlt => ?_⟩ <;>
    first
      | (exfalso; omega)
      | exact ⟨r.hi, by simp [hr], by omega⟩

/-- **C153 fails.** A loop `A[n - i] = A[n - i + 1]`: an element to the right is read, but the width to the left is declared. -/
theorem reversed_fails : ∃ (d : Dep) (b c i0 kw kr : Int), FlowDep d (-1) b c i0 1 kw kr ∧
    ¬ Covers (widths false d) (index (-1) c i0 1 kr - index (-1) b i0 1 kr) := by
  refine ⟨⟨7, [⟨1, 1⟩], []⟩, 10, 11, 0, 0, 1, ⟨by decide, by decide, ⟨1, 1⟩, rfl, by decide⟩, ?_⟩
  rintro ⟨-, h⟩
  obtain ⟨r, h1, -⟩ := h (by decide)
  simp [widths] at h1

/-- **C153 fails.** A loop with a step two `A[i] = A[i - 2]`: the declared width is one. -/
theorem strided_fails : ∃ (d : Dep) (b c i0 kw kr : Int), FlowDep d 1 b c i0 2 kw kr ∧
    ¬ Covers (widths false d) (index 1 c i0 2 kr - index 1 b i0 2 kr) := by
  refine ⟨⟨7, [⟨1, 1⟩], []⟩, 0, -2, 0, 0, 1, ⟨by decide, by decide, ⟨1, 1⟩, rfl, by decide⟩, ?_⟩
  rintro ⟨h, -⟩
  obtain ⟨l, h1, h2⟩ := h (by decide)
  simp only [widths, List.head?_cons, Option.map_some, List.head?_nil, Option.map_none, Bool.false_eq_true, if_false,
    Option.some.injEq] at h1
  subst h1
  revert h2; decide

/-- A nest with a dependence `A[i][j]` on `A[i - 2][j + 1]` and an anti dependence on `A[i + 1][j]`. -/
def exDep : Dep := ⟨7, [⟨2, 2⟩, ⟨-1, -1⟩], [⟨1, 1⟩, ⟨0, 0⟩]⟩

example : (processRegular 1 false exAccesses [exDep] (fun _ => [])).1 = 2 := by decide
example : (processRegular 1 false exAccesses [exDep] (fun _ => [])).2 7 = [(some 2, some 1), (none, none)] := by decide
example : (processRegular 1 true exAccesses [exDep] (fun _ => [])).2 7 = [(some 1, some 2), (none, none)] := by decide
example : (processRegular 1 false exAccesses [⟨7, [⟨1, 1⟩, ⟨-1, -1⟩], []⟩] (fun _ => [])).1 = 1 := by decide
example : Joint exDep.flow 2 := (depth_joint (loop := 1) (neg := false) (accs := exAccesses) (ds := [exDep])
  (info := fun _ => []) (by decide) (by decide) List.mem_cons_self).1 (by decide)
example : FlowDep exDep 1 0 (-2) 5 1 3 5 := ⟨by decide, by decide, ⟨2, 2⟩, rfl, by decide⟩
example : AntiDep exDep 1 0 1 5 1 4 3 := ⟨by decide, by decide, ⟨1, 1⟩, rfl, by decide⟩

/-! ### C154: a size of a nest -/

/-- Invariant of a nest. -/
structure NestOk (ls : List Level) (n : Nest) : Prop where
  size : n.size ≤ ls.length
  unset : n.depth = 0 → ∀ k < n.size, ∀ l, ls[k]? = some l → l.depth = none
  set : n.depth ≠ 0 → ∀ k < n.size, ∀ l d, ls[k]? = some l → l.depth = some d → n.depth ≤ k + d
  le : n.depth ≠ 0 → n.size ≤ n.depth
  open_ : n.final = false → n.size = ls.length ∧ (n.depth ≠ 0 → n.size < n.depth)

theorem addLoop_ok {ls : List Level} {n : Nest} (h : NestOk ls n) (l : Level) : NestOk (ls ++ [l]) (addLoop n l) := by
  have old : ∀ k < n.size, ∀ x, (ls ++ [l])[k]? = some x → ls[k]? = some x := by
    intro k hk x hx
    rwa [List.getElem?_append_left (lt_of_lt_of_le hk h.size)] at hx
  by_cases hf : n.final = true
  · rw [addLoop, if_pos hf]
    refine ⟨by simp; exact Nat.le_succ_of_le h.size, fun h0 k hk x hx => h.unset h0 k hk x (old k hk x hx),
      fun h0 k hk x d hx hd => h.set h0 k hk x d (old k hk x hx) hd, h.le, fun h0 => by rw [hf] at h0; simp at h0⟩
  · have hf : n.final = false := by simpa using hf
    obtain ⟨hsz, hlt⟩ := h.open_ hf
    have last : ∀ x, (ls ++ [l])[n.size]? = some x → x = l := by
      intro x hx
      rw [hsz] at hx
      simpa using hx.symm
    unfold addLoop
    rw [if_neg (by simp [hf])]
    cases hd : l.depth with
    | none =>
      simp only
      refine ⟨by simp [hsz], fun h0 k hk x hx => ?_, fun h0 k hk x d hx hxd => ?_, fun h0 => hlt h0, fun h0 => ?_⟩
      · rcases Nat.lt_succ_iff_lt_or_eq.mp hk with hk | rfl
        · exact h.unset h0 k hk x (old k hk x hx)
        · rw [last x hx, hd]
      · rcases Nat.lt_succ_iff_lt_or_eq.mp hk with hk | rfl
        · exact h.set h0 k hk x d (old k hk x hx) hxd
        · rw [last x hx, hd] at hxd; simp at hxd
      · refine ⟨by simp [hsz], fun h1 => ?_⟩
        simp only [Bool.or_eq_false_iff, Bool.and_eq_false_iff, bne_eq_false_iff_eq, beq_eq_false_iff_ne] at h0
        rcases h0.2 with h0 | h0
        · exact absurd h0 h1
        · exact lt_of_le_of_ne (hlt h1) h0
    | some d =>
      cases d with
      | zero =>
        simp only
        exact ⟨by simp; exact Nat.le_succ_of_le h.size, fun h0 k hk x hx => h.unset h0 k hk x (old k hk x hx),
          fun h0 k hk x d hx hd => h.set h0 k hk x d (old k hk x hx) hd, h.le, fun h0 => by simp at h0⟩
      | succ d =>
        simp only
        have hle : n.size + 1 ≤ updateDepth n (d + 1) := by
          unfold updateDepth
          split_ifs with h0
          · omega
          · exact Nat.le_min.mpr ⟨hlt h0, by omega⟩
        have hup : updateDepth n (d + 1) ≤ d + 1 + n.size := by
          unfold updateDepth
          split_ifs
          · exact le_refl _
          · exact Nat.min_le_right _ _
        refine ⟨by simp [hsz], fun h0 => absurd (show updateDepth n (d + 1) = 0 from h0) (by omega), fun h0 k hk x e hx hxd => ?_, fun _ => hle, fun h0 => ?_⟩
        · rcases Nat.lt_succ_iff_lt_or_eq.mp hk with hk | rfl
          · by_cases hz : n.depth = 0
            · rw [h.unset hz k hk x (old k hk x hx)] at hxd; simp at hxd
            · have := h.set hz k hk x e (old k hk x hx) hxd
              refine le_trans ?_ this
              unfold updateDepth
              rw [if_neg hz]
              exact Nat.min_le_left _ _
          · rw [last x hx, hd] at hxd
            simp only [Option.some.injEq] at hxd
            show updateDepth n (d + 1) ≤ n.size + e
            omega
        · refine ⟨by simp [hsz], fun _ => ?_⟩
          simp only [Bool.or_eq_false_iff, Bool.and_eq_false_iff, bne_eq_false_iff_eq, beq_eq_false_iff_ne] at h0
          rcases h0.2 with h0 | h0
          · omega
          · exact lt_of_le_of_ne hle h0

theorem buildNest_ok (ls : List Level) : NestOk ls (buildNest ls) := by
  induction ls using List.reverseRecOn with
  | nil => exact ⟨by simp [buildNest], by simp [buildNest], by simp [buildNest], by simp [buildNest], by simp [buildNest]⟩
  | append_singleton ls l ih =>
    have : buildNest (ls ++ [l]) = addLoop (buildNest ls) l := by simp [buildNest]
    rw [this]
    exact addLoop_ok ih l

/-- **C154.** For each loop of a nest, loops which are nested in it do not exceed the depth allowed by its dependencies. -/
theorem nest_bounded (ls : List Level) {k : Nat} (hk : k < (buildNest ls).size) {l : Level} (hl : ls[k]? = some l) {d : Nat}
    (hd : l.depth = some d) : (buildNest ls).size ≤ k + d := by
  have h := buildNest_ok ls
  by_cases h0 : (buildNest ls).depth = 0
  · rw [h.unset h0 k hk l hl] at hd; simp at hd
  · exact (h.le h0).trans (h.set h0 k hk l d hl hd)

/-- **C154.** If a nest may be extended then the depth is not exceeded (an assertion in DVMHSMAutoPar.cpp:126-129). -/
theorem nest_open (ls : List Level) (h : (buildNest ls).final = false) :
    (buildNest ls).depth = 0 ∨ (buildNest ls).size < (buildNest ls).depth := by
  by_cases h0 : (buildNest ls).depth = 0
  · exact .inl h0
  · exact .inr (((buildNest_ok ls).open_ h).2 h0)

/-- **C154.** Loops of a nest form its beginning: they have been accepted and are perfectly nested. -/
theorem nest_accepted (ls : List Level) : ∀ k < (buildNest ls).size, ∃ l, ls[k]? = some l ∧ l.depth ≠ some 0 ∧
    (k + 1 < (buildNest ls).size → l.perfect = true) := by
  suffices h : (∀ k < (buildNest ls).size, ∃ l, ls[k]? = some l ∧ l.depth ≠ some 0 ∧
      (k + 1 < (buildNest ls).size → l.perfect = true)) ∧
      ((buildNest ls).final = false → ∀ k < (buildNest ls).size, ∀ l, ls[k]? = some l → l.perfect = true) from h.1
  induction ls using List.reverseRecOn with
  | nil => simp [buildNest]
  | append_singleton ls l ih =>
    have hb : buildNest (ls ++ [l]) = addLoop (buildNest ls) l := by simp [buildNest]
    have hok := buildNest_ok ls
    rw [hb]
    generalize buildNest ls = n at ih hok
    have up : ∀ {k : Nat} {x : Level}, ls[k]? = some x → (ls ++ [l])[k]? = some x := by
      intro k x hx
      rw [List.getElem?_append_left (List.getElem?_eq_some_iff.mp hx).1]
      exact hx
    have keep : ∀ k < n.size, ∃ x, (ls ++ [l])[k]? = some x ∧ x.depth ≠ some 0 ∧ (k + 1 < n.size → x.perfect = true) := by
      intro k hk
      obtain ⟨x, h1, h2, h3⟩ := ih.1 k hk
      exact ⟨x, up h1, h2, h3⟩
    by_cases hf : n.final = true
    · rw [addLoop, if_pos hf]
      exact ⟨keep, fun h0 => by rw [hf] at h0; simp at h0⟩
    · have hf : n.final = false := by simpa using hf
      obtain ⟨hsz, -⟩ := hok.open_ hf
      have lastE : (ls ++ [l])[n.size]? = some l := by rw [hsz]; simp
      have ext : l.depth ≠ some 0 → ∀ k < n.size + 1, ∃ x, (ls ++ [l])[k]? = some x ∧ x.depth ≠ some 0 ∧
          (k + 1 < n.size + 1 → x.perfect = true) := by
        intro hd k hk
        rcases Nat.lt_succ_iff_lt_or_eq.mp hk with hk | rfl
        · obtain ⟨x, h1, h2, -⟩ := ih.1 k hk
          exact ⟨x, up h1, h2, fun _ => ih.2 hf k hk x h1⟩
        · exact ⟨l, lastE, hd, fun h => by omega⟩
      have perf : l.perfect = true → ∀ k < n.size + 1, ∀ x, (ls ++ [l])[k]? = some x → x.perfect = true := by
        intro hp k hk x hx
        rcases Nat.lt_succ_iff_lt_or_eq.mp hk with hk | rfl
        · rw [List.getElem?_append_left (lt_of_lt_of_le hk hok.size)] at hx
          exact ih.2 hf k hk x hx
        · rw [lastE] at hx
          injection hx with hx
          rw [← hx]; exact hp
      unfold addLoop
      rw [if_neg (by simp [hf])]
      cases hd : l.depth with
      | none =>
        simp only
        refine ⟨ext (by simp [hd]), fun h0 => perf ?_⟩
        simp only [Bool.or_eq_false_iff, Bool.not_eq_false'] at h0
        exact h0.1
      | some d =>
        cases d with
        | zero => exact ⟨keep, fun h0 => by simp at h0⟩
        | succ d =>
          simp only
          refine ⟨ext (by simp [hd]), fun h0 => perf ?_⟩
          simp only [Bool.or_eq_false_iff, Bool.not_eq_false'] at h0
          exact h0.1

/-- The outermost loop has no dependencies, the second one allows two loops, the third one allows three loops. -/
def exLevels : List Level := [⟨none, true⟩, ⟨some 2, true⟩, ⟨some 3, true⟩, ⟨none, true⟩]

example : buildNest exLevels = ⟨3, 3, true⟩ := by decide

/-! ### C155: collection of distances -/

/-- Distances of all traits are known. -/
def AllKnown (ts : List Trait) : Prop := ∀ t ∈ ts, t.flow ≠ some none ∧ t.anti ≠ some none

/-- Distances of a trait are listed for its variable. -/
def Recorded (declOf : Nat → Option Nat) (deps : List Dep) (t : Trait) : Prop :=
  ∃ d ∈ deps, some d.array = declOf t.memory ∧ some d.flow = distances t.flow ∧ some d.anti = distances t.anti

/-- **C155 (partial).** Distances are recorded or a memory location without a variable is reported: if there is a single
memory location in an alias node and there are no distances for the same variable.

The full statement is for all alias nodes: it is false, see `several_fails` and `repeated_fails`. -/
theorem recorded_partial {declOf : Nat → Option Nat} {t : Trait} {deps : List Dep} (hk : AllKnown [t])
    (hn : ∀ d ∈ deps, some d.array ≠ declOf t.memory) :
    (collectNode declOf [t] deps).2 = true ∨ Recorded declOf (collectNode declOf [t] deps).1 t := by
  obtain ⟨h1, h2⟩ := hk t List.mem_cons_self
  have dist : ∀ o : Option (Option (List Range)), o ≠ some none → ∃ l, distances o = some l := by
    intro o ho
    rcases o with _ | _ | l
    · exact ⟨[], rfl⟩
    · exact absurd rfl ho
    · exact ⟨l, rfl⟩
  obtain ⟨f, hf⟩ := dist _ h1
  obtain ⟨a, ha⟩ := dist _ h2
  simp only [collectNode, collect, hf, ha]
  cases hv : declOf t.memory with
  | none => exact .inl rfl
  | some v =>
    right
    simp only [emplace]
    rw [if_neg]
    · exact ⟨⟨v, f, a⟩, by simp, hv.symm, hf.symm, ha.symm⟩
    · intro hc
      obtain ⟨d, hd, he⟩ := List.any_eq_true.mp hc
      exact hn d hd (by rw [hv]; simpa using he)

/-- **C155.** Dependencies which have been already recorded are not lost. -/
theorem recorded_kept (declOf : Nat → Option Nat) (ts : List Trait) (deps : List Dep) :
    ∀ d ∈ deps, d ∈ (collectNode declOf ts deps).1 := by
  have key : ∀ (first : Nat) (ts : List Trait) (r : List Dep × Bool), ∀ d ∈ r.1, d ∈ (collect declOf first ts r).1 := by
    intro first ts
    induction ts with
    | nil => intro r d hd; exact hd
    | cons t ts ih =>
      rintro ⟨deps, bad⟩ d hd
      unfold collect
      split
      · split
        · refine ih _ d ?_
          simp only [emplace]
          split_ifs
          · exact hd
          · exact List.mem_append_left _ hd
        · exact ih _ d hd
      · exact ih _ d hd
  cases ts with
  | nil => exact fun d hd => hd
  | cons t ts => exact fun d hd => key t.memory (t :: ts) (deps, false) d hd

example : collectNode (fun m => some m) [⟨7, some (some [⟨1, 1⟩]), none⟩] [] = ([⟨7, [⟨1, 1⟩], []⟩], false) := by decide

/-- **C155 fails.** There are two memory locations in an alias node: distances of the second one are lost, although all
distances are known and no problems are reported. -/
theorem several_fails : ∃ (ts : List Trait) (t : Trait), t ∈ ts ∧ AllKnown ts ∧
    (collectNode (fun m => some m) ts []).2 = false ∧ ¬ Recorded (fun m => some m) (collectNode (fun m => some m) ts []).1 t := by
  refine ⟨[⟨7, none, none⟩, ⟨8, some (some [⟨1, 1⟩]), none⟩], ⟨8, some (some [⟨1, 1⟩]), none⟩, by simp, ?_, rfl, ?_⟩
  · intro t ht
    simp only [List.mem_cons, List.not_mem_nil, or_false] at ht
    rcases ht with rfl | rfl <;> simp
  · rintro ⟨d, hd, h, -⟩
    have : d = ⟨7, [], []⟩ := by simpa [collectNode, collect, distances, emplace] using hd
    subst this
    simp at h

/-- **C155 fails.** Two alias nodes are described by the same variable: distances of the second one are lost. -/
theorem repeated_fails : ∃ (declOf : Nat → Option Nat) (t u : Trait), AllKnown [t] ∧ AllKnown [u] ∧
    let r := collectNode declOf [t] []
    let r' := collectNode declOf [u] r.1
    r.2 = false ∧ r'.2 = false ∧ ¬ Recorded declOf r'.1 u := by
  refine ⟨fun _ => some 5, ⟨7, some (some [⟨1, 1⟩]), none⟩, ⟨8, some (some [⟨3, 3⟩]), none⟩, ?_, ?_, rfl, rfl, ?_⟩
  · intro t ht
    simp only [List.mem_singleton] at ht
    subst ht; simp
  · intro t ht
    simp only [List.mem_singleton] at ht
    subst ht; simp
  · rintro ⟨d, hd, h, h2, -⟩
    have : d = ⟨5, [⟨1, 1⟩], []⟩ := by simpa [collectNode, collect, distances, emplace] using hd
    subst this
    simp [distances] at h2

end Tsar.DvmhAcross
