import Verif.DvmhData.Model
import Mathlib.Tactic.Common

/-!
# Properties C146, C147: selection of directives which transfer data
-/

namespace Tsar.DvmhData

/-- There is nothing to do for a directive: it has been marked as unnecessary before the selection, it has no variables
or its variables do not exist at its place. -/
def Idle (g : Graph) (f : Flags) (v : Nat) : Prop :=
  f.skipped v = true ∨ (v ≠ g.root ∧ (g.memory v = false ∨ g.hidden v = true))

/-- Specification: a transfer required by a directive `v` is performed: the directive is written to sources or there is
nothing to do or everything which replaces the directive is performed. `ins` is a set of written directives and `f`
describes directives before the selection. -/
inductive Done (g : Graph) (f : Flags) (ins : Nat → Prop) : Nat → Prop
  | written {v : Nat} : ins v → Done g f ins v
  | idle {v : Nat} : Idle g f v → Done g f ins v
  | replaced {v : Nat} : (g.children v ≠ [] ∨ v = g.root) → (∀ c ∈ g.children v, Done g f ins c) → Done g f ins v

/-- There are no cycles and the fuel is sufficient for all directives. -/
structure Acyclic (g : Graph) (fuel : Nat) (rank : Nat → Nat) : Prop where
  lt : ∀ v, ∀ c ∈ g.children v, rank c < rank v
  fuel : ∀ v, rank v < fuel

/-! ### Traversal -/

theorem process_other {g : Graph} {f : Flags} {u v : Nat} (h : u ≠ v) :
    (process g f v).skipped u = f.skipped u ∧ (process g f v).invalid u = f.invalid u := by
  unfold process Flags.skip Flags.invalidate
  split_ifs <;> simp [h]

theorem redundant_congr {g : Graph} {f f' : Flags} {v : Nat}
    (h : ∀ c ∈ g.children v, f'.skipped c = f.skipped c ∧ f'.invalid c = f.invalid c) :
    redundant g f' v = redundant g f v := by
  unfold redundant
  congr 1
  rw [Bool.eq_iff_iff, List.all_eq_true, List.all_eq_true]
  constructor
  · intro h' c hc; have := h' c hc; rw [(h c hc).1, (h c hc).2] at this; exact this
  · intro h' c hc; rw [(h c hc).1, (h c hc).2]; exact h' c hc

/-- Flags of a directive are the result of `process` for flags of its children. -/
def Local (g : Graph) (f0 f : Flags) (v : Nat) : Prop :=
  ∃ f', (∀ c ∈ g.children v, f'.skipped c = f.skipped c ∧ f'.invalid c = f.invalid c) ∧
    f'.skipped v = f0.skipped v ∧ f'.invalid v = f0.invalid v ∧
    f.skipped v = (process g f' v).skipped v ∧ f.invalid v = (process g f' v).invalid v

structure Inv (g : Graph) (f0 : Flags) (opened : List Nat) (s : St) : Prop where
  vis : ∀ v, v ∈ s.visited ↔ v ∈ s.po ∨ v ∈ opened
  disj : ∀ v ∈ opened, v ∉ s.po
  closed : ∀ v ∈ s.po, ∀ c ∈ g.children v, c ∈ s.po
  loc : ∀ v ∈ s.po, Local g f0 s.flags v
  init : ∀ v, v ∉ s.po → s.flags.skipped v = f0.skipped v ∧ s.flags.invalid v = f0.invalid v

theorem dfs_inv {g : Graph} {fuel : Nat} {rank : Nat → Nat} (ha : Acyclic g fuel rank) {f0 : Flags} :
    ∀ (n v : Nat) (s : St) (opened : List Nat), rank v < n → Inv g f0 opened s → (∀ o ∈ opened, rank v < rank o) →
      Inv g f0 opened (dfs g n v s) ∧ v ∈ (dfs g n v s).po ∧ ∀ u ∈ s.po, u ∈ (dfs g n v s).po
  | 0, v, s, _, h, _, _ => absurd h (Nat.not_lt_zero _)
  | n + 1, v, s, opened, hn, hi, ho => by
    rw [dfs]
    split_ifs with hv
    · refine ⟨hi, ?_, fun _ => id⟩
      rcases (hi.vis v).mp hv with h | h
      · exact h
      · exact absurd (ho v h) (Nat.lt_irrefl _)
    · have hvpo : v ∉ s.po := fun h => hv ((hi.vis v).mpr (.inl h))
      have h0 : Inv g f0 (v :: opened) { s with visited := v :: s.visited } := by
        refine ⟨fun u => ?_, fun u hu => ?_, hi.closed, hi.loc, hi.init⟩
        · simp only [List.mem_cons, hi.vis]
          constructor
          · rintro (h | h | h)
            · exact .inr (.inl h)
            · exact .inl h
            · exact .inr (.inr h)
          · rintro (h | h | h)
            · exact .inr (.inl h)
            · exact .inl h
            · exact .inr (.inr h)
        · rcases List.mem_cons.mp hu with rfl | hu
          · exact hvpo
          · exact hi.disj u hu
      have fold : ∀ (cs : List Nat) (s : St), (∀ c ∈ cs, c ∈ g.children v) → Inv g f0 (v :: opened) s →
          Inv g f0 (v :: opened) (cs.foldl (fun s c => dfs g n c s) s) ∧
          (∀ c ∈ cs, c ∈ (cs.foldl (fun s c => dfs g n c s) s).po) ∧
          ∀ u ∈ s.po, u ∈ (cs.foldl (fun s c => dfs g n c s) s).po := by
        intro cs
        induction cs with
        | nil => intro s _ h; exact ⟨h, fun _ h => by simp at h, fun _ => id⟩
        | cons c cs ih =>
          intro s hc h
          have hlt := ha.lt v c (hc c List.mem_cons_self)
          obtain ⟨h1, h2, h3⟩ := dfs_inv ha n c s (v :: opened) (Nat.lt_of_lt_of_le hlt (Nat.le_of_lt_succ hn)) h
            (fun o hom => by
              rcases List.mem_cons.mp hom with rfl | hom
              · exact hlt
              · exact Nat.lt_trans hlt (ho o hom))
          obtain ⟨k1, k2, k3⟩ := ih (dfs g n c s) (fun x hx => hc x (List.mem_cons_of_mem _ hx)) h1
          rw [List.foldl_cons]
          refine ⟨k1, fun x hx => ?_, fun u hu => k3 u (h3 u hu)⟩
          rcases List.mem_cons.mp hx with rfl | hx
          · exact k3 x h2
          · exact k2 x hx
      obtain ⟨h1, h2, h3⟩ := fold (g.children v) _ (fun _ => id) h0
      generalize (g.children v).foldl (fun s c => dfs g n c s) { s with visited := v :: s.visited } = t at h1 h2 h3
      have hvt : v ∉ t.po := h1.disj v List.mem_cons_self
      have hne : ∀ c ∈ g.children v, c ≠ v := fun c hc he => hvt (he ▸ h2 c hc)
      refine ⟨⟨fun u => ?_, fun u hu => ?_, fun u hu c hc => ?_, fun u hu => ?_, fun u hu => ?_⟩,
        List.mem_cons_self, fun u hu => List.mem_cons_of_mem _ (h3 u hu)⟩
      · simp only [h1.vis, List.mem_cons]
        constructor
        · rintro (h | h | h)
          · exact .inl (.inr h)
          · exact .inl (.inl h)
          · exact .inr h
        · rintro ((h | h) | h)
          · exact .inr (.inl h)
          · exact .inl h
          · exact .inr (.inr h)
      · intro hu'
        rcases List.mem_cons.mp hu' with rfl | hu'
        · exact absurd (ho u hu) (Nat.lt_irrefl _)
        · exact h1.disj u (List.mem_cons_of_mem _ hu) hu'
      · rcases List.mem_cons.mp hu with rfl | hu
        · exact List.mem_cons_of_mem _ (h2 c hc)
        · exact List.mem_cons_of_mem _ (h1.closed u hu c hc)
      · rcases List.mem_cons.mp hu with rfl | hu
        · refine ⟨t.flags, fun c hc => ?_, (h1.init u hvt).1, (h1.init u hvt).2, rfl, rfl⟩
          have := process_other (g := g) (f := t.flags) (hne c hc)
          exact ⟨this.1.symm, this.2.symm⟩
        · have huv : u ≠ v := fun he => hvt (he ▸ hu)
          obtain ⟨f', hc', e1, e2, e3, e4⟩ := h1.loc u hu
          refine ⟨f', fun c hc => ?_, e1, e2, ?_, ?_⟩
          · have hcv : c ≠ v := fun he => hvt (he ▸ h1.closed u hu c hc)
            have := process_other (g := g) (f := t.flags) hcv
            exact ⟨(hc' c hc).1.trans this.1.symm, (hc' c hc).2.trans this.2.symm⟩
          · exact (process_other (g := g) (f := t.flags) huv).1.trans e3
          · exact (process_other (g := g) (f := t.flags) huv).2.trans e4
      · have huv : u ≠ v := fun he => hu (he ▸ List.mem_cons_self)
        have hut : u ∉ t.po := fun h => hu (List.mem_cons_of_mem _ h)
        have := process_other (g := g) (f := t.flags) huv
        exact ⟨this.1.trans (h1.init u hut).1, this.2.trans (h1.init u hut).2⟩

theorem traverse_inv {g : Graph} {fuel : Nat} {rank : Nat → Nat} (ha : Acyclic g fuel rank) (f0 : Flags)
    (roots : List Nat) : Inv g f0 [] (traverse g fuel roots f0) ∧ ∀ r ∈ roots, r ∈ (traverse g fuel roots f0).po := by
  have fold : ∀ (rs : List Nat) (s : St), Inv g f0 [] s →
      Inv g f0 [] (rs.foldl (fun s r => dfs g fuel r s) s) ∧
      (∀ r ∈ rs, r ∈ (rs.foldl (fun s r => dfs g fuel r s) s).po) ∧
      ∀ u ∈ s.po, u ∈ (rs.foldl (fun s r => dfs g fuel r s) s).po := by
    intro rs
    induction rs with
    | nil => intro s h; exact ⟨h, fun _ h => by simp at h, fun _ => id⟩
    | cons r rs ih =>
      intro s h
      obtain ⟨h1, h2, h3⟩ := dfs_inv ha fuel r s [] (ha.fuel r) h (fun o ho => by simp at ho)
      obtain ⟨k1, k2, k3⟩ := ih _ h1
      rw [List.foldl_cons]
      refine ⟨k1, fun x hx => ?_, fun u hu => k3 u (h3 u hu)⟩
      rcases List.mem_cons.mp hx with rfl | hx
      · exact k3 x h2
      · exact k2 x hx
  have := fold roots { flags := f0 } ⟨by simp, by simp, by simp, by simp, fun v _ => ⟨rfl, rfl⟩⟩
  exact ⟨this.1, this.2.1⟩

/-! ### Flags after the traversal -/

/-- Why a directive is skipped. -/
theorem local_skipped {g : Graph} {f0 f : Flags} {v : Nat} (h : Local g f0 f v) (hs : f.skipped v = true) :
    Idle g f0 v ∨ (g.children v ≠ [] ∧ ∀ c ∈ g.children v, f.invalid c = false ∨ f.skipped c = true) ∨
      (v = g.root ∧ g.children v = []) := by
  obtain ⟨f', hc, e1, _, e3, _⟩ := h
  rw [e3] at hs
  unfold process at hs
  split_ifs at hs with h1 h2 h3 h4 h5 h6
  · exact .inl (.inl (e1 ▸ h1))
  · refine .inr (.inl ?_)
    simp only [redundant, Bool.and_eq_true, Bool.not_eq_true', List.isEmpty_eq_false_iff, List.all_eq_true,
      Bool.or_eq_true, and_assoc] at h2
    refine ⟨h2.1, fun c hcm => ?_⟩
    have := h2.2.1 c hcm
    rw [(hc c hcm).1, (hc c hcm).2] at this
    exact this
  · exact .inr (.inr ⟨h3, List.isEmpty_iff.mp h4⟩)
  · exact absurd hs h1
  · exact .inl (.inr ⟨h3, .inl (by simpa using h5)⟩)
  · exact .inl (.inr ⟨h3, .inr h6⟩)
  · exact absurd hs h1

/-- A directive which is neither skipped nor invalid may be written. -/
theorem local_written {g : Graph} {f0 f : Flags} {v : Nat} (h : Local g f0 f v) (hs : f.skipped v = false)
    (hi : f.invalid v = false) : v ≠ g.root ∧ g.memory v = true := by
  obtain ⟨f', _, _, _, e3, e4⟩ := h
  rw [e3] at hs
  rw [e4] at hi
  unfold process at hs hi
  split_ifs at hs hi with h1 h2 h3 h4 h5 h6 <;> simp_all [Flags.skip, Flags.invalidate]

/-- Only the root of interprocedural optimization becomes invalid. -/
theorem local_invalid {g : Graph} {f0 f : Flags} {v : Nat} (h : Local g f0 f v) (hv : v ≠ g.root) :
    f.invalid v = f0.invalid v := by
  obtain ⟨f', _, _, e2, _, e4⟩ := h
  rw [e4, ← e2]
  unfold process
  split_ifs <;> simp [Flags.skip]

theorem done_of {g : Graph} {fuel : Nat} {rank : Nat → Nat} (ha : Acyclic g fuel rank) {f0 : Flags} {s : St}
    (hi : Inv g f0 [] s) : ∀ (n v : Nat), rank v < n → v ∈ s.po →
      (s.flags.invalid v = false ∨ s.flags.skipped v = true) →
      Done g f0 (fun u => inserted g s.flags u = true) v
  | 0, v, h, _, _ => absurd h (Nat.not_lt_zero _)
  | n + 1, v, h, hv, hok => by
    rcases hs : s.flags.skipped v with _ | _
    · have hinv : s.flags.invalid v = false := by simpa [hs] using hok
      obtain ⟨h1, h2⟩ := local_written (hi.loc v hv) hs hinv
      exact .written (by simp [inserted, h1, h2, hs, hinv])
    · rcases local_skipped (hi.loc v hv) hs with h' | ⟨h1, h2⟩ | ⟨h1, h2⟩
      · exact .idle h'
      · exact .replaced (.inl h1) fun c hc =>
          done_of ha hi n c (Nat.lt_of_lt_of_le (ha.lt v c hc) (Nat.le_of_lt_succ h)) (hi.closed v hv c hc) (h2 c hc)
      · exact .replaced (.inr h1) fun c hc => by rw [h2] at hc; simp at hc

/-! ### Disabled optimization -/

theorem disable_mem {g : Graph} : ∀ (vs : List Nat) (f : Flags) (v : Nat),
    (disable g vs f).invalid v = f.invalid v ∧
    (disable g vs f).skipped v = if v ∈ vs then !g.orphan v else f.skipped v
  | [], f, v => by simp [disable]
  | w :: vs, f, v => by
    rw [disable]
    obtain ⟨h1, h2⟩ := disable_mem (g := g) vs
      (if g.orphan w then f.actualize w else if !f.skipped w then f.skip w else f) v
    rw [h1, h2]
    rcases ho : g.orphan w with _ | _ <;> rcases hs : f.skipped w with _ | _ <;>
      by_cases hv : v = w <;> by_cases hm : v ∈ vs <;>
      simp_all [Flags.skip, Flags.actualize]

/-! ### Properties -/

/-- An error is reported if and only if some root has replacements, it is not skipped and it cannot be inserted. -/
theorem select_none {g : Graph} {fuel : Nat} {roots : List Nat} {f : Flags} :
    select g fuel roots f = none ↔ ∃ r ∈ roots, notOptimized g (traverse g fuel roots f).flags r = true ∧
      (traverse g fuel roots f).flags.invalid r = true := by
  unfold select
  simp only
  split_ifs with h1 h2
  · simp only [true_iff]
    obtain ⟨r, hr, h⟩ := List.any_eq_true.mp h1
    obtain ⟨hr, hn⟩ := List.mem_filter.mp hr
    exact ⟨r, hr, hn, h⟩
  · simp only [reduceCtorEq, false_iff]
    rintro ⟨r, hr, hn, h⟩
    exact h1 (List.any_eq_true.mpr ⟨r, List.mem_filter.mpr ⟨hr, hn⟩, h⟩)
  · simp only [reduceCtorEq, false_iff]
    rintro ⟨r, hr, hn, h⟩
    exact h1 (List.any_eq_true.mpr ⟨r, List.mem_filter.mpr ⟨hr, hn⟩, h⟩)

/-- **C146 (partial).** If the selection succeeds and roots may be inserted into sources then transfers required by all
roots are performed: a root is written or it is replaced with directives which are written.

The full statement is without `hr`: it is false, see `performed_fails` and `performed_childless_fails`. -/
theorem performed_partial {g : Graph} {fuel : Nat} {rank : Nat → Nat} (ha : Acyclic g fuel rank) {roots : List Nat}
    {f res : Flags} (ho : ∀ r ∈ roots, g.orphan r = true) (hroot : g.root ∉ roots)
    (hr : ∀ r ∈ roots, f.invalid r = false ∨ Idle g f r) (h : select g fuel roots f = some res) :
    ∀ r ∈ roots, Done g f (fun u => inserted g res u = true) r := by
  obtain ⟨hi, hpo⟩ := traverse_inv ha f roots
  intro r hrm
  have hrr : r ≠ g.root := fun he => hroot (he ▸ hrm)
  unfold select at h
  simp only at h
  split_ifs at h with h1 h2
  · cases h
    rcases hr r hrm with hv | hidle
    · exact done_of ha hi _ r (Nat.lt_succ_self _) (hpo r hrm)
        (.inl ((local_invalid (hi.loc r (hpo r hrm)) hrr).trans hv))
    · exact .idle hidle
  · cases h
    rcases hr r hrm with hv | hidle
    · by_cases hm : g.memory r = true
      · obtain ⟨e1, e2⟩ := disable_mem (g := g) (traverse g fuel roots f).po (traverse g fuel roots f).flags r
        refine .written ?_
        simp only [inserted, e1, e2, hpo r hrm, if_true, ho r hrm, hm, local_invalid (hi.loc r (hpo r hrm)) hrr, hv]
        simp [hrr]
      · exact .idle (.inr ⟨hrr, .inl (by simpa using hm)⟩)
    · exact .idle hidle

/-- **C146.** If all roots with replacements are optimized then a root which cannot be inserted is allowed if it has
replacements. -/
theorem performed_optimized {g : Graph} {fuel : Nat} {rank : Nat → Nat} (ha : Acyclic g fuel rank) {roots : List Nat}
    {f : Flags} (hroot : g.root ∉ roots) (hr : ∀ r ∈ roots, g.children r = [] → f.invalid r = false ∨ Idle g f r)
    (hopt : ∀ r ∈ roots, notOptimized g (traverse g fuel roots f).flags r = false) :
    ∃ res, select g fuel roots f = some res ∧ ∀ r ∈ roots, Done g f (fun u => inserted g res u = true) r := by
  obtain ⟨hi, hpo⟩ := traverse_inv ha f roots
  have hnil : roots.filter (notOptimized g (traverse g fuel roots f).flags) = [] := by
    rw [List.filter_eq_nil_iff]
    intro r hrm; simp [hopt r hrm]
  refine ⟨(traverse g fuel roots f).flags, ?_, fun r hrm => ?_⟩
  · simp [select, hnil]
  · have hrr : r ≠ g.root := fun he => hroot (he ▸ hrm)
    have := hopt r hrm
    simp only [notOptimized, Bool.and_eq_false_iff, Bool.not_eq_false', List.isEmpty_iff] at this
    rcases this with hs | hc
    · exact done_of ha hi _ r (Nat.lt_succ_self _) (hpo r hrm) (.inr hs)
    · rcases hr r hrm hc with hv | hidle
      · exact done_of ha hi _ r (Nat.lt_succ_self _) (hpo r hrm)
          (.inl ((local_invalid (hi.loc r (hpo r hrm)) hrr).trans hv))
      · exact .idle hidle

/-- **C147.** All or nothing: if some root with replacements is not optimized then among directives of the replacement
graph only those without parents are written; otherwise every root with replacements is not written. Directives which
are not reachable from roots are not changed. -/
theorem all_or_nothing {g : Graph} {fuel : Nat} {rank : Nat → Nat} (ha : Acyclic g fuel rank) {roots : List Nat}
    {f res : Flags} (h : select g fuel roots f = some res) :
    ((∀ v ∈ (traverse g fuel roots f).po, inserted g res v = true → g.orphan v = true) ∨
      (∀ r ∈ roots, g.children r ≠ [] → inserted g res r = false)) ∧
    ∀ v, v ∉ (traverse g fuel roots f).po → inserted g res v = inserted g f v := by
  obtain ⟨hi, hpo⟩ := traverse_inv ha f roots
  unfold select at h
  simp only at h
  split_ifs at h with h1 h2
  · cases h
    refine ⟨.inr fun r hrm hc => ?_, fun v hv => ?_⟩
    · have : r ∉ roots.filter (notOptimized g (traverse g fuel roots f).flags) := by
        rw [List.isEmpty_iff.mp h2]; simp
      rw [List.mem_filter] at this
      have hs : (traverse g fuel roots f).flags.skipped r = true := by
        by_contra hns
        exact this ⟨hrm, by simp [notOptimized, hns, hc]⟩
      simp [inserted, hs]
    · obtain ⟨e1, e2⟩ := hi.init v hv
      simp [inserted, e1, e2]
  · cases h
    refine ⟨.inl fun v hv hins => ?_, fun v hv => ?_⟩
    · obtain ⟨e1, e2⟩ := disable_mem (g := g) (traverse g fuel roots f).po (traverse g fuel roots f).flags v
      rw [if_pos hv] at e2
      simp only [inserted, e2, Bool.and_eq_true, Bool.not_eq_true', Bool.not_eq_false'] at hins
      exact hins.2
    · obtain ⟨e1, e2⟩ := disable_mem (g := g) (traverse g fuel roots f).po (traverse g fuel roots f).flags v
      rw [if_neg hv] at e2
      obtain ⟨e3, e4⟩ := hi.init v hv
      simp [inserted, e1, e2, e3, e4]

/-- **C147.** A required or final directive which may be inserted is never replaced if optimization is not disabled. -/
theorem final_written {g : Graph} {fuel : Nat} {rank : Nat → Nat} (ha : Acyclic g fuel rank) {roots : List Nat}
    {f : Flags} (hopt : ∀ r ∈ roots, notOptimized g (traverse g fuel roots f).flags r = false) {v : Nat}
    (hf : g.final v = true ∨ g.required v = true) (hroot : v ≠ g.root) (hv : f.invalid v = false)
    (hidle : ¬ Idle g f v) : ∃ res, select g fuel roots f = some res ∧ inserted g res v = true := by
  obtain ⟨hi, hpo⟩ := traverse_inv ha f roots
  have hnil : roots.filter (notOptimized g (traverse g fuel roots f).flags) = [] := by
    rw [List.filter_eq_nil_iff]
    intro r hrm; simp [hopt r hrm]
  refine ⟨(traverse g fuel roots f).flags, by simp [select, hnil], ?_⟩
  have hs : f.skipped v = false := by
    by_contra h; exact hidle (.inl (by simpa using h))
  have hm : g.memory v = true := by
    by_contra h; exact hidle (.inr ⟨hroot, .inl (by simpa using h)⟩)
  have hh : g.hidden v = false := by
    by_contra h; exact hidle (.inr ⟨hroot, .inr (by simpa using h)⟩)
  by_cases hp : v ∈ (traverse g fuel roots f).po
  · have hinv := (local_invalid (hi.loc v hp) hroot).trans hv
    obtain ⟨f', _, e1, _, e3, _⟩ := hi.loc v hp
    have : (traverse g fuel roots f).flags.skipped v = false := by
      rw [e3]
      unfold process
      rcases hf with hf | hf <;> simp [e1, hs, hf, hroot, hm, hh]
    simp [inserted, hroot, hm, hinv, this]
  · obtain ⟨e1, e2⟩ := hi.init v hp
    simp [inserted, hroot, hm, e1, e2, hs, hv]

/-- **C147.** Nothing which cannot be inserted is written. -/
theorem written_valid {g : Graph} {fuel : Nat} {rank : Nat → Nat} (ha : Acyclic g fuel rank) {roots : List Nat}
    {f res : Flags} (h : select g fuel roots f = some res) {v : Nat} (hins : inserted g res v = true) :
    f.invalid v = false := by
  obtain ⟨hi, hpo⟩ := traverse_inv ha f roots
  have key : (traverse g fuel roots f).flags.invalid v = false → f.invalid v = false := by
    intro hf
    by_cases hv : v ∈ (traverse g fuel roots f).po
    · have hrr : v ≠ g.root := by
        intro he
        simp [inserted, he] at hins
      exact (local_invalid (hi.loc v hv) hrr).symm.trans hf
    · exact (hi.init v hv).2.symm.trans hf
  simp only [inserted, Bool.and_eq_true, Bool.not_eq_true'] at hins
  unfold select at h
  simp only at h
  split_ifs at h with h1 h2
  · cases h; exact key hins.1.2
  · cases h
    exact key ((disable_mem (g := g) _ _ v).1.symm.trans hins.1.2)

/-! ### Examples and counterexamples -/

/-- The example from a comment in sources (DVMHWriter.cpp:1647-1660): directives 1, 2 surround the first region, 3, 4
surround the second region inside a loop, 5, 6 surround the loop, 7 is inside the loop, 8, 9 are at the beginning and at
the end of the function. -/
def exG : Graph where
  children v := if v = 1 ∨ v = 2 ∨ v = 5 ∨ v = 6 then [8, 9] else if v = 3 ∨ v = 4 then [5, 6, 7] else []
  orphan v := v ≤ 4
  root := 0
  final v := v = 7 || v = 8 || v = 9
  required _ := false
  memory _ := true
  hidden _ := false

def rankG (v : Nat) : Nat := if v = 3 ∨ v = 4 then 2 else if v = 1 ∨ v = 2 ∨ v = 5 ∨ v = 6 then 1 else 0

theorem exG_acyclic : Acyclic exG 10 rankG := by
  constructor
  · intro v c hc
    simp only [exG] at hc
    split_ifs at hc with h1 h2
    · rcases h1 with rfl | rfl | rfl | rfl <;> simp at hc <;> rcases hc with rfl | rfl <;> decide
    · rcases h2 with rfl | rfl <;> simp at hc <;> rcases hc with rfl | rfl | rfl <;> decide
    · simp at hc
  · intro v; unfold rankG; split_ifs <;> decide

def noFlags : Flags := { skipped := fun _ => false, invalid := fun _ => false }

/-- Written directives of the function. -/
def writtenG (f : Flags) : Option (List Nat) :=
  (select exG 10 [1, 2, 3, 4] f).map fun r => [1, 2, 3, 4, 5, 6, 7, 8, 9].filter (inserted exG r)

/-- Everything is replaced with directives at the beginning and at the end of the function and inside the loop. -/
example : writtenG noFlags = some [7, 8, 9] := by decide

/-- A directive inside the loop cannot be inserted, optimization is disabled. -/
example : writtenG { noFlags with invalid := fun v => v = 7 } = some [1, 2, 3, 4] := by decide

example : ∀ r ∈ [1, 2, 3, 4], exG.orphan r = true := by decide
example : select exG 10 [1, 2, 3, 4] noFlags ≠ none := by decide

/-- **C146 fails** if a root cannot be inserted. A directive `1` cannot be inserted, it is replaced with `8` and `9`, so
there is no error. A directive `7` cannot be inserted also, so `3` and `4` are not optimized and optimization is disabled:
`8` and `9` are removed and there is nothing instead of `1`. -/
theorem performed_fails : ∃ res,
    select exG 10 [1, 2, 3, 4] { noFlags with invalid := fun v => v = 1 || v = 7 } = some res ∧
    ¬ Done exG { noFlags with invalid := fun v => v = 1 || v = 7 } (fun u => inserted exG res u = true) 1 := by
  rcases hsel : select exG 10 [1, 2, 3, 4] { noFlags with invalid := fun v => v = 1 || v = 7 } with _ | res
  · exact absurd hsel (by decide)
  · refine ⟨res, rfl, fun hd => ?_⟩
    have hw : ∀ v ∈ [1, 8, 9], inserted exG res v = false := by
      have : ∀ v ∈ [1, 8, 9], ((select exG 10 [1, 2, 3, 4]
          { noFlags with invalid := fun v => v = 1 || v = 7 }).map fun r => inserted exG r v) = some false := by decide
      intro v hv
      have := this v hv
      rw [hsel] at this
      simpa using this
    have hidle : ∀ v, v ≠ 0 → ¬ Idle exG { noFlags with invalid := fun v => v = 1 || v = 7 } v := by
      intro v hv h
      rcases h with h | ⟨_, h | h⟩ <;> simp [noFlags, exG] at h
    have h8 : ¬ Done exG { noFlags with invalid := fun v => v = 1 || v = 7 } (fun u => inserted exG res u = true) 8 := by
      intro h
      cases h with
      | written h => rw [hw 8 (by simp)] at h; cases h
      | idle h => exact hidle 8 (by decide) h
      | replaced h _ => rcases h with h | h <;> simp [exG] at h
    cases hd with
    | written h => rw [hw 1 (by simp)] at h; cases h
    | idle h => exact hidle 1 (by decide) h
    | replaced _ h => exact h8 (h 8 (by simp [exG]))

/-- A single directive without replacements, for example, in a function which is not optimized. -/
def oneG : Graph where
  children _ := []
  orphan _ := true
  root := 0
  final _ := true
  required _ := false
  memory _ := true
  hidden _ := false

/-- **C146 fails** for a directive without replacements which cannot be inserted: only directives with replacements are
checked (DVMHWriter.cpp:1609-1611), there is no error and nothing is written. -/
theorem performed_childless_fails : ∃ res,
    select oneG 2 [1] { noFlags with invalid := fun v => v = 1 } = some res ∧
    ¬ Done oneG { noFlags with invalid := fun v => v = 1 } (fun u => inserted oneG res u = true) 1 := by
  rcases hsel : select oneG 2 [1] { noFlags with invalid := fun v => v = 1 } with _ | res
  · exact absurd hsel (by decide)
  · refine ⟨res, rfl, fun hd => ?_⟩
    have hw : inserted oneG res 1 = false := by
      have : ((select oneG 2 [1] { noFlags with invalid := fun v => v = 1 }).map fun r => inserted oneG r 1) =
        some false := by decide
      rw [hsel] at this
      simpa using this
    cases hd with
    | written h => rw [hw] at h; cases h
    | idle h => rcases h with h | ⟨_, h | h⟩ <;> simp [noFlags, oneG] at h
    | replaced h _ => rcases h with h | h <;> simp [oneG] at h

end Tsar.DvmhData
