import Verif.MemMatch.Model
import Mathlib.Data.List.Sort

/-!
# Matching of variables and memory (C183, C184)
-/

namespace Tsar.MemMatch

/-- Contract of sorting: elements are permuted and ordered by names. -/
def Sorts (srt : List Item → List Item) : Prop :=
  ∀ l, (srt l).Perm l ∧ (srt l).Pairwise fun a b => a.name ≤ b.name

/-- Different variables have different names. -/
def Distinct (l : List Item) : Prop := (l.map Item.name).Nodup

/-! ## C183 -/

theorem sameNames_iff : ∀ (l : List Item), l.Pairwise (fun a b => a.name ≤ b.name) →
    (sameNames l = false ↔ Distinct l)
  | [], _ => by simp [sameNames, Distinct]
  | [a], _ => by simp [sameNames, Distinct]
  | a :: b :: l, h => by
    have h1 := List.pairwise_cons.1 h
    have ih := sameNames_iff (b :: l) h1.2
    rw [sameNames, Bool.or_eq_false_iff, ih]
    unfold Distinct
    rw [List.map_cons (l := b :: l), List.nodup_cons]
    refine and_congr_left fun _ => ?_
    simp only [beq_eq_false_iff_ne, ne_eq]
    constructor
    · intro hne hm
      obtain ⟨c, hc, e⟩ := List.mem_map.1 hm
      have hb := h1.1 b (by simp)
      rcases List.mem_cons.1 hc with rfl | hc
      · exact hne e.symm
      · have := (List.pairwise_cons.1 h1.2).1 c hc
        omega
    · intro hm e
      exact hm (by simp [e])

theorem distinct_perm {l l' : List Item} (h : l.Perm l') : Distinct l ↔ Distinct l' :=
  (h.map Item.name).nodup_iff

theorem prepare_distinct {srt : List Item → List Item} (hs : Sorts srt) {l : List Item}
    (h : Distinct l) : prepare srt l = srt l := by
  unfold prepare
  rw [(sameNames_iff _ (hs l).2).2 ((distinct_perm (hs l).1).2 h)]
  simp

theorem prepare_same {srt : List Item → List Item} (hs : Sorts srt) {l : List Item}
    (h : ¬ Distinct l) : prepare srt l = [] := by
  unfold prepare
  have : sameNames (srt l) = true := by
    by_contra hn
    rw [Bool.not_eq_true] at hn
    exact h ((distinct_perm (hs l).1).1 ((sameNames_iff _ (hs l).2).1 hn))
  rw [if_pos this]

theorem sorted_names {srt : List Item → List Item} (hs : Sorts srt) {a b : List Item}
    (h : (a.map Item.name).Perm (b.map Item.name)) :
    (srt a).map Item.name = (srt b).map Item.name := by
  have hp : ((srt a).map Item.name).Perm ((srt b).map Item.name) :=
    ((hs a).1.map _).trans (h.trans ((hs b).1.map _).symm)
  refine List.Perm.eq_of_pairwise' (r := (· ≤ ·)) ?_ ?_ hp
  · exact List.pairwise_map.2 (hs a).2
  · exact List.pairwise_map.2 (hs b).2

theorem zip_names : ∀ (a b : List Item), a.map Item.name = b.map Item.name →
    ∀ p ∈ a.zip b, p.1.name = p.2.name
  | [], _, _, p, hp => by simp at hp
  | _ :: _, [], h, _, _ => by simp at h
  | x :: a, y :: b, h, p, hp => by
    simp only [List.map_cons, List.cons.injEq] at h
    rw [List.zip_cons_cons] at hp
    rcases List.mem_cons.1 hp with rfl | hp
    · exact h.1
    · exact zip_names a b h.2 p hp

/-- **C183**: if each variable of a macro has memory with its name, and names are different, then each
variable is matched with the memory which has its name and each alloca is used once, no matter in which
order declarations and allocas are listed. -/
theorem macro_exact {srt : List Item → List Item} (hs : Sorts srt) {as ds : List Item}
    (hd : Distinct ds) (h : (as.map Item.name).Perm (ds.map Item.name)) :
    (∀ p ∈ (matchMacro srt (some as) ds).1, p.1.name = p.2.name) ∧
    ((matchMacro srt (some as) ds).1.map Prod.fst).Perm ds ∧
    ((matchMacro srt (some as) ds).1.map Prod.snd).Perm as ∧
    (matchMacro srt (some as) ds).2 = [] := by
  have hl : as.length = ds.length := by simpa using h.length_eq
  have hl1 : (srt ds).length = ds.length := (hs ds).1.length_eq
  have hl2 : (srt as).length = as.length := (hs as).1.length_eq
  have e : matchMacro srt (some as) ds = ((srt ds).reverse.zip (srt as).reverse, []) := by
    unfold matchMacro
    simp only [prepare_distinct hs hd]
    rw [if_neg (by omega)]
  rw [e]
  refine ⟨zip_names _ _ ?_, ?_, ?_, rfl⟩
  · rw [List.map_reverse, List.map_reverse, sorted_names hs h]
  · rw [List.map_fst_zip (by simp; omega)]
    exact (List.reverse_perm _).trans (hs ds).1
  · rw [List.map_snd_zip (by simp; omega)]
    exact (List.reverse_perm _).trans (hs as).1

/-- **C183**, partial: if names of variables are different then each variable is either matched or
remembered as unmatched, and never both. Missing: equal names, see `dropped_fails`. -/
theorem accounted_partial {srt : List Item → List Item} (hs : Sorts srt) (as : Option (List Item))
    {ds : List Item} (hd : Distinct ds) :
    ((matchMacro srt as ds).1.map Prod.fst ++ (matchMacro srt as ds).2).Perm ds := by
  unfold matchMacro
  rw [prepare_distinct hs hd]
  cases as with
  | none => simpa using (List.reverse_perm _).trans (hs ds).1
  | some as =>
    simp only
    by_cases h : as.length ≠ (srt ds).length
    · rw [if_pos h]
      simpa using (List.reverse_perm _).trans (hs ds).1
    · rw [if_neg h]
      have hl2 : (srt as).length = as.length := (hs as).1.length_eq
      simp only [List.append_nil]
      rw [List.map_fst_zip (by simp; omega)]
      exact (List.reverse_perm _).trans (hs ds).1

/-- **C183**: variables with equal names are never matched. -/
theorem ambiguous {srt : List Item → List Item} (hs : Sorts srt) (as : Option (List Item))
    {ds : List Item} (hd : ¬ Distinct ds) : (matchMacro srt as ds).1 = [] := by
  unfold matchMacro
  rw [prepare_same hs hd]
  cases as with
  | none => rfl
  | some as =>
    simp only
    split <;> simp

/-- **C183**: if numbers of variables and allocas are different then nothing is matched. -/
theorem mismatch {srt : List Item → List Item} (hs : Sorts srt) {as ds : List Item}
    (h : as.length ≠ ds.length) : (matchMacro srt (some as) ds).1 = [] := by
  by_cases hd : Distinct ds
  · unfold matchMacro
    rw [prepare_distinct hs hd]
    have := (hs ds).1.length_eq
    simp only
    rw [if_pos (by omega)]
  · exact ambiguous hs (some as) hd

/-- **C183**, disagreement: variables of a macro with equal names are neither matched nor remembered as
unmatched. -/
theorem dropped_fails : ∃ (ds : List Item), ds ≠ [] ∧ ∀ srt, Sorts srt → ∀ as,
    matchMacro srt as ds = ([], []) := by
  refine ⟨[⟨1, 10⟩, ⟨1, 11⟩], by simp, fun srt hs as => ?_⟩
  unfold matchMacro
  rw [prepare_same hs (by simp [Distinct])]
  cases as with
  | none => rfl
  | some as =>
    simp only
    split <;> simp

/-- **C183**: the hypothesis on names in `macro_exact` is needed. Only numbers of variables and allocas
are compared, so if metadata and declarations disagree a variable is matched with memory which has
another name. -/
theorem names_fails : ∃ (as ds : List Item), Distinct as ∧ Distinct ds ∧ ∀ srt, Sorts srt →
    ∃ p ∈ (matchMacro srt (some as) ds).1, p.1.name ≠ p.2.name := by
  refine ⟨[⟨2, 20⟩], [⟨1, 10⟩], by simp [Distinct], by simp [Distinct], fun srt hs => ?_⟩
  have h1 : ∀ x, srt [x] = [x] := fun x => List.perm_singleton.1 (hs [x]).1
  refine ⟨(⟨1, 10⟩, ⟨2, 20⟩), ?_, by decide⟩
  unfold matchMacro
  rw [prepare_distinct hs (by simp [Distinct]), h1]
  simp [h1]

/-- Insertion by a name. -/
def ins (e : Item) : List Item → List Item
  | [] => [e]
  | a :: l => if e.name ≤ a.name then e :: a :: l else a :: ins e l

/-- A sorting algorithm. -/
def sort (l : List Item) : List Item := l.foldr ins []

example : matchMacro sort (some [⟨2, 20⟩, ⟨1, 21⟩]) [⟨1, 10⟩, ⟨2, 11⟩] =
    ([(⟨2, 11⟩, ⟨2, 20⟩), (⟨1, 10⟩, ⟨1, 21⟩)], []) := by decide +kernel

theorem sort_sorts : Sorts sort := by
  have hp : ∀ e l, (ins e l).Perm (e :: l) := by
    intro e l
    induction l with
    | nil => exact .refl _
    | cons a l ih =>
      rw [ins]
      by_cases h : e.name ≤ a.name
      · rw [if_pos h]
      · rw [if_neg h]
        exact (ih.cons a).trans (.swap ..)
  have hs : ∀ e (l : List Item), l.Pairwise (fun a b => a.name ≤ b.name) →
      (ins e l).Pairwise fun a b => a.name ≤ b.name := by
    intro e l
    induction l with
    | nil => simp [ins]
    | cons a l ih =>
      intro h
      rw [ins]
      have h' := List.pairwise_cons.1 h
      by_cases hle : e.name ≤ a.name
      · rw [if_pos hle]
        refine List.pairwise_cons.2 ⟨fun b hb => ?_, h⟩
        rcases List.mem_cons.1 hb with rfl | hb
        · exact hle
        · exact hle.trans (h'.1 b hb)
      · rw [if_neg hle]
        refine List.pairwise_cons.2 ⟨fun b hb => ?_, ih h'.2⟩
        rcases List.mem_cons.1 ((hp e l).mem_iff.1 hb) with rfl | hb
        · omega
        · exact h'.1 b hb
  intro l
  unfold sort
  induction l with
  | nil => simp
  | cons a l ih => exact ⟨(hp a _).trans (ih.1.cons a), hs a _ ih.2⟩

/-! ## C184 -/

/-- **C184**: a global variable is matched with its declarations from all translation units with
functions, and with nothing else. -/
theorem globals_exact (decl : ℕ → Option ℕ) (d : ℕ) : ∀ (fs : List (Option ℕ)),
    d ∈ globalDecls decl fs ↔ ∃ u, some u ∈ fs ∧ decl u = some d
  | [] => by simp [globalDecls]
  | none :: fs => by
    rw [globalDecls, globals_exact decl d fs]
    simp
  | some u :: fs => by
    rw [globalDecls]
    cases h : decl u with
    | none =>
      simp only
      rw [globals_exact decl d fs]
      constructor
      · rintro ⟨v, hv, e⟩
        exact ⟨v, by simp [hv], e⟩
      · rintro ⟨v, hv, e⟩
        rcases List.mem_cons.1 hv with hv | hv
        · cases hv
          rw [h] at e
          cases e
        · exact ⟨v, hv, e⟩
    | some d' =>
      simp only [List.mem_cons]
      rw [globals_exact decl d fs]
      constructor
      · rintro (rfl | ⟨v, hv, e⟩)
        · exact ⟨u, by simp, h⟩
        · exact ⟨v, by simp [hv], e⟩
      · rintro ⟨v, hv | hv, e⟩
        · cases hv
          rw [h] at e
          cases e
          exact Or.inl rfl
        · exact Or.inr ⟨v, hv, e⟩

/-- **C184**, partial: if there is one function in each translation unit, and units have different
declarations, then a declaration is mentioned once. Missing: several functions in a unit, see
`repeated_fails`. -/
theorem once_partial (decl : ℕ → Option ℕ)
    (hi : ∀ u v d, decl u = some d → decl v = some d → u = v) : ∀ (fs : List (Option ℕ)),
    (fs.filterMap id).Nodup → (globalDecls decl fs).Nodup
  | [], _ => by simp [globalDecls]
  | none :: fs, h => by
    rw [globalDecls]
    exact once_partial decl hi fs (by simpa using h)
  | some u :: fs, h => by
    rw [List.filterMap_cons_some (f := id) (a := some u) (b := u) rfl, List.nodup_cons] at h
    rw [globalDecls]
    cases e : decl u with
    | none => exact once_partial decl hi fs h.2
    | some d =>
      refine List.nodup_cons.2 ⟨fun hd => ?_, once_partial decl hi fs h.2⟩
      obtain ⟨v, hv, ev⟩ := (globals_exact decl d fs).1 hd
      have := hi u v d e ev
      subst this
      exact h.1 (List.mem_filterMap.2 ⟨some u, hv, rfl⟩)

/-- **C184**, disagreement: the same declaration is added for each function of a translation unit. -/
theorem repeated_fails : ∃ (decl : ℕ → Option ℕ), ∀ n,
    globalDecls decl (List.replicate n (some 0)) = List.replicate n 7 := by
  refine ⟨fun _ => some 7, fun n => ?_⟩
  induction n with
  | zero => rfl
  | succ n ih =>
    rw [List.replicate_succ, List.replicate_succ, globalDecls, ih]

example : globalDecls (fun u => if u = 1 then some 5 else if u = 2 then some 6 else none)
    [some 1, none, some 2, some 3] = [5, 6] := by decide

end Tsar.MemMatch
