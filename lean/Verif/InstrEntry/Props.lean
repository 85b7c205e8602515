import Verif.InstrEntry.Model
import Mathlib.Data.List.Basic
import Mathlib.Data.List.Nodup
import Mathlib.Data.List.Perm.Subperm

/-!
# Properties of an entry point of an instrumented program
-/

namespace Tsar.InstrEntry

/-! ### Specification -/

/-- Functions which may be called from start functions. -/
inductive Reach (cg : Nat → List Call) (starts : List (Option Nat)) : Nat → Prop
  | start {f : Nat} (h : some f ∈ starts) : Reach cg starts f
  | direct {f g : Nat} (h : Reach cg starts f) (hc : .direct g ∈ cg f) : Reach cg starts g
  | cast {f g : Nat} (h : Reach cg starts f) (hc : .cast g ∈ cg f) : Reach cg starts g

/-- Declared types: identifiers and sizes. -/
def declared (evs : List Ev) : List (Nat × Nat) :=
  evs.flatMap fun e => match e with
    | .declTypes ts => ts
    | _ => []

/-- A string which is stored in a pool after all calls. -/
def poolAt (i : Nat) : List Ev → Option DIStr
  | [] => none
  | e :: evs => match poolAt i evs with
    | some s => some s
    | none => match e with
      | .initDI j s _ => if j = i then some s else none
      | _ => none

/-- Local identifiers of types are numbers from zero (`ItemRegister`, C29). -/
def Numbered (m : Mod) : Prop := (m.types.map Prod.fst).Perm (List.range m.types.length)

/-! ### Functions to instrument -/

theorem collect_sound {cg : Nat → List Call} {P : Nat → Prop} (hd : ∀ f g, P f → .direct g ∈ cg f → P g) :
    ∀ (k : Nat) (calls : List Call) (T : List Nat), (∀ f ∈ T, P f) → (∀ g, .direct g ∈ calls → P g) →
      (∀ g, .cast g ∈ calls → P g) → (∀ f g, P f → .cast g ∈ cg f → P g) → ∀ f ∈ collect cg k calls T, P f := by
  intro k
  induction k with
  | zero => intro calls T hT _ _ _ f hf; exact hT f hf
  | succ k ih =>
    intro calls T hT h1 h2 hc
    unfold collect
    induction calls generalizing T with
    | nil => exact hT
    | cons c calls ihc =>
      rw [List.foldl_cons]
      refine ihc _ ?_ (fun g hg => h1 g (List.mem_cons_of_mem _ hg)) (fun g hg => h2 g (List.mem_cons_of_mem _ hg))
      cases c with
      | unknown => exact hT
      | direct g =>
        by_cases hg : g ∈ T
        · simp only [addCall, if_pos hg]; exact hT
        · simp only [addCall, if_neg hg]
          have hPg := h1 g (List.mem_cons_self ..)
          refine ih (cg g) (g :: T) ?_ (fun g' => hd g g' hPg) (fun g' => hc g g' hPg) hc
          intro f hf
          rcases List.mem_cons.1 hf with rfl | hf
          · exact hPg
          · exact hT f hf
      | cast g =>
        by_cases hg : g ∈ T
        · simp only [addCall, if_pos hg]; exact hT
        · simp only [addCall, if_neg hg]
          have hPg := h2 g (List.mem_cons_self ..)
          refine ih [] (g :: T) ?_ (fun g' h => by cases h) (fun g' h => by cases h) hc
          intro f hf
          rcases List.mem_cons.1 hf with rfl | hf
          · exact hPg
          · exact hT f hf

/-- A set of collected functions: without repetitions, only functions of a module. -/
def Ok (n : Nat) (T : List Nat) : Prop := T.Nodup ∧ ∀ f ∈ T, f < n

theorem Ok.length {n : Nat} {T : List Nat} (h : Ok n T) : T.length ≤ n := by
  have := (List.Nodup.subperm h.1 (l₂ := List.range n) (fun f hf => List.mem_range.2 (h.2 f hf))).length_le
  rwa [List.length_range] at this

/-- `R` contains `T` and callees of new functions. -/
def Closed (cg : Nat → List Call) (T R : List Nat) : Prop := T ⊆ R ∧ ∀ v ∈ R, v ∉ T → ∀ g, .direct g ∈ cg v → g ∈ R

theorem Closed.trans {cg : Nat → List Call} {T S R : List Nat} (h1 : Closed cg T S) (h2 : Closed cg S R) : Closed cg T R := by
  refine ⟨fun v hv => h2.1 (h1.1 hv), ?_⟩
  intro v hv hT g hg
  by_cases hS : v ∈ S
  · exact h2.1 (h1.2 v hS hT g hg)
  · exact h2.2 v hv hS g hg

theorem collect_complete {cg : Nat → List Call} {n : Nat} (hn : ∀ f g, .direct g ∈ cg f → g < n) (hc : ∀ f g, .cast g ∉ cg f) :
    ∀ (k : Nat) (calls : List Call) (T : List Nat), Ok n T → n < k + T.length → (∀ g, .direct g ∈ calls → g < n) →
      (∀ g, .cast g ∉ calls) → Ok n (collect cg k calls T) ∧ Closed cg T (collect cg k calls T) ∧
      ∀ g, .direct g ∈ calls → g ∈ collect cg k calls T := by
  intro k
  induction k with
  | zero =>
    intro calls T hT hk
    have := hT.length
    omega
  | succ k ih =>
    intro calls T hT hk h1 h2
    unfold collect
    induction calls generalizing T with
    | nil => exact ⟨hT, ⟨fun v hv => hv, fun v hv hn => absurd hv hn⟩, fun g hg => by cases hg⟩
    | cons c calls ihc =>
      rw [List.foldl_cons]
      have hstep : ∃ S, addCall cg (collect cg k) T c = S ∧ Ok n S ∧ Closed cg T S ∧ ∀ g, c = .direct g → g ∈ S := by
        have href : Closed cg T T := ⟨fun v hv => hv, fun v hv hn => absurd hv hn⟩
        cases c with
        | unknown => exact ⟨T, rfl, hT, href, fun g hg => by cases hg⟩
        | cast g => exact absurd (List.mem_cons_self ..) (h2 g)
        | direct g =>
          by_cases hg : g ∈ T
          · exact ⟨T, if_pos hg, hT, href, fun g' hg' => by cases hg'; exact hg⟩
          · have hok : Ok n (g :: T) := by
              refine ⟨List.nodup_cons.2 ⟨hg, hT.1⟩, ?_⟩
              intro f hf
              rcases List.mem_cons.1 hf with rfl | hf
              · exact h1 f (List.mem_cons_self ..)
              · exact hT.2 f hf
            obtain ⟨h3, h4, h5⟩ := ih (cg g) (g :: T) hok (by rw [List.length_cons]; omega) (hn g) (hc g)
            refine ⟨_, if_neg hg, h3, ⟨fun v hv => h4.1 (List.mem_cons_of_mem _ hv), ?_⟩, ?_⟩
            · intro v hv hvT g' hg'
              by_cases hvg : v = g
              · subst hvg; exact h5 g' hg'
              · exact h4.2 v hv (fun hh => (List.mem_cons.1 hh).elim hvg hvT) g' hg'
            · intro g' hg'
              cases hg'
              exact h4.1 (List.mem_cons_self ..)
      obtain ⟨S, hS, hokS, hclS, hgS⟩ := hstep
      have hlen : T.length ≤ S.length := (List.Nodup.subperm hT.1 hclS.1).length_le
      obtain ⟨h3, h4, h5⟩ := ihc S hokS (by omega) (fun g hg => h1 g (List.mem_cons_of_mem _ hg))
        (fun g hg => h2 g (List.mem_cons_of_mem _ hg))
      rw [hS]
      refine ⟨h3, hclS.trans h4, ?_⟩
      intro g hg
      rcases List.mem_cons.1 hg with hg | hg
      · exact h4.1 (hgS g hg.symm)
      · exact h5 g hg

theorem collectAll_sound {cg : Nat → List Call} {n : Nat} {starts : List (Option Nat)} :
    ∀ f ∈ collectAll cg n starts, Reach cg starts f := by
  unfold collectAll
  have key : ∀ (l : List (Option Nat)) (T : List Nat), l ⊆ starts → (∀ f ∈ T, Reach cg starts f) →
      ∀ f ∈ l.foldl (addStart cg n) T, Reach cg starts f := by
    intro l
    induction l with
    | nil => intro T _ hT; exact hT
    | cons s l ih =>
      intro T hl hT
      rw [List.foldl_cons]
      refine ih _ (fun x hx => hl (List.mem_cons_of_mem _ hx)) ?_
      cases s with
      | none => exact hT
      | some f =>
        have hf : Reach cg starts f := .start (hl (List.mem_cons_self ..))
        refine collect_sound (fun f g => Reach.direct) (n + 1) (cg f) _ ?_ (fun g => Reach.direct hf) (fun g => Reach.cast hf)
          (fun f g => Reach.cast)
        intro v hv
        by_cases h : f ∈ T
        · rw [if_pos h] at hv; exact hT v hv
        · rw [if_neg h] at hv
          rcases List.mem_cons.1 hv with rfl | hv
          · exact hf
          · exact hT v hv
  exact key starts [] (fun x hx => hx) (fun f hf => by cases hf)

theorem collectAll_complete {cg : Nat → List Call} {n : Nat} {starts : List (Option Nat)}
    (hn : ∀ f g, .direct g ∈ cg f → g < n) (hs : ∀ f, some f ∈ starts → f < n) (hc : ∀ f g, .cast g ∉ cg f) :
    ∀ f, Reach cg starts f → f ∈ collectAll cg n starts := by
  unfold collectAll
  have key : ∀ (l : List (Option Nat)) (T : List Nat), (∀ f, some f ∈ l → f < n) → Ok n T →
      (∀ v ∈ T, ∀ g, .direct g ∈ cg v → g ∈ T) →
      ∃ R, l.foldl (addStart cg n) T = R ∧ T ⊆ R ∧
        (∀ v ∈ R, ∀ g, .direct g ∈ cg v → g ∈ R) ∧ ∀ f, some f ∈ l → f ∈ R := by
    intro l
    induction l with
    | nil => intro T _ _ hcl; exact ⟨T, rfl, fun v hv => hv, hcl, fun f hf => by cases hf⟩
    | cons s l ih =>
      intro T hl hT hcl
      rw [List.foldl_cons]
      cases s with
      | none =>
        obtain ⟨R, h1, h2, h3, h4⟩ := ih T (fun f hf => hl f (List.mem_cons_of_mem _ hf)) hT hcl
        refine ⟨R, h1, h2, h3, ?_⟩
        intro f hf
        rcases List.mem_cons.1 hf with hf | hf
        · cases hf
        · exact h4 f hf
      | some f =>
        have hok : Ok n (if f ∈ T then T else f :: T) := by
          by_cases h : f ∈ T
          · rw [if_pos h]; exact hT
          · rw [if_neg h]
            refine ⟨List.nodup_cons.2 ⟨h, hT.1⟩, ?_⟩
            intro v hv
            rcases List.mem_cons.1 hv with rfl | hv
            · exact hl v (List.mem_cons_self ..)
            · exact hT.2 v hv
        have hmem : f ∈ (if f ∈ T then T else f :: T) ∧ T ⊆ (if f ∈ T then T else f :: T) ∧
            ∀ v ∈ (if f ∈ T then T else f :: T), v = f ∨ v ∈ T := by
          by_cases h : f ∈ T
          · rw [if_pos h]; exact ⟨h, fun v hv => hv, fun v hv => Or.inr hv⟩
          · rw [if_neg h]; exact ⟨List.mem_cons_self .., fun v hv => List.mem_cons_of_mem _ hv, fun v hv => List.mem_cons.1 hv⟩
        obtain ⟨h1, h2, h3⟩ := collect_complete hn hc (n + 1) (cg f) _ hok (by omega) (hn f) (hc f)
        obtain ⟨R, h4, h5, h6, h7⟩ := ih _ (fun f hf => hl f (List.mem_cons_of_mem _ hf)) h1 (by
          intro v hv g hg
          by_cases hvT : v ∈ (if f ∈ T then T else f :: T)
          · rcases hmem.2.2 v hvT with rfl | hvT
            · exact h3 g hg
            · exact h2.1 (hmem.2.1 (hcl v hvT g hg))
          · exact h2.2 v hv hvT g hg)
        refine ⟨R, h4, fun v hv => h5 (h2.1 (hmem.2.1 hv)), h6, ?_⟩
        intro g hg
        rcases List.mem_cons.1 hg with hg | hg
        · cases hg; exact h5 (h2.1 hmem.1)
        · exact h7 g hg
  obtain ⟨R, h1, _, h3, h4⟩ := key starts [] hs ⟨List.nodup_nil, fun f hf => by cases hf⟩ (fun v hv => by cases hv)
  intro f hf
  rw [h1]
  induction hf with
  | start h => exact h4 _ h
  | direct _ hg ih => exact h3 _ ih _ hg
  | cast _ hg _ => exact absurd hg (hc _ _)

/-- **C167.** If start functions are specified then functions which cannot be called from them are not instrumented. Functions which
may be called are instrumented. The missing part: calls of functions which are casted to another type, see `cast_callee_fails`. -/
theorem exclude_partial {cg : Nat → List Call} {n : Nat} {starts : List (Option Nat)} (h0 : starts ≠ []) :
    (∀ f, f < n → ¬Reach cg starts f → f ∈ exclude cg n starts) ∧
    ((∀ f g, .direct g ∈ cg f → g < n) → (∀ f, some f ∈ starts → f < n) → (∀ f g, .cast g ∉ cg f) →
      ∀ f, f ∈ exclude cg n starts ↔ f < n ∧ ¬Reach cg starts f) := by
  unfold exclude
  rw [if_neg h0]
  refine ⟨?_, ?_⟩
  · intro f hf hr
    rw [List.mem_filter]
    exact ⟨List.mem_range.2 hf, by simpa using fun hh => hr (collectAll_sound f hh)⟩
  · intro hn hs hc f
    rw [List.mem_filter, List.mem_range]
    simp only [decide_eq_true_eq]
    exact ⟨fun h => ⟨h.1, fun hr => h.2 (collectAll_complete hn hs hc f hr)⟩, fun h => ⟨h.1, fun hh => h.2 (collectAll_sound f hh)⟩⟩

/-- All functions are instrumented by default. -/
theorem exclude_nothing (cg : Nat → List Call) (n : Nat) : exclude cg n [] = [] := rfl

/-- **C167.** Disagreement: `main` calls `f` with another prototype, `f` calls `g`. The function `g` is not instrumented. -/
theorem cast_callee_fails : ∃ (cg : Nat → List Call) (n : Nat) (starts : List (Option Nat)) (g : Nat),
    starts ≠ [] ∧ Reach cg starts g ∧ g ∈ exclude cg n starts := by
  refine ⟨fun f => if f = 0 then [.cast 1] else if f = 1 then [.direct 2] else [], 3, [some 0], 2, by simp, ?_, by decide⟩
  exact .direct (f := 1) (.cast (f := 0) (.start (by simp)) (by simp)) (by simp)

/-- Recursive functions, an unknown name and an unknown callee. -/
example : exclude (fun f => [[.direct 1, .unknown], [.direct 2, .direct 0], [.direct 2], [.direct 0], []].getD f []) 5
    [none, some 1] = [3, 4] := by decide

/-! ### Types -/

theorem relocLoop_get (start size : Nat) : ∀ (k c : Nat) (ids : List Nat), size - c = k → ∀ i,
    (relocLoop start size c ids)[i]? = ids[i]?.map fun a => if c ≤ i ∧ (i < size ∨ i = c) then a + start else a := by
  intro k
  induction k with
  | zero =>
    intro c ids hk i
    rw [relocLoop]
    simp only [if_neg (show ¬c + 1 < size by omega)]
    rw [List.getElem?_modify]
    cases ids[i]? with
    | none => rfl
    | some a =>
      show some _ = some _
      congr 1
      beta_reduce
      by_cases h : c = i
      · rw [if_pos h, if_pos ⟨by omega, Or.inr h.symm⟩]
      · rw [if_neg h, if_neg (by omega)]
  | succ k ih =>
    intro c ids hk i
    rw [relocLoop]
    by_cases h1 : c + 1 < size
    · simp only [if_pos h1]
      rw [ih (c + 1) _ (by omega) i, List.getElem?_modify]
      cases ids[i]? with
      | none => rfl
      | some a =>
        show some _ = some _
        congr 1
        beta_reduce
        by_cases h : c = i
        · rw [if_pos h, if_neg (by omega), if_pos ⟨by omega, Or.inr h.symm⟩]
        · rw [if_neg h]
          by_cases h2 : c + 1 ≤ i ∧ (i < size ∨ i = c + 1)
          · rw [if_pos h2, if_pos ⟨by omega, by omega⟩]
          · rw [if_neg h2, if_neg (by omega)]
    · simp only [if_neg h1]
      rw [List.getElem?_modify]
      cases ids[i]? with
      | none => rfl
      | some a =>
        show some _ = some _
        congr 1
        beta_reduce
        by_cases h : c = i
        · rw [if_pos h, if_pos ⟨by omega, Or.inr h.symm⟩]
        · rw [if_neg h, if_neg (by omega)]

theorem relocLoop_map (start : Nat) (ids : List Nat) : relocLoop start ids.length 0 ids = ids.map (· + start) := by
  apply List.ext_getElem?
  intro i
  rw [relocLoop_get start ids.length _ 0 ids rfl i, List.getElem?_map]
  by_cases h : i < ids.length
  · rw [List.getElem?_eq_getElem h]
    show some _ = some _
    congr 1
    beta_reduce
    rw [if_pos ⟨by omega, Or.inl h⟩]
  · rw [List.getElem?_eq_none (by omega)]
    rfl

theorem zip_fst_snd (start : Nat) : ∀ l : List (Nat × Nat),
    ((l.map Prod.fst).map (· + start)).zip (l.map Prod.snd) = l.map fun p => (p.1 + start, p.2)
  | [] => rfl
  | p :: l => by
    simp only [List.map_cons, List.zip_cons_cons]
    rw [zip_fst_snd start l]

theorem regTypes_eq (m : Mod) (start : Nat) : regTypes m start = [.declTypes (m.types.map fun p => (p.1 + start, p.2))] := by
  unfold regTypes
  have : m.types.length = (m.types.map Prod.fst).length := by rw [List.length_map]
  rw [this, relocLoop_map, zip_fst_snd]

theorem declared_append (a b : List Ev) : declared (a ++ b) = declared a ++ declared b := by
  unfold declared
  rw [List.flatMap_append]

theorem declared_strings (l : List (Nat × DIStr)) (start : Nat) :
    declared (l.map fun s => .initDI s.1 s.2 start) = [] := by
  unfold declared
  rw [List.flatMap_map, List.flatMap_eq_nil_iff]
  intro s _
  rfl

theorem declared_init (m : Mod) (start : Nat) : declared (initModule m start).1 = m.types.map fun p => (p.1 + start, p.2) := by
  unfold initModule
  simp only []
  rw [declared_append, declared_strings, regTypes_eq]
  unfold declared
  simp

theorem initAll_ids : ∀ (ms : List Mod) (start : Nat), (∀ m ∈ ms, Numbered m) →
    ((declared (initAll ms start)).map Prod.fst).Perm (List.range' start (ms.map fun m => m.types.length).sum)
  | [], _, _ => List.Perm.refl _
  | m :: ms, start, h => by
    unfold initAll
    rw [declared_append, declared_init, List.map_append, List.map_cons, List.sum_cons, ← List.range'_append_1]
    refine List.Perm.append ?_ (initAll_ids ms _ fun m' hm' => h m' (List.mem_cons_of_mem _ hm'))
    have := (h m (List.mem_cons_self ..)).map (· + start)
    rw [List.map_map] at this ⊢
    refine (List.Perm.of_eq ?_).trans (this.trans (List.Perm.of_eq ?_))
    · rfl
    · rw [List.range'_eq_map_range]
      apply List.map_congr_left
      intro x _
      omega

theorem initAll_module : ∀ (ms : List Mod) (start : Nat) (m : Mod), m ∈ ms → ∃ off,
    (∀ s ∈ m.strings, .initDI s.1 s.2 off ∈ initAll ms start) ∧ ∀ p ∈ m.types, (p.1 + off, p.2) ∈ declared (initAll ms start)
  | m0 :: ms, start, m, h => by
    unfold initAll
    rcases List.mem_cons.1 h with rfl | h
    · refine ⟨start, ?_, ?_⟩
      · intro s hs
        refine List.mem_append_left _ (List.mem_append_left _ (List.mem_map.2 ⟨s, hs, rfl⟩))
      · intro p hp
        rw [declared_append, declared_init]
        exact List.mem_append_left _ (List.mem_map.2 ⟨p, hp, rfl⟩)
    · obtain ⟨off, h1, h2⟩ := initAll_module ms _ m h
      refine ⟨off, fun s hs => List.mem_append_right _ (h1 s hs), ?_⟩
      intro p hp
      rw [declared_append]
      exact List.mem_append_right _ (h2 p hp)

theorem initAll_event : ∀ (ms : List Mod) (start : Nat) (i : Nat) (s : DIStr) (off : Nat), .initDI i s off ∈ initAll ms start →
    ∃ m ∈ ms, (i, s) ∈ m.strings ∧ ∀ p ∈ m.types, (p.1 + off, p.2) ∈ declared (initAll ms start)
  | [], _, _, _, _, h => by cases h
  | m :: ms, start, i, s, off, h => by
    unfold initAll at h ⊢
    rcases List.mem_append.1 h with h | h
    · rcases List.mem_append.1 h with h | h
      · obtain ⟨x, hx, he⟩ := List.mem_map.1 h
        cases he
        refine ⟨m, List.mem_cons_self .., hx, ?_⟩
        intro p hp
        rw [declared_append, declared_init]
        exact List.mem_append_left _ (List.mem_map.2 ⟨p, hp, rfl⟩)
      · rw [regTypes_eq] at h
        cases List.mem_singleton.1 h
    · obtain ⟨m', h1, h2, h3⟩ := initAll_event ms _ i s off h
      refine ⟨m', List.mem_cons_of_mem _ h1, h2, ?_⟩
      intro p hp
      rw [declared_append]
      exact List.mem_append_right _ (h3 p hp)

/-- **C168.** Identifiers of types from all modules are different and they are numbers from zero to the number of types. Each
metadata string of each module is registered, a local identifier of a type with an offset from a call of the library is the
identifier of this type, in particular its size is correct. -/
theorem type_ids_exact {mods : List Mod} {evs : List Ev} (h : visitEntryPoint mods = some evs)
    (hN : ∀ m ∈ mods, m.da → Numbered m) :
    ((declared evs).map Prod.fst).Perm (List.range ((mods.filter Mod.da).map fun m => m.types.length).sum) ∧
    (∀ m ∈ mods, m.da → ∃ off, (∀ s ∈ m.strings, .initDI s.1 s.2 off ∈ evs) ∧ ∀ p ∈ m.types, (p.1 + off, p.2) ∈ declared evs) ∧
    (∀ i s off, .initDI i s off ∈ evs → ∃ m ∈ mods, m.da ∧ (i, s) ∈ m.strings ∧ ∀ p ∈ m.types, (p.1 + off, p.2) ∈ declared evs) := by
  unfold visitEntryPoint at h
  simp only [] at h
  by_cases hall : ((mods.filter Mod.da).all fun m => decide (m.types ≠ [])) = true
  · rw [if_pos hall] at h
    have he := Option.some.inj h
    have hd : declared evs = declared (initAll (mods.filter Mod.da) 0) := by rw [← he]; rfl
    rw [hd]
    refine ⟨?_, ?_, ?_⟩
    · rw [List.range_eq_range']
      exact initAll_ids _ 0 fun m hm => hN m (List.mem_filter.1 hm).1 (List.mem_filter.1 hm).2
    · intro m hm hda
      obtain ⟨off, h1, h2⟩ := initAll_module (mods.filter Mod.da) 0 m (List.mem_filter.2 ⟨hm, hda⟩)
      refine ⟨off, ?_, h2⟩
      intro s hs
      rw [← he]
      exact List.mem_cons_of_mem _ (h1 s hs)
    · intro i s off hi
      rw [← he] at hi
      rcases List.mem_cons.1 hi with hi | hi
      · cases hi
      · obtain ⟨m, h1, h2, h3⟩ := initAll_event _ _ i s off hi
        exact ⟨m, (List.mem_filter.1 h1).1, (List.mem_filter.1 h1).2, h2, h3⟩
  · rw [if_neg hall] at h
    cases h

/-- Two modules, types are stored in arbitrary order. -/
def mA : Mod := { da := true, types := [(1, 32), (0, 64)], strings := [(5, ⟨10, none⟩), (7, ⟨11, some 1⟩)], pool := 8 }

def mB : Mod := { da := true, types := [(0, 8)], strings := [(5, ⟨20, none⟩), (7, ⟨21, some 0⟩)], pool := 8 }

def mC : Mod := { da := false, types := [], strings := [], pool := 0 }

theorem mA_init : initModule mA 0 = ([.initDI 5 ⟨10, none⟩ 0, .initDI 7 ⟨11, some 1⟩ 0, .declTypes [(1, 32), (0, 64)]], 2) := by
  unfold initModule
  rw [regTypes_eq]
  rfl

theorem mB_init : initModule mB 2 = ([.initDI 5 ⟨20, none⟩ 2, .initDI 7 ⟨21, some 0⟩ 2, .declTypes [(2, 8)]], 3) := by
  unfold initModule
  rw [regTypes_eq]
  rfl

theorem entryAB : visitEntryPoint [mA, mC, mB] = some [.allocatePool 16, .initDI 5 ⟨10, none⟩ 0, .initDI 7 ⟨11, some 1⟩ 0,
    .declTypes [(1, 32), (0, 64)], .initDI 5 ⟨20, none⟩ 2, .initDI 7 ⟨21, some 0⟩ 2, .declTypes [(2, 8)]] := by
  have : visitEntryPoint [mA, mC, mB] = some (.allocatePool 16 :: initAll [mA, mB] 0) := rfl
  rw [this]
  unfold initAll
  rw [mA_init]
  unfold initAll
  rw [mB_init]
  rfl

theorem numberedAB : ∀ m ∈ [mA, mC, mB], m.da → Numbered m := by
  unfold Numbered
  decide

/-- Hypotheses are satisfied. -/
example : declared [.allocatePool 16, .initDI 5 ⟨10, none⟩ 0, .initDI 7 ⟨11, some 1⟩ 0,
    .declTypes [(1, 32), (0, 64)], .initDI 5 ⟨20, none⟩ 2, .initDI 7 ⟨21, some 0⟩ 2, .declTypes [(2, 8)]] =
      [(1, 32), (0, 64), (2, 8)] ∧
    [1, 0, 2].Perm (List.range 3) := ⟨by decide, (type_ids_exact entryAB numberedAB).1⟩

/-- **C168.** Disagreement: a module without types (for example, without functions and variables) cannot be initialized. -/
theorem no_types_fails : ∃ mods : List Mod, (∀ m ∈ mods, m.da → Numbered m) ∧ visitEntryPoint mods = none :=
  ⟨[mA, { da := true, types := [], strings := [(5, ⟨30, none⟩)], pool := 7 }], by unfold Numbered; decide, rfl⟩

/-! ### A pool of strings -/

theorem poolAt_append (i : Nat) : ∀ a b : List Ev, poolAt i (a ++ b) = (poolAt i b).or (poolAt i a)
  | [], b => by simp [poolAt]
  | e :: a, b => by
    rw [List.cons_append]
    simp only [poolAt]
    rw [poolAt_append i a b]
    cases poolAt i b with
    | some s => rfl
    | none => rfl

theorem poolAt_none {i : Nat} : ∀ {evs : List Ev}, (∀ s off, .initDI i s off ∉ evs) → poolAt i evs = none
  | [], _ => rfl
  | e :: evs, h => by
    unfold poolAt
    rw [poolAt_none fun s off hh => h s off (List.mem_cons_of_mem _ hh)]
    cases e with
    | allocatePool n => rfl
    | declTypes t => rfl
    | initDI j s off =>
      by_cases hj : j = i
      · subst hj
        exact absurd (List.mem_cons_self ..) (h s off)
      · simp only [if_neg hj]

theorem poolAt_strings {i : Nat} {x : DIStr} (off : Nat) : ∀ {l : List (Nat × DIStr)}, (l.map Prod.fst).Nodup → (i, x) ∈ l →
    poolAt i (l.map fun s => .initDI s.1 s.2 off) = some x
  | s :: l, hnd, h => by
    rw [List.map_cons, List.nodup_cons] at hnd
    rw [List.map_cons]
    unfold poolAt
    rcases List.mem_cons.1 h with h | h
    · have hn : poolAt i (l.map fun s => Ev.initDI s.1 s.2 off) = none := by
        apply poolAt_none
        intro y o hy
        obtain ⟨z, hz, he⟩ := List.mem_map.1 hy
        have : z.1 = i := by injection he
        rw [← h] at hnd
        exact hnd.1 (List.mem_map.2 ⟨z, hz, this⟩)
      rw [hn, ← h]
      simp
    · rw [poolAt_strings off hnd.2 h]

theorem poolAt_initAll : ∀ (ms : List Mod) (start : Nat) {i : Nat} {x : DIStr} {m : Mod},
    ((ms.flatMap Mod.strings).map Prod.fst).Nodup → m ∈ ms → (i, x) ∈ m.strings → poolAt i (initAll ms start) = some x
  | m0 :: ms, start, i, x, m, hnd, hm, hx => by
    rw [List.flatMap_cons, List.map_append, List.nodup_append] at hnd
    unfold initAll
    rw [poolAt_append]
    rcases List.mem_cons.1 hm with rfl | hm
    · have h1 : poolAt i (initAll ms (initModule m start).2) = none := by
        apply poolAt_none
        intro y o hy
        obtain ⟨m', h1, h2, _⟩ := initAll_event _ _ _ _ _ hy
        exact hnd.2.2 i (List.mem_map.2 ⟨(i, x), hx, rfl⟩) i
          (List.mem_map.2 ⟨(i, y), List.mem_flatMap.2 ⟨m', h1, h2⟩, rfl⟩) rfl
      rw [h1, Option.none_or]
      unfold initModule
      simp only []
      rw [poolAt_append, regTypes_eq]
      exact poolAt_strings start hnd.1 hx
    · rw [poolAt_initAll ms _ hnd.2.1 hm hx]
      rfl

/-- **C169.** A string is stored in a pool at the index which is used by an instrumented module. The missing part: modules must use
different indices, so it is proved for a single module which registers each index once, see `shared_pool_fails`. -/
theorem pool_partial {mods : List Mod} {evs : List Ev} (h : visitEntryPoint mods = some evs)
    (hnd : (((mods.filter Mod.da).flatMap Mod.strings).map Prod.fst).Nodup) :
    (∀ m ∈ mods, m.da → ∀ i x, (i, x) ∈ m.strings → poolAt i evs = some x) ∧
    ((∀ m ∈ mods, ∀ s ∈ m.strings, s.1 < m.pool) →
      ∃ size, evs.head? = some (.allocatePool size) ∧ ∀ i s off, .initDI i s off ∈ evs → i < size) := by
  unfold visitEntryPoint at h
  simp only [] at h
  by_cases hall : ((mods.filter Mod.da).all fun m => decide (m.types ≠ [])) = true
  · rw [if_pos hall] at h
    have he := Option.some.inj h
    refine ⟨?_, ?_⟩
    · intro m hm hda i x hx
      rw [← he]
      unfold poolAt
      rw [poolAt_initAll _ 0 hnd (List.mem_filter.2 ⟨hm, hda⟩) hx]
    · intro hp
      refine ⟨((mods.filter Mod.da).map Mod.pool).sum, by rw [← he]; rfl, ?_⟩
      intro i s off hi
      rw [← he] at hi
      rcases List.mem_cons.1 hi with hi | hi
      · cases hi
      · obtain ⟨m, h1, h2, _⟩ := initAll_event _ _ i s off hi
        have h3 := hp m (List.mem_filter.1 h1).1 _ h2
        have h4 : m.pool ≤ ((mods.filter Mod.da).map Mod.pool).sum := by
          have hmem : m.pool ∈ (mods.filter Mod.da).map Mod.pool := List.mem_map.2 ⟨m, h1, rfl⟩
          generalize (mods.filter Mod.da).map Mod.pool = l at hmem
          clear * - hmem
          induction l with
          | nil => cases hmem
          | cons a l ih =>
            rw [List.sum_cons]
            rcases List.mem_cons.1 hmem with hh | hh
            · omega
            · have := ih hh
              omega
        exact Nat.lt_of_lt_of_le h3 h4
  · rw [if_neg hall] at h
    cases h

/-- **C169.** Disagreement: a pool is shared between modules but indices are not shifted, so strings of a module are replaced with
strings of another module although the pool is large enough. -/
theorem shared_pool_fails : ∃ (mods : List Mod) (evs : List Ev) (m : Mod) (i : Nat) (x : DIStr),
    visitEntryPoint mods = some evs ∧ (∀ m ∈ mods, m.da → Numbered m) ∧ (∀ m ∈ mods, (m.strings.map Prod.fst).Nodup) ∧
    m ∈ mods ∧ m.da ∧ (i, x) ∈ m.strings ∧ poolAt i evs ≠ some x :=
  ⟨_, _, mA, 7, ⟨11, some 1⟩, entryAB, numberedAB, by decide, by decide, rfl, by decide, by decide⟩

theorem entryA : visitEntryPoint [mA] = some [.allocatePool 8, .initDI 5 ⟨10, none⟩ 0, .initDI 7 ⟨11, some 1⟩ 0,
    .declTypes [(1, 32), (0, 64)]] := by
  have : visitEntryPoint [mA] = some (.allocatePool 8 :: initAll [mA] 0) := rfl
  rw [this]
  unfold initAll
  rw [mA_init]
  rfl

/-- Hypotheses are satisfied. -/
example : poolAt 7 [.allocatePool 8, .initDI 5 ⟨10, none⟩ 0, .initDI 7 ⟨11, some 1⟩ 0, .declTypes [(1, 32), (0, 64)]] =
    some ⟨11, some 1⟩ :=
  (pool_partial entryA (by decide)).1 mA (by decide) rfl 7 ⟨11, some 1⟩ (by decide)

/-! ### Names of initialization functions -/

theorem freeSuffix_free {names : List Nat} {s : Nat} (h : s ∉ names) : freeSuffix names s = some s := by
  rw [freeSuffix, if_neg h]

theorem freeSuffix_used {names : List Nat} {s : Nat} (h : s ∈ names) (h2 : s + 1 < 4294967295) :
    freeSuffix names s = freeSuffix names (s + 1) := by
  rw [freeSuffix, if_pos h, if_neg (by unfold uMax; omega)]

theorem freeSuffix_spec (names : List Nat) : ∀ (k s : Nat), uMax - s = k → ∀ s', freeSuffix names s = some s' →
    s ≤ s' ∧ s' ∉ names := by
  intro k
  induction k using Nat.strongRecOn with
  | ind k ih =>
    intro s hk s' h
    rw [freeSuffix] at h
    by_cases h1 : s ∈ names
    · rw [if_pos h1] at h
      by_cases h2 : uMax ≤ s + 1
      · rw [if_pos h2] at h; cases h
      · rw [if_neg h2] at h
        obtain ⟨h3, h4⟩ := ih (uMax - (s + 1)) (by omega) (s + 1) rfl s' h
        exact ⟨by omega, h4⟩
    · rw [if_neg h1] at h
      cases h
      exact ⟨Nat.le_refl _, h1⟩

theorem freeOthers_spec (i : Nat) : ∀ (l : List (List Nat × Nat)) (s s' : Nat), freeOthers i l s = some s' →
    s ≤ s' ∧ ∀ p ∈ l, p.2 ≠ i → s ∈ p.1 → s < s'
  | [], s, s', h => by
    cases h
    exact ⟨Nat.le_refl _, fun p hp => by cases hp⟩
  | (names, j) :: l, s, s', h => by
    unfold freeOthers at h
    by_cases hj : j = i
    · rw [if_pos hj] at h
      obtain ⟨h1, h2⟩ := freeOthers_spec i l s s' h
      refine ⟨h1, ?_⟩
      intro p hp hpi
      rcases List.mem_cons.1 hp with rfl | hp
      · exact absurd hj hpi
      · exact h2 p hp hpi
    · rw [if_neg hj] at h
      cases hs : freeSuffix names s with
      | none => rw [hs] at h; cases h
      | some s1 =>
        rw [hs] at h
        obtain ⟨h1, h2⟩ := freeSuffix_spec names _ s rfl s1 hs
        obtain ⟨h3, h4⟩ := freeOthers_spec i l s1 s' h
        refine ⟨by omega, ?_⟩
        intro p hp hpi hsp
        rcases List.mem_cons.1 hp with rfl | hp
        · have : s1 ≠ s := fun e => h2 (e ▸ hsp)
          omega
        · by_cases he : s1 = s
          · subst he
            exact h4 p hp hpi hsp
          · omega

theorem freeAll_spec {i : Nat} {mods : List (List Nat)} {s s' : Nat} (h : freeAll i mods s = some s') :
    s ≤ s' ∧ ∀ names ∈ mods, s ∈ names → s < s' := by
  unfold freeAll at h
  cases hs : freeSuffix (mods.getD i []) s with
  | none => rw [hs] at h; cases h
  | some s1 =>
    rw [hs] at h
    obtain ⟨h1, h2⟩ := freeSuffix_spec _ _ s rfl s1 hs
    obtain ⟨h3, h4⟩ := freeOthers_spec i _ s1 s' h
    refine ⟨by omega, ?_⟩
    intro names hn hsn
    obtain ⟨j, hj, hget⟩ := List.mem_iff_getElem.1 hn
    by_cases hji : j = i
    · subst hji
      have hd : mods.getD j [] = names := by
        rw [List.getD_eq_getElem?_getD, List.getElem?_eq_getElem hj, hget]; rfl
      rw [hd] at h2
      have : s1 ≠ s := fun e => h2 (e ▸ hsn)
      omega
    · by_cases he : s1 = s
      · subst he
        exact h4 (names, j) (List.mem_zipIdx_iff_getElem?.2 (by rw [List.getElem?_eq_getElem hj, hget])) hji hsn
      · omega

theorem assign_increasing : ∀ (is : List Nat) (s : Nat) (mods : List (List Nat)) (r : List Nat), assign is s mods = some r →
    (∀ i ∈ is, i < mods.length) → r.Pairwise (· < ·) ∧ r.length = is.length ∧ (∀ t ∈ r, s ≤ t) ∧
      ((∃ names ∈ mods, s ∈ names) → ∀ t ∈ r, s < t)
  | [], _, _, r, h, _ => by
    cases h
    exact ⟨List.Pairwise.nil, rfl, (fun t ht => by cases ht), fun _ t ht => by cases ht⟩
  | i :: is, s, mods, r, h, hi => by
    unfold assign at h
    cases hf : freeAll i mods s with
    | none => rw [hf] at h; cases h
    | some s' =>
      rw [hf] at h
      simp only [Option.bind_some] at h
      cases ha : assign is s' (mods.modify i (s' :: ·)) with
      | none => rw [ha] at h; cases h
      | some r' =>
        rw [ha] at h
        cases h
        obtain ⟨h1, h2, h3, h4⟩ := assign_increasing is s' _ r' ha
          (fun j hj => by rw [List.length_modify]; exact hi j (List.mem_cons_of_mem _ hj))
        obtain ⟨h5, h6⟩ := freeAll_spec hf
        have hil := hi i (List.mem_cons_self ..)
        have hnew : ∃ names ∈ mods.modify i (s' :: ·), s' ∈ names := by
          refine ⟨s' :: mods[i], ?_, List.mem_cons_self ..⟩
          refine List.mem_iff_getElem?.2 ⟨i, ?_⟩
          rw [List.getElem?_modify, List.getElem?_eq_getElem hil]
          simp
        refine ⟨List.pairwise_cons.2 ⟨h4 hnew, h1⟩, by rw [List.length_cons, List.length_cons, h2], ?_, ?_⟩
        · intro t ht
          rcases List.mem_cons.1 ht with rfl | ht
          · exact h5
          · have := h3 t ht
            omega
        · rintro ⟨names, hn, hsn⟩ t ht
          have := h6 names hn hsn
          rcases List.mem_cons.1 ht with rfl | ht
          · exact this
          · have := h3 t ht
            omega

/-- **C170.** Names of initialization functions of different modules are different. They do not conflict with other names if a single
module is instrumented or if there are no functions with such names before. The missing part is `name_conflict_fails`. -/
theorem names_partial {is : List Nat} {mods : List (List Nat)} {r : List Nat} (h : assign is 0 mods = some r)
    (hi : ∀ i ∈ is, i < mods.length) :
    r.length = is.length ∧ r.Pairwise (· ≠ ·) ∧
    ((∀ names ∈ mods, names = []) ∨ (is.length = 1 ∧ mods.length = 1) → ∀ s ∈ r, ∀ names ∈ mods, s ∉ names) := by
  obtain ⟨h1, h2, _, _⟩ := assign_increasing is 0 mods r h hi
  refine ⟨h2, h1.imp fun h => by omega, ?_⟩
  rintro (h0 | ⟨h0, h3⟩) s hs names hn
  · rw [h0 names hn]
    simp
  · match is, mods, h0, h3, h, hi, hn with
    | [i], [names'], _, _, h, hi, hn =>
      have hi0 : i = 0 := by have := hi i (List.mem_cons_self ..); simp at this; exact this
      subst hi0
      rw [List.mem_singleton.1 hn]
      unfold assign freeAll at h
      cases hf : freeSuffix names' 0 with
      | none => simp [hf] at h
      | some s1 =>
        have : r = [s1] := by
          simp [hf, freeOthers, assign] at h
          exact h.symm
        rw [this] at hs
        rw [List.mem_singleton.1 hs]
        exact (freeSuffix_spec _ _ 0 rfl s1 hf).2

/-- **C170.** Disagreement: a suffix which is increased for a module is not checked again for previous modules. The second module
already has a name with the suffix 1 (for example, it was instrumented as an entry point of another program). -/
theorem name_conflict_fails : ∃ (is : List Nat) (mods : List (List Nat)) (r : List Nat) (i s : Nat),
    assign is 0 mods = some r ∧ is = List.range mods.length ∧ r[i]? = some s ∧ s ∈ mods.getD i [] := by
  refine ⟨[0, 1], [[], [1]], [0, 1], 1, 1, ?_, rfl, rfl, by decide⟩
  simp [assign, freeAll, freeOthers, freeSuffix_free, freeSuffix_used]

/-- Hypotheses are satisfied. -/
example : assign [0, 1, 2] 0 [[], [], []] = some [0, 1, 2] ∧ assign [0] 0 [[0, 1, 3]] = some [2] := by
  constructor <;> simp [assign, freeAll, freeOthers, freeSuffix_free, freeSuffix_used]

end Tsar.InstrEntry
