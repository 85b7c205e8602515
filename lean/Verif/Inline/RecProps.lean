import Verif.Inline.Recursion
import Mathlib.Data.Set.Insert
/-!
# Properties of the search for recursive functions
-/
namespace Tsar.Inline

/-- **C106** (partial). If the search for recursive functions ends with a set `R` then
* each function which calls itself is in `R`;
* if a function leads to recursion then `R` contains the function or one of functions it leads to;
* if nothing has been found then there is no recursion and expansion of calls is finite: it does not
  depend on the depth any more if the depth is at least the number of functions.
All functions of a cycle may be missed if `R` is not empty, see `recursion_missed_fails`. -/
theorem recursion_partial (P : Prog) (en : Name → Bool) (fs : List Name)
    (hfs : ∀ f, (P f).isSome = true → f ∈ fs) {R : Set Name} (h : Scan (graph P en) fs ∅ R) :
    (∀ f, (graph P en).Edge f f → f ∈ R) ∧
    (∀ f g, (graph P en).Cycle g → (∃ n, (graph P en).Walk n f g) → ∃ c ∈ R, ∃ n, (graph P en).Walk n f c) ∧
    (R = ∅ → (∀ f, ¬ (graph P en).Cycle f) ∧
      ∀ fr d order ids, fs.length ≤ d → expand P en fr d order ids = expand P en fr fs.length order ids) := by
  have src : ∀ f g, (graph P en).Edge f g → f ∈ fs := by
    intro f g e
    apply hfs
    unfold Graph.Edge graph at e
    split at e
    · cases e
    · rename_i h; rw [h]; rfl
  have tgt : ∀ f g, (graph P en).Edge f g → g ∈ fs := by
    intro f g e
    apply hfs
    unfold Graph.Edge graph at e
    split at e
    · cases e
    · obtain ⟨x, -, e⟩ := List.mem_map.1 e
      split at e
      · rename_i hx; cases e; exact (Bool.and_eq_true_iff.1 hx).2
      · cases e
  have two : ∀ f g, (graph P en).Cycle g → (∃ n, (graph P en).Walk n f g) →
      ∃ c ∈ R, ∃ n, (graph P en).Walk n f c := by
    intro f g hg ⟨n, hw⟩
    have start : ∃ x, (graph P en).Edge f x ∧ ∃ n, (graph P en).Walk n x g := by
      cases hw with
      | nil => obtain ⟨m, hm⟩ := hg; cases hm with | cons e w => exact ⟨_, e, _, w⟩
      | cons e w => exact ⟨_, e, _, w⟩
    obtain ⟨x, e, w⟩ := start
    rcases h.each f (src _ _ e) with hf | hf | ⟨c, hc, hf⟩
    · exact ⟨f, hf, 0, .nil⟩
    · exact absurd rfl (hf.endless ⟨x, e, g, hg, w⟩)
    · refine ⟨c, hc, hf.reach (P := fun c => ∃ n, (graph P en).Walk n f c) ?_ ?_ c rfl⟩
      · exact fun y hy => ⟨1, .cons hy .nil⟩
      · rintro y z ⟨n, w⟩ e
        exact ⟨n + 1, w.trans (.cons e .nil)⟩
  refine ⟨?_, two, ?_⟩
  · intro f e
    rcases h.each f (src _ _ e) with hf | hf | ⟨c, hc, hf⟩
    · exact hf
    · cases hf.direct e
    · cases hf.direct e; exact hc
  · rintro rfl
    have hc : ∀ f, ¬ (graph P en).Cycle f := fun f hf => by
      obtain ⟨c, hc, _⟩ := two f f hf ⟨0, .nil⟩
      exact hc
    refine ⟨hc, ?_⟩
    intro fr d order ids hd
    obtain ⟨j, rfl⟩ := Nat.exists_eq_add_of_le hd
    refine expand_depth (fun f st ids => (inline_depth fs.length f ?_ j st ids).symm) order ids
    intro ho g hw
    exact absurd (hw.bound hc (hfs f (Bool.and_eq_true_iff.1 ho).2) tgt) (Nat.lt_irrefl _)

/-- **C106** (partial). The search terminates if for each function with calls to expand the last call
should be expanded. It is essential, see `recursion_endless_fails`. -/
theorem recursion_ends_partial (P : Prog) (en : Name → Bool) (fs : List Name)
    (hfs : ∀ f, (P f).isSome = true → f ∈ fs)
    (hlast : ∀ f F, P f = some F → ∀ g ∈ siteSs F.body, (en g && (P g).isSome) = true →
      ∃ l, (siteSs F.body).getLast? = some l ∧ (en l && (P l).isSome) = true) :
    ∃ R, Scan (graph P en) fs ∅ R := by
  refine Scan.total ?_ fs ?_ fs ∅
  · intro f g e
    unfold Graph.Edge graph at e
    split at e
    · cases e
    · rename_i F hF
      obtain ⟨x, hx, e⟩ := List.mem_map.1 e
      split at e
      · rename_i hx'
        obtain ⟨l, h₁, h₂⟩ := hlast f F hF x hx hx'
        simp only [needToAdd, graph, hF, List.getLast?_map, h₁, Option.map_some, if_pos h₂]
      · cases e
  · intro f g e
    apply hfs
    unfold Graph.Edge graph at e
    split at e
    · cases e
    · rename_i h; rw [h]; rfl

/-! ## Wrong answers -/

/-- `void f() { c₁(); c₂(); ... }` -/
def callsAll (cs : List Name) : Fun := ⟨[], true, cs.map fun c => .expr (.call true c [])⟩

/-- Program with functions `0`, `1`, ... -/
def progOf (fs : List (List Name)) : Prog := fun n => (fs[n]?).map callsAll

instance {G : Graph} {f g : Name} : Decidable (G.Edge f g) := by unfold Graph.Edge; infer_instance

theorem progOf_big {fs : List (List Name)} {n : Nat} (h : fs.length ≤ n) : progOf fs n = none := by
  simp [progOf, List.getElem?_eq_none h]

theorem small (n : Nat) (h : n < 3) : n = 0 ∨ n = 1 ∨ n = 2 := by omega

theorem find_found {G : Graph} {A B : Set Name} {r c} (hA : c ∈ A) (hB : c ∈ B)
    (hc : ∀ x, x ∈ A → x ∈ B → x = c) (h : Find G A B r) : r = some c := by
  cases h with
  | empty h => exact absurd hB (h c)
  | found h₁ h₂ => rw [hc _ h₁ h₂]
  | next _ h => exact absurd hB (h c hA)

theorem find_next {G : Graph} {A B A' B' : Set Name} {r c} (hB : c ∈ B) (hc : ∀ x ∈ A, x ∉ B)
    (hA' : ∀ x, x ∈ A' ↔ x ∈ A ∨ x ∈ B ∧ needToAdd (G x) = true)
    (hB' : ∀ x, x ∈ B' ↔ ∃ c ∈ B, G.Edge c x) (h : Find G A B r) : Find G A' B' r := by
  cases h with
  | empty h => exact absurd hB (h c)
  | found h₁ h₂ => exact absurd h₂ (hc _ h₁)
  | next _ _ h =>
    have e₁ : A' = A ∪ {c | c ∈ B ∧ needToAdd (G c) = true} := Set.ext fun x => hA' x
    have e₂ : B' = {g | ∃ c ∈ B, G.Edge c g} := Set.ext fun x => hB' x
    rw [e₁, e₂]
    exact h

/-- A set which is presented as a list. -/
abbrev setOf (l : List Name) : Set Name := {x | x ∈ l}

theorem list_found {G : Graph} {a b : List Name} {r} (c : Name) (hA : c ∈ a) (hB : c ∈ b)
    (hc : ∀ x ∈ a, x ∈ b → x = c) (h : Find G (setOf a) (setOf b) r) : r = some c :=
  find_found hA hB hc h

/-- The next sets of callers and callees. -/
def nextOk (G : Graph) (a b a' b' : List Name) : Bool :=
  !b.isEmpty && a.all (fun x => !b.contains x) &&
  a'.all (fun x => a.contains x || b.contains x && needToAdd (G x)) &&
  a.all (fun x => a'.contains x) && b.all (fun x => !needToAdd (G x) || a'.contains x) &&
  b'.all (fun x => b.any fun c => (G c).contains (some x)) &&
  b.all fun c => (G c).all fun o => o.elim true fun x => b'.contains x

theorem list_next {G : Graph} {a b : List Name} {r} (a' b' : List Name) (hk : nextOk G a b a' b' = true)
    (h : Find G (setOf a) (setOf b) r) : Find G (setOf a') (setOf b') r := by
  simp only [nextOk, Bool.and_eq_true, List.all_eq_true] at hk
  obtain ⟨⟨⟨⟨⟨⟨h₁, h₂⟩, h₃⟩, h₄⟩, h₅⟩, h₆⟩, h₇⟩ := hk
  cases b with
  | nil => cases h₁
  | cons c b =>
    refine find_next (c := c) (by simp) ?_ ?_ ?_ h
    · intro x hx hb
      have := h₂ x hx
      rw [List.contains_iff_mem.2 hb] at this
      cases this
    · intro x
      constructor
      · intro hx
        have := h₃ x hx
        simp only [Bool.or_eq_true, Bool.and_eq_true, List.contains_iff_mem] at this
        exact this
      · rintro (hx | ⟨hx, hn⟩)
        · exact List.contains_iff_mem.1 (h₄ x hx)
        · have := h₅ x hx
          simp only [hn, Bool.not_true, Bool.false_or, List.contains_iff_mem] at this
          exact this
    · intro x
      constructor
      · intro hx
        have := h₆ x hx
        simp only [List.any_eq_true, List.contains_iff_mem] at this
        exact this
      · rintro ⟨y, hy, e⟩
        have := h₇ y hy (some x) e
        exact List.contains_iff_mem.1 this

theorem list_start {G : Graph} {f : Name} {r} (b : List Name) (hb : (G f).filterMap id = b)
    (h : Find G {f} {g | G.Edge f g} r) : Find G (setOf [f]) (setOf b) r := by
  have e₁ : setOf [f] = {f} := by ext x; simp
  have e₂ : setOf b = {g | G.Edge f g} := by
    ext x
    simp only [← hb, Set.mem_ofPred_eq, List.mem_filterMap, id_eq, Graph.Edge]
    exact ⟨fun ⟨o, h, e⟩ => e ▸ h, fun h => ⟨_, h, rfl⟩⟩
  rw [e₁, e₂]
  exact h

/-- `0` calls `1` and `3`, `1` calls `2` and `3`, `2` calls `0` and `3`, `3` calls itself. -/
def missed : Graph := graph (progOf [[1, 3], [2, 3], [0, 3], [3]]) fun _ => true

/-- Functions `0`, `1`, `2` call each other, however only `3` is found. So their calls are expanded
without end. -/
theorem recursion_missed_fails (R : Set Name) (h : Scan missed [0, 1, 2, 3] ∅ R) :
    R = {3} ∧ missed.Edge 0 1 ∧ missed.Edge 1 2 ∧ missed.Edge 2 0 := by
  have h0 : ∀ c, Find missed {0} {g | missed.Edge 0 g} c → c = some 3 := fun c h =>
    list_found 3 (by decide) (by decide) (by decide)
      (list_next [0, 1, 3] [2, 3] (by decide +kernel) (list_start [1, 3] (by decide +kernel) h))
  have h1 : ∀ c, Find missed {1} {g | missed.Edge 1 g} c → c = some 3 := fun c h =>
    list_found 3 (by decide) (by decide) (by decide)
      (list_next [1, 2, 3] [0, 3] (by decide +kernel) (list_start [2, 3] (by decide +kernel) h))
  have h2 : ∀ c, Find missed {2} {g | missed.Edge 2 g} c → c = some 3 := fun c h =>
    list_found 3 (by decide) (by decide) (by decide)
      (list_next [2, 0, 3] [1, 3] (by decide +kernel) (list_start [0, 3] (by decide +kernel) h))
  refine ⟨?_, by decide +kernel, by decide +kernel, by decide +kernel⟩
  cases h with
  | skip h => exact absurd h (by simp)
  | quiet _ h => cases h0 _ h
  | hit _ h k =>
    cases h0 _ h
    cases k with
    | skip h => exact absurd h (by simp)
    | quiet _ h => cases h1 _ h
    | hit _ h k =>
      cases h1 _ h
      cases k with
      | skip h => exact absurd h (by simp)
      | quiet _ h => cases h2 _ h
      | hit _ h k =>
        cases h2 _ h
        cases k with
        | skip _ k => cases k; ext x; simp
        | quiet h => exact absurd (by simp) h
        | hit h => exact absurd (by simp) h

/-- `0` calls `1`, `1` calls itself and `2`, calls of `2` should not be expanded. -/
def endless : Graph := graph (progOf [[1], [1, 2], []]) fun f => f != 2

theorem endless_find {r} (h : Find endless {0} {g | endless.Edge 0 g} r) : False := by
  replace h := list_start [1] (by decide +kernel) h
  have key : ∀ A B, Find endless A B r → A = setOf [0] → B = setOf [1] → False := by
    clear h
    intro A B h
    induction h with
    | empty h => rintro - rfl; exact h 1 (by simp)
    | found h₁ h₂ =>
      rintro rfl rfl
      simp only [Set.mem_ofPred_eq, List.mem_singleton] at h₁ h₂
      rw [h₁] at h₂
      cases h₂
    | next _ _ _ ih =>
      rintro rfl rfl
      apply ih
      · ext x
        simp only [Set.mem_union, Set.mem_ofPred_eq, List.mem_singleton]
        constructor
        · rintro (h | ⟨rfl, h⟩)
          · exact h
          · exact absurd h (by decide +kernel)
        · exact .inl
      · ext x
        simp only [Set.mem_ofPred_eq, List.mem_singleton, exists_eq_left]
        have : endless 1 = [some 1, none] := by decide +kernel
        simp [Graph.Edge, this]
  exact key _ _ h rfl rfl

/-- The search for recursion does not terminate (for any order of functions). -/
theorem recursion_endless_fails (R S : Set Name) (hR : 0 ∉ R) (fs : List Name) (h0 : 0 ∈ fs)
    (hfs : ∀ f ∈ fs, f ≤ 2) : ¬ Scan endless fs R S := by
  intro h
  have one : ∀ f c, f ≤ 2 → Find endless {f} {g | endless.Edge f g} (some c) → c ≠ 0 := by
    intro f c hf h
    refine h.reach (P := fun c => c ≠ 0) ?_ ?_ c rfl
    · intro x hx
      have : ∀ f ≤ 2, ∀ o ∈ endless f, o ≠ some 0 := by decide +kernel
      rintro rfl
      exact this f hf _ hx rfl
    · intro x y _ e
      rintro rfl
      by_cases hx : x ≤ 2
      · have : ∀ f ≤ 2, ∀ o ∈ endless f, o ≠ some 0 := by decide +kernel
        exact this x hx _ e rfl
      · have : endless x = [] := by
          have : progOf [[1], [1, 2], []] x = none := progOf_big (Nat.lt_of_not_le hx)
          simp [endless, graph, this]
        simp [Graph.Edge, this] at e
  induction h with
  | nil => cases h0
  | skip h _ ih =>
    rcases List.mem_cons.1 h0 with rfl | h0
    · exact hR h
    · exact ih hR h0 fun f hf => hfs f (List.mem_cons_of_mem _ hf)
  | quiet _ h _ ih =>
    rcases List.mem_cons.1 h0 with rfl | h0
    · exact endless_find h
    · exact ih hR h0 fun f hf => hfs f (List.mem_cons_of_mem _ hf)
  | hit _ h _ ih =>
    rcases List.mem_cons.1 h0 with rfl | h0
    · exact endless_find h
    · refine ih ?_ h0 fun f hf => hfs f (List.mem_cons_of_mem _ hf)
      rintro (h' | h')
      · exact hR h'
      · exact one _ _ (hfs _ (by simp)) h h'.symm

/-- `0` calls `1` and `2`, `2` calls `1`, `1` calls `3`. -/
def diamond : Graph := graph (progOf [[1, 2], [3], [1], []]) fun _ => true

/-- There is no recursion, however `1` is considered to be recursive. -/
theorem recursion_diamond_fails : (∀ R, Scan diamond [0, 1, 2, 3] ∅ R → 1 ∈ R) ∧ ∀ f, ¬ diamond.Cycle f := by
  constructor
  · intro R h
    have h0 : ∀ c, Find diamond {0} {g | diamond.Edge 0 g} c → c = some 1 := fun c h =>
      list_found 1 (by decide) (by decide) (by decide)
        (list_next [0, 1, 2] [3, 1] (by decide +kernel) (list_start [1, 2] (by decide +kernel) h))
    cases h with
    | skip h => exact absurd h (by simp)
    | quiet _ h => cases h0 _ h
    | hit _ h k => cases h0 _ h; exact k.mono _ (by simp)
  · have edge : ∀ f g, diamond.Edge f g → (f, g) ∈ [(0, 1), (0, 2), (1, 3), (2, 1)] := by
      intro f g e
      by_cases hf : f ≤ 3
      · have : ∀ f ≤ 3, ∀ o ∈ diamond f, ∀ g ∈ o, (f, g) ∈ [(0, 1), (0, 2), (1, 3), (2, 1)] := by
          decide +kernel
        exact this f hf _ e g rfl
      · have : diamond f = [] := by
          have : progOf [[1, 2], [3], [1], []] f = none := progOf_big (Nat.lt_of_not_le hf)
          simp [diamond, graph, this]
        simp [Graph.Edge, this] at e
    let rk : Name → Nat := fun f => if f = 0 then 3 else if f = 2 then 2 else if f = 1 then 1 else 0
    have dec : ∀ f g, diamond.Edge f g → rk g < rk f := by
      intro f g e
      have := edge f g e
      simp only [List.mem_cons, Prod.mk.injEq, List.not_mem_nil, or_false] at this
      rcases this with ⟨rfl, rfl⟩ | ⟨rfl, rfl⟩ | ⟨rfl, rfl⟩ | ⟨rfl, rfl⟩ <;> decide
    have walk : ∀ n f g, diamond.Walk n f g → rk g ≤ rk f := by
      intro n f g h
      induction h with
      | nil => exact le_refl _
      | cons e _ ih => exact le_trans ih (le_of_lt (dec _ _ e))
    rintro f ⟨n, h⟩
    cases h with
    | cons e w => exact absurd (lt_of_le_of_lt (walk _ _ _ w) (dec _ _ e)) (lt_irrefl _)

/-! ## The theorems are not vacuous -/

/-- `0` calls `1` and `2`, `1` calls `2`, `2` calls `1`. -/
def exRec : Prog := progOf [[1, 2], [2], [1]]

example : ∃ R, Scan (graph exRec fun _ => true) [0, 1, 2] ∅ R := by
  refine recursion_ends_partial exRec _ _ ?_ ?_
  · intro f hf
    by_cases h : f < 3
    · rcases small f h with rfl | rfl | rfl <;> simp
    · rw [exRec, progOf_big (Nat.le_of_not_lt h)] at hf
      cases hf
  · intro f F hF g hg h
    by_cases hlt : f < 3
    · rcases small f hlt with rfl | rfl | rfl <;> cases hF
      · exact ⟨2, by decide +kernel, by decide +kernel⟩
      · exact ⟨2, by decide +kernel, by decide +kernel⟩
      · exact ⟨1, by decide +kernel, by decide +kernel⟩
    · rw [exRec, progOf_big (Nat.le_of_not_lt hlt)] at hF
      cases hF

/-- There is recursion. -/
example : (graph exRec fun _ => true).Cycle 1 :=
  ⟨1, .cons (g := 2) (by decide +kernel) (.cons (by decide +kernel) .nil)⟩

/-- A program without recursion: `0` calls `1`, `1` calls `2`. Nothing is found. -/
example : Scan (graph (progOf [[1], [2], []]) fun _ => true) [0, 1, 2] ∅ ∅ := by
  have e0 : graph (progOf [[1], [2], []]) (fun _ => true) 0 = [some 1] := by decide +kernel
  have e1 : graph (progOf [[1], [2], []]) (fun _ => true) 1 = [some 2] := by decide +kernel
  have e2 : graph (progOf [[1], [2], []]) (fun _ => true) 2 = [] := by decide +kernel
  refine .quiet (by simp) (.next ⟨1, by simp [Graph.Edge, e0]⟩ (by simp [Graph.Edge, e0])
    (.next ⟨2, by simp [Graph.Edge, e0, e1]⟩ (by simp [Graph.Edge, e0, e1])
      (.empty (by simp [Graph.Edge, e0, e1, e2])))) ?_
  refine .quiet (by simp) (.next ⟨2, by simp [Graph.Edge, e1]⟩ (by simp [Graph.Edge, e1])
      (.empty (by simp [Graph.Edge, e1, e2]))) ?_
  exact .quiet (by simp) (.empty (by simp [Graph.Edge, e2])) .nil

end Tsar.Inline
