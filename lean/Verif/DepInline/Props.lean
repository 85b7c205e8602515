import Verif.DepInline.Model
import Mathlib.Tactic.Common

/-!
# Properties C142, C143: calls to inline
-/

namespace Tsar.DepInline

/-- Specification: a function `g` may be executed when a function `f` is executed (direct calls only). -/
inductive Reaches (m : Mod) : Fn → Fn → Prop
  | refl (f : Fn) : Reaches m f f
  | step {f g h : Fn} {c : Call} : Reaches m f g → c ∈ m.calls g → c.callee = some h → Reaches m f h

/-- Specification: a call is a cause of a dependence. -/
def Cause (m : Mod) (fs : List (Fn × List Request)) (c : Call) : Prop :=
  ∃ p ∈ fs, m.decl p.1 = false ∧ (Request.call c ∈ p.2 ∨
    ∃ d, Request.loc (some d) ∈ p.2 ∧ c ∈ m.calls p.1 ∧ c.loc = some d)

/-- Different calls of a function have different locations. -/
def Distinct (m : Mod) : Prop := ∀ f, ∀ c ∈ m.calls f, ∀ c' ∈ m.calls f, c.loc = c'.loc → c.loc ≠ none → c = c'

/-! ### Causes -/

theorem mem_insert {f g : Fn} {l : List Fn} : g ∈ insert f l ↔ g = f ∨ g ∈ l := by
  unfold insert
  split_ifs with h
  · constructor
    · exact .inr
    · rintro (rfl | h') <;> assumption
  · simp

/-- Invariant: marked calls are requested, callees of new marked calls are in the set. -/
structure Inv (m0 : List Call) (R : Call → Prop) (s : St) : Prop where
  marks : ∀ c, c ∈ s.marked ↔ c ∈ m0 ∨ R c
  fns : ∀ g, g ∈ s.fns ↔ ∃ c, c ∉ m0 ∧ R c ∧ c.callee = some g

theorem inv_congr {m0 : List Call} {R R' : Call → Prop} {s : St} (h : Inv m0 R s) (e : ∀ c, R c ↔ R' c) : Inv m0 R' s :=
  ⟨fun c => by rw [h.marks, e], fun g => by rw [h.fns]; exact exists_congr fun c => by rw [e]⟩

theorem inv_mark {m0 : List Call} {R : Call → Prop} {s : St} (h : Inv m0 R s) (c : Call) :
    Inv m0 (fun x => R x ∨ x = c) (mark c s) := by
  unfold mark
  split_ifs with hc
  · refine ⟨fun x => ?_, fun g => ?_⟩
    · rw [h.marks]
      constructor
      · tauto
      · rintro (h' | h' | rfl)
        · exact .inl h'
        · exact .inr h'
        · exact (h.marks x).mp hc
    · rw [h.fns]
      constructor
      · rintro ⟨x, h1, h2, h3⟩; exact ⟨x, h1, .inl h2, h3⟩
      · rintro ⟨x, h1, h2 | rfl, h3⟩
        · exact ⟨x, h1, h2, h3⟩
        · exact ⟨x, h1, ((h.marks x).mp hc).resolve_left h1, h3⟩
  · refine ⟨fun x => ?_, fun g => ?_⟩
    · simp only [List.mem_cons, h.marks]
      tauto
    · have hm : c ∉ m0 := fun h' => hc ((h.marks c).mpr (.inl h'))
      cases hcal : c.callee with
      | none =>
        simp only [h.fns]
        constructor
        · rintro ⟨x, h1, h2, h3⟩; exact ⟨x, h1, .inl h2, h3⟩
        · rintro ⟨x, h1, h2 | rfl, h3⟩
          · exact ⟨x, h1, h2, h3⟩
          · rw [hcal] at h3; cases h3
      | some f =>
        simp only [mem_insert, h.fns]
        constructor
        · rintro (rfl | ⟨x, h1, h2, h3⟩)
          · exact ⟨c, hm, .inr rfl, hcal⟩
          · exact ⟨x, h1, .inl h2, h3⟩
        · rintro ⟨x, h1, h2 | rfl, h3⟩
          · exact .inr ⟨x, h1, h2, h3⟩
          · rw [hcal] at h3; exact .inl (Option.some.inj h3).symm

/-- What a request asks to mark. -/
def Asks (cs : List Call) (r : Request) (c : Call) : Prop :=
  r = .call c ∨ ∃ d, r = .loc (some d) ∧ findCall cs d = some c

theorem inv_request {m0 : List Call} {R : Call → Prop} {s : St} (h : Inv m0 R s) (cs : List Call) (r : Request) :
    Inv m0 (fun x => R x ∨ Asks cs r x) (request cs s r) := by
  cases r with
  | call c =>
    refine inv_congr (inv_mark h c) (fun x => ?_)
    simp [Asks, eq_comm]
  | loc d =>
    cases d with
    | none => exact inv_congr h (fun x => by simp [Asks])
    | some d =>
      simp only [request]
      cases hf : findCall cs d with
      | none => exact inv_congr h (fun x => by simp [Asks, hf])
      | some c =>
        refine inv_congr (inv_mark h c) (fun x => ?_)
        simp [Asks, hf, eq_comm]

theorem inv_requests (m0 : List Call) (cs : List Call) : ∀ (rs : List Request) (R : Call → Prop) (s : St), Inv m0 R s →
    Inv m0 (fun x => R x ∨ ∃ r ∈ rs, Asks cs r x) (rs.foldl (request cs) s)
  | [], _, _, h => inv_congr h (fun x => by simp)
  | r :: rs, R, s, h => by
    refine inv_congr (inv_requests m0 cs rs _ _ (inv_request h cs r)) (fun x => ?_)
    simp [or_assoc]

theorem inv_functions (m : Mod) (m0 : List Call) : ∀ (fs : List (Fn × List Request)) (R : Call → Prop) (s : St), Inv m0 R s →
    Inv m0 (fun x => R x ∨ ∃ p ∈ fs, m.decl p.1 = false ∧ ∃ r ∈ p.2, Asks (m.calls p.1) r x) (functions m s fs)
  | [], _, _, h => inv_congr h (fun x => by simp)
  | p :: fs, R, s, h => by
    have step : Inv m0 (fun x => R x ∨ (m.decl p.1 = false ∧ ∃ r ∈ p.2, Asks (m.calls p.1) r x))
        (function m s p.1 p.2) := by
      unfold function
      cases hd : m.decl p.1 with
      | true => exact inv_congr h (fun x => by simp)
      | false => exact inv_congr (inv_requests m0 _ p.2 R s h) (fun x => by simp)
    refine inv_congr (inv_functions m m0 fs _ _ step) (fun x => ?_)
    simp [or_assoc]

/-! ### Closure -/

theorem push_spec (P : Fn → Prop) : ∀ (cs : List Call) (w s : List Fn), (∀ f ∈ w, f ∈ s) → (∀ f ∈ s, P f) →
    (∀ c ∈ cs, ∀ g, c.callee = some g → P g) →
    (∀ f ∈ (push cs w s).1, f ∈ (push cs w s).2) ∧ (∀ f ∈ (push cs w s).2, P f) ∧
    (∀ f ∈ s, f ∈ (push cs w s).2) ∧ (∀ f ∈ w, f ∈ (push cs w s).1) ∧
    (∀ c ∈ cs, ∀ g, c.callee = some g → g ∈ (push cs w s).2) ∧
    (∀ f ∈ (push cs w s).2, f ∉ s → f ∈ (push cs w s).1)
  | [], w, s, h1, h2, _ => ⟨h1, h2, fun _ h => h, fun _ h => h, fun c hc => by simp at hc, fun f h h' => absurd h h'⟩
  | c :: cs, w, s, h1, h2, h3 => by
    simp only [push]
    cases hc : c.callee with
    | none =>
      obtain ⟨k1, k2, k3, k4, k5, k6⟩ := push_spec P cs w s h1 h2 (fun x hx => h3 x (by simp [hx]))
      refine ⟨k1, k2, k3, k4, fun x hx g hg => ?_, k6⟩
      rcases List.mem_cons.mp hx with rfl | hx
      · rw [hc] at hg; cases hg
      · exact k5 x hx g hg
    | some g =>
      simp only
      split_ifs with hg
      · obtain ⟨k1, k2, k3, k4, k5, k6⟩ := push_spec P cs w s h1 h2 (fun x hx => h3 x (by simp [hx]))
        refine ⟨k1, k2, k3, k4, fun x hx g' hg' => ?_, k6⟩
        rcases List.mem_cons.mp hx with rfl | hx
        · rw [hc] at hg'; rw [← Option.some.inj hg']; exact k3 g hg
        · exact k5 x hx g' hg'
      · obtain ⟨k1, k2, k3, k4, k5, k6⟩ := push_spec P cs (g :: w) (g :: s)
          (fun f hf => by
            rcases List.mem_cons.mp hf with rfl | hf
            · simp
            · simp [h1 f hf])
          (fun f hf => by
            rcases List.mem_cons.mp hf with rfl | hf
            · exact h3 c (by simp) f hc
            · exact h2 f hf) (fun x hx => h3 x (by simp [hx]))
        refine ⟨k1, k2, fun f hf => k3 f (by simp [hf]), fun f hf => k4 f (by simp [hf]), fun x hx g' hg' => ?_,
          fun f hf hn => ?_⟩
        · rcases List.mem_cons.mp hx with rfl | hx
          · rw [hc] at hg'; rw [← Option.some.inj hg']; exact k3 g (by simp)
          · exact k5 x hx g' hg'
        · by_cases hfg : f = g
          · subst hfg; exact k4 f (by simp)
          · exact k6 f hf (by simp [hfg, hn])

theorem reach_closed (m : Mod) (s : List Fn) (h : ∀ f ∈ s, ∀ c ∈ m.calls f, ∀ g, c.callee = some g → g ∈ s) {i f : Fn}
    (hr : Reaches m i f) (hi : i ∈ s) : f ∈ s := by
  induction hr with
  | refl => exact hi
  | step _ hc hg ih => exact h _ ih _ hc _ hg

/-- The result of the search is the set of functions which are reached. -/
theorem close_spec (m : Mod) (init : List Fn) : ∀ (n : Nat) (w s r : List Fn), (∀ f ∈ w, f ∈ s) →
    (∀ f ∈ s, ∃ i ∈ init, Reaches m i f) → (∀ f ∈ init, f ∈ s) →
    (∀ f ∈ s, f ∉ w → ∀ c ∈ m.calls f, ∀ g, c.callee = some g → g ∈ s) → close m n w s = some r →
    ∀ f, f ∈ r ↔ ∃ i ∈ init, Reaches m i f := by
  intro n
  induction n with
  | zero =>
    intro w s r h1 h2 h3 h4 h
    cases w with
    | cons f w => simp [close] at h
    | nil =>
      simp only [close, Option.some.injEq] at h
      subst h
      intro f
      exact ⟨h2 f, fun ⟨i, hi, hr⟩ => reach_closed m s (fun f hf => h4 f hf (by simp)) hr (h3 i hi)⟩
  | succ n ih =>
    intro w s r h1 h2 h3 h4 h
    cases w with
    | nil =>
      simp only [close, Option.some.injEq] at h
      subst h
      intro f
      exact ⟨h2 f, fun ⟨i, hi, hr⟩ => reach_closed m s (fun f hf => h4 f hf (by simp)) hr (h3 i hi)⟩
    | cons f w =>
      simp only [close] at h
      obtain ⟨k1, k2, k3, k4, k5, k6⟩ := push_spec (fun f => ∃ i ∈ init, Reaches m i f) (m.calls f) w s
        (fun x hx => h1 x (by simp [hx])) h2 (fun c hc g hg => by
          obtain ⟨i, hi, hr⟩ := h2 f (h1 f (by simp))
          exact ⟨i, hi, .step hr hc hg⟩)
      refine ih _ _ r k1 k2 (fun x hx => k3 x (h3 x hx)) (fun x hx hxw c hc g hg => ?_) h
      by_cases hxf : x = f
      · subst hxf; exact k5 c hc g hg
      · have hxs : x ∈ s := by
          by_contra hn
          exact hxw (k6 x hx hn)
        have : x ∉ f :: w := by
          simp only [List.mem_cons, not_or]
          exact ⟨hxf, fun h => hxw (k4 x h)⟩
        exact k3 g (h4 x hxs this c hc g hg)

theorem push_count (U : List Fn) : ∀ (cs : List Call) (w s : List Fn), (∀ c ∈ cs, ∀ g, c.callee = some g → g ∈ U) →
    (push cs w s).1.length + (U.filter (fun f => f ∉ (push cs w s).2)).length ≤
      w.length + (U.filter (fun f => f ∉ s)).length
  | [], w, s, _ => Nat.le_refl _
  | c :: cs, w, s, h => by
    rcases hc : c.callee with _ | g
    · have e : push (c :: cs) w s = push cs w s := by simp [push, hc]
      rw [e]
      exact push_count U cs w s (fun x hx => h x (by simp [hx]))
    · by_cases hg : g ∈ s
      · have e : push (c :: cs) w s = push cs w s := by simp [push, hc, hg]
        rw [e]
        exact push_count U cs w s (fun x hx => h x (by simp [hx]))
      · have e : push (c :: cs) w s = push cs (g :: w) (g :: s) := by simp [push, hc, hg]
        rw [e]
        refine Nat.le_trans (push_count U cs (g :: w) (g :: s) (fun x hx => h x (by simp [hx]))) ?_
        have hlt : (U.filter (fun f => f ∉ g :: s)).length < (U.filter (fun f => f ∉ s)).length := by
          have he : U.filter (fun f => decide (f ∉ g :: s)) = (U.filter (fun f => decide (f ∉ s))).filter (fun f => decide (f ≠ g)) := by
            rw [List.filter_filter]
            congr 1
            funext f
            simp [List.mem_cons, not_or]
          rw [he]
          rcases Nat.lt_or_ge ((U.filter (fun f => decide (f ∉ s))).filter (fun f => decide (f ≠ g))).length
            (U.filter (fun f => decide (f ∉ s))).length with hl | hl
          · exact hl
          · exfalso
            have := List.filter_eq_self.mp ((List.filter_sublist).eq_of_length_le hl) g
              (by rw [List.mem_filter]; exact ⟨h c (by simp) g hc, by simpa using hg⟩)
            simp at this
        simp only [List.length_cons]
        omega

/-- The search ends: the number of functions is finite. -/
theorem close_ends (m : Mod) (U : List Fn) (hU : ∀ f, ∀ c ∈ m.calls f, ∀ g, c.callee = some g → g ∈ U) :
    ∀ (n : Nat) (w s : List Fn), w.length + (U.filter (fun f => f ∉ s)).length ≤ n → ∃ r, close m n w s = some r := by
  intro n
  induction n with
  | zero =>
    intro w s h
    have : w = [] := List.length_eq_zero_iff.mp (by omega)
    subst this
    exact ⟨s, rfl⟩
  | succ n ih =>
    intro w s h
    cases w with
    | nil => exact ⟨s, rfl⟩
    | cons f w =>
      simp only [close]
      refine ih _ _ ?_
      have := push_count U (m.calls f) w s (hU f)
      simp only [List.length_cons] at h
      omega

theorem mem_marks (cs : List Call) : ∀ (l : List Call) (c : Call),
    c ∈ cs.foldl (fun l c => if c ∈ l then l else c :: l) l ↔ c ∈ l ∨ c ∈ cs := by
  induction cs with
  | nil => simp
  | cons x cs ih =>
    intro l c
    simp only [List.foldl_cons, ih]
    split_ifs with h
    · constructor
      · rintro (h' | h')
        · exact .inl h'
        · simp [h']
      · rintro (h' | h')
        · exact .inl h'
        · rcases List.mem_cons.mp h' with rfl | h'
          · exact .inl h
          · exact .inr h'
    · simp only [List.mem_cons]; tauto

theorem mem_markAll (m : Mod) : ∀ (fs : List Fn) (l : List Call) (c : Call),
    c ∈ markAll m fs l ↔ c ∈ l ∨ ∃ f ∈ fs, c ∈ m.calls f := by
  intro fs
  induction fs with
  | nil => simp [markAll]
  | cons f fs ih =>
    intro l c
    have : markAll m (f :: fs) l = markAll m fs ((m.calls f).foldl (fun l c => if c ∈ l then l else c :: l) l) := rfl
    rw [this, ih, mem_marks]
    simp [or_assoc]

/-- What is marked: the first call with a location, requested calls, and all calls in functions which are reached from
them. -/
theorem attribute_iff (m : Mod) (n : Nat) (fs : List (Fn × List Request)) (r : List Call)
    (h : attributes m n fs [] = some r) (c : Call) :
    c ∈ r ↔ (∃ p ∈ fs, m.decl p.1 = false ∧ ∃ q ∈ p.2, Asks (m.calls p.1) q c) ∨
      ∃ x f g, (∃ p ∈ fs, m.decl p.1 = false ∧ ∃ q ∈ p.2, Asks (m.calls p.1) q x) ∧ x.callee = some f ∧ Reaches m f g ∧
        c ∈ m.calls g := by
  have hinv := inv_functions m [] fs (fun _ => False) ⟨[], []⟩ ⟨by simp, by simp⟩
  simp only [attributes, Option.map_eq_some_iff] at h
  obtain ⟨l, hl, rfl⟩ := h
  have hs := close_spec m (functions m ⟨[], []⟩ fs).fns n _ _ l (fun _ h => h) (fun f hf => ⟨f, hf, .refl f⟩) (fun _ h => h)
    (fun f hf hn => absurd hf hn) hl
  rw [mem_markAll, hinv.marks]
  simp only [List.not_mem_nil, false_or]
  refine or_congr Iff.rfl ?_
  constructor
  · rintro ⟨g, hg, hc⟩
    obtain ⟨f, hf, hr⟩ := (hs g).mp hg
    obtain ⟨x, _, h2, h3⟩ := (hinv.fns f).mp hf
    exact ⟨x, f, g, by simpa using h2, h3, hr, hc⟩
  · rintro ⟨x, f, g, h1, h2, h3, h4⟩
    exact ⟨g, (hs g).mpr ⟨f, (hinv.fns f).mpr ⟨x, by simp, .inr h1, h2⟩, h3⟩, h4⟩

theorem asks_iff (m : Mod) (hd : Distinct m) (fs : List (Fn × List Request)) (c : Call) :
    (∃ p ∈ fs, m.decl p.1 = false ∧ ∃ q ∈ p.2, Asks (m.calls p.1) q c) ↔ Cause m fs c := by
  unfold Cause
  refine exists_congr fun p => and_congr Iff.rfl (and_congr Iff.rfl ?_)
  constructor
  · rintro ⟨q, hq, rfl | ⟨d, rfl, hf⟩⟩
    · exact .inl hq
    · exact .inr ⟨d, hq, List.mem_of_find?_eq_some hf, by simpa using List.find?_some hf⟩
  · rintro (h | ⟨d, h1, h2, h3⟩)
    · exact ⟨_, h, .inl rfl⟩
    · refine ⟨_, h1, .inr ⟨d, rfl, ?_⟩⟩
      cases hf : findCall (m.calls p.1) d with
      | none =>
        have := List.find?_eq_none.mp hf c h2
        simp [h3] at this
      | some c' =>
        have k1 := List.mem_of_find?_eq_some hf
        have k2 : c'.loc = some d := by simpa using List.find?_some hf
        rw [hd p.1 c h2 c' k1 (by rw [h3, k2]) (by simp [h3])]

/-- C142 (a part). If different calls of a function have different locations then calls which cause dependences and all
calls which may be executed inside of them are marked, and nothing else is marked. -/
theorem attribute_partial (m : Mod) (hd : Distinct m) (n : Nat) (fs : List (Fn × List Request)) (r : List Call)
    (h : attributes m n fs [] = some r) (c : Call) :
    c ∈ r ↔ Cause m fs c ∨ ∃ x f g, Cause m fs x ∧ x.callee = some f ∧ Reaches m f g ∧ c ∈ m.calls g := by
  rw [attribute_iff m n fs r h c]
  simp only [asks_iff m hd fs]

/-- The search ends in a module with a finite number of functions. -/
theorem attribute_ends (m : Mod) (U : List Fn) (hU : ∀ f, ∀ c ∈ m.calls f, ∀ g, c.callee = some g → g ∈ U)
    (fs : List (Fn × List Request)) (marked : List Call) : ∃ n r, attributes m n fs marked = some r := by
  obtain ⟨l, hl⟩ := close_ends m U hU _ (functions m ⟨marked, []⟩ fs).fns (functions m ⟨marked, []⟩ fs).fns (Nat.le_refl _)
  exact ⟨_, markAll m l (functions m ⟨marked, []⟩ fs).marked, by simp only [attributes]; rw [hl]; rfl⟩

/-- A function 0 calls a function 1, which calls functions 2 and 1, and a function 3. -/
def exMod : Mod := ⟨fun f => if f = 0 then [⟨10, some 1, some 1⟩, ⟨11, some 2, some 3⟩] else
  if f = 1 then [⟨12, some 3, some 2⟩, ⟨13, some 4, some 1⟩] else if f = 3 then [⟨14, some 5, some 2⟩] else [], fun f => f == 2⟩

example : attributes exMod 9 [(0, [.loc (some 1), .loc none])] [] =
    some [⟨13, some 4, some 1⟩, ⟨12, some 3, some 2⟩, ⟨10, some 1, some 1⟩] := by decide

example : Distinct exMod := by
  intro f c hc c' hc' h hn
  simp only [exMod] at hc hc'
  split_ifs at hc hc' <;> simp only [List.mem_cons, List.not_mem_nil, or_false] at hc hc'
  · rcases hc with rfl | rfl <;> rcases hc' with rfl | rfl <;> simp_all
  · rcases hc with rfl | rfl <;> rcases hc' with rfl | rfl <;> simp_all
  · rw [hc, hc']

/-- Two calls have the same location (they are produced by the same macro), only the first one is marked. -/
theorem attribute_fails : ∃ (m : Mod) (fs : List (Fn × List Request)) (r : List Call) (c : Call),
    attributes m 9 fs [] = some r ∧ Cause m fs c ∧ c ∉ r := by
  refine ⟨⟨fun f => if f = 0 then [⟨10, some 1, none⟩, ⟨11, some 1, none⟩] else [], fun _ => false⟩,
    [(0, [.loc (some 1)])], [⟨10, some 1, none⟩], ⟨11, some 1, none⟩, by decide, ?_, by decide⟩
  exact ⟨_, List.mem_singleton.mpr rfl, rfl, .inr ⟨1, by simp, by simp, rfl⟩⟩

/-! ### A bound on a number of accesses -/

/-- C143 (a part). If the only inlined call of a function is a call of a function without inlined calls, then a number of
accesses after inlining is less than the threshold. -/
theorem bound_partial (t : Nat) (fs : Fn → Body) (size : Fn → Nat) (f g : Fn) (pre post : List Site) (s : Site)
    (hf : (fs f).sites = pre ++ s :: post) (hs : inlined t fs f s = true) (hg : s.callee = g) (hsz : size g = cost (fs g))
    (hpre : ∀ x ∈ pre ++ post, inlined t fs f x = false) : sizeOf t fs size f < t := by
  have hle : ∀ l : List Site, (∀ x ∈ l, inlined t fs f x = false) →
      (l.map (fun s => if inlined t fs f s then size s.callee else s.accesses)).sum = (l.map Site.accesses).sum := by
    intro l hl
    congr 1
    apply List.map_congr_left
    intro x hx
    simp [hl x hx]
  have h1 : cost (fs f) + cost (fs g) < t := by
    simp only [inlined, Bool.and_eq_true, decide_eq_true_eq] at hs
    rw [← hg]; exact hs.2
  have h2 : cost (fs f) = (fs f).own + ((pre.map Site.accesses).sum + (s.accesses + (post.map Site.accesses).sum)) := by
    simp [cost, hf]
  have h3 : sizeOf t fs size f = (fs f).own + ((pre.map Site.accesses).sum + (cost (fs g) + (post.map Site.accesses).sum)) := by
    simp only [sizeOf, hf, List.map_append, List.map_cons, List.sum_append, List.sum_cons, hs, if_true, hg, hsz]
    rw [hle pre (fun x hx => hpre x (by simp [hx])), hle post (fun x hx => hpre x (by simp [hx]))]
  omega

example : let fs : Fn → Body := fun f => if f = 0 then ⟨2, [⟨1, 2, false⟩, ⟨1, 1, true⟩], true⟩ else ⟨5, [], true⟩
    inlined 10 fs 0 ⟨1, 1, true⟩ = true ∧ inlined 10 fs 0 ⟨1, 2, false⟩ = false ∧
    sizeOf 10 fs (fun g => cost (fs g)) 0 = 8 := by decide

/-- Nothing is inlined if it exceeds the threshold or is not marked: a number of accesses does not change. -/
theorem unmarked_same (t : Nat) (fs : Fn → Body) (size : Fn → Nat) (f : Fn)
    (h : ∀ s ∈ (fs f).sites, s.marked = true → t ≤ cost (fs f) + cost (fs s.callee)) :
    sizeOf t fs size f = cost (fs f) := by
  unfold sizeOf cost
  congr 2
  apply List.map_congr_left
  intro s hs
  have : inlined t fs f s = false := by
    cases hm : s.marked with
    | false => simp [inlined, hm]
    | true =>
      have := h s hs hm
      simp only [inlined, Bool.and_eq_false_iff, decide_eq_false_iff_not]
      right; omega
  simp [this]

/-- A function `n` calls a function `n - 1` twice. -/
def chain (n : Fn) : Body :=
  match n with
  | 0 => ⟨1, [], true⟩
  | n + 1 => ⟨1, [⟨1, n, true⟩, ⟨1, n, true⟩], true⟩

theorem chain_size : ∀ n, ∃ size : Fn → Nat, (sizes 10 chain (List.range (n + 1)) (fun _ => 0)) = size ∧
    ∀ k ≤ n, 2 ^ k ≤ size k := by
  intro n
  refine ⟨_, rfl, ?_⟩
  have app : ∀ (a b : List Fn) (z : Fn → Nat), sizes 10 chain (a ++ b) z = sizes 10 chain b (sizes 10 chain a z) := by
    intro a
    induction a with
    | nil => intro b z; rfl
    | cons x a ih => intro b z; exact ih b _
  induction n with
  | zero =>
    intro k hk
    have : k = 0 := by omega
    subst this
    decide
  | succ n ih =>
    intro k hk
    rw [List.range_succ, app]
    simp only [sizes]
    split_ifs with hkn
    · subst hkn
      have h1 := ih n (Nat.le_refl _)
      have hin : inlined 10 chain (n + 1) ⟨1, n, true⟩ = true := by
        cases n <;> simp [inlined, chain, cost]
      have : sizeOf 10 chain (sizes 10 chain (List.range (n + 1)) fun _ => 0) (n + 1) =
          1 + (sizes 10 chain (List.range (n + 1)) (fun _ => 0) n + (sizes 10 chain (List.range (n + 1)) (fun _ => 0) n)) := by
        have e : chain (n + 1) = ⟨1, [⟨1, n, true⟩, ⟨1, n, true⟩], true⟩ := rfl
        simp only [sizeOf, e, List.map_cons, List.map_nil, List.sum_cons, List.sum_nil, hin, if_true]
        omega
      rw [this, Nat.pow_succ]
      omega
    · exact ih k (Nat.lt_succ_iff.mp (Nat.lt_of_le_of_ne hk hkn))

/-- The threshold does not bound a number of accesses: with the threshold 10 it may be arbitrary large, because costs are not
updated after inlining. -/
theorem bound_fails : ∀ B : Nat, ∃ (fs : Fn → Body) (order : List Fn) (f : Fn), f ∈ order ∧
    (∀ g, cost (fs g) ≤ 3) ∧ B < sizes 10 fs order (fun _ => 0) f := by
  intro B
  obtain ⟨size, h1, h2⟩ := chain_size B
  refine ⟨chain, List.range (B + 1), B, by simp, fun g => ?_, ?_⟩
  · cases g <;> simp [chain, cost]
  · rw [h1]
    exact Nat.lt_of_lt_of_le Nat.lt_two_pow_self (h2 B (Nat.le_refl _))

end Tsar.DepInline
