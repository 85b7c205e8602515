import Verif.OptRegion.Model
import Mathlib.Data.List.Basic
import Mathlib.Logic.Relation
import Mathlib.Tactic.SplitIfs

/-!
# Properties of regions which a user marks for optimization
-/

namespace Tsar.OptRegion

/-! ### Specification of directives -/

/-- A mark of an optional loop for all regions. -/
def loopMarks (l : Option Nat) (act : List Nat) : List Mark :=
  match l with
  | none => []
  | some l => act.map fun r => .loop r l

/-- A mark of an optional call for all regions. -/
def callMarks (c : Option Nat) (act : List Nat) : List Mark :=
  match c with
  | none => []
  | some c => act.map fun r => .call r c

mutual
/-- Loops and calls of a statement in regions: `act` are regions of the parent statement, `pend` are regions from the
directive which precedes the statement. A directive is applied to a compound statement or a loop after it only. -/
def specStmt (act pend : List Nat) : Stmt → List Mark
  | .skip => []
  | .region _ => []
  | .scope l body => loopMarks l (act ++ pend) ++ specAll (act ++ pend) [] body
  | .other c body => callMarks c act ++ specAll act [] body

/-- Loops and calls of consecutive statements in regions. -/
def specAll (act pend : List Nat) : List Stmt → List Mark
  | [] => []
  | x :: xs => specStmt act pend x ++ specAll act (match x with
      | .skip => pend
      | .region rs => rs
      | _ => []) xs
end

mutual
/-- Each directive is followed by a compound statement, a loop or another directive. `p` means that there is a directive
before the statement. -/
def placedStmt (p : Bool) : Stmt → Bool
  | .skip => true
  | .region rs => !rs.isEmpty
  | .scope _ body => placedAll false body
  | .other _ body => !p && placedAll false body

/-- Each directive is followed by a compound statement, a loop or another directive. -/
def placedAll (p : Bool) : List Stmt → Bool
  | [] => !p
  | x :: xs => placedStmt p x && placedAll (match x with
      | .skip => p
      | .region _ => true
      | _ => false) xs
end

/-- A state before a statement. -/
structure Good (s : St) (act pend : List Nat) : Prop where
  active : s.active = act ++ pend
  count : s.count = pend.length
  new : s.isNew = !pend.isEmpty

/-- Regions of a directive before the next statement. -/
def next (pend : List Nat) : Stmt → List Nat
  | .skip => pend
  | .region rs => rs
  | _ => []

theorem specAll_cons (act pend : List Nat) (x : Stmt) (xs : List Stmt) :
    specAll act pend (x :: xs) = specStmt act pend x ++ specAll act (next pend x) xs := by
  cases x <;> simp [specAll, next]

theorem placedAll_cons {pend : List Nat} {x : Stmt} {xs : List Stmt} (h : placedAll (!pend.isEmpty) (x :: xs) = true) :
    placedStmt (!pend.isEmpty) x = true ∧ placedAll (!(next pend x).isEmpty) xs = true := by
  cases x with
  | skip => simpa [placedAll, next, placedStmt] using h
  | region rs =>
    simp only [placedAll, placedStmt, Bool.and_eq_true] at h
    refine ⟨h.1, ?_⟩
    simp only [next, h.1]
    exact h.2
  | scope l b => simpa [placedAll, next] using h
  | other c b => simpa [placedAll, next] using h

theorem dropNew_good {s : St} {act pend : List Nat} (h : Good s act pend) :
    dropNew s = some { s with active := act } := by
  unfold dropNew
  rw [h.active, h.count]
  simp

mutual
theorem traverse_good : ∀ (x : Stmt) (s : St) (act pend : List Nat), Good s act pend →
    placedStmt (!pend.isEmpty) x = true → ∃ s', traverse x s = some s' ∧ s'.marks = s.marks ++ specStmt act pend x ∧
      Good s' act (next pend x)
  | .skip, s, act, pend, h, _ => ⟨s, by simp [traverse], by simp [specStmt], h⟩
  | .region rs, s, act, pend, h, hp => by
    have hne : rs.isEmpty = false := by simpa [placedStmt] using hp
    have hd : (if s.isNew then dropNew s else some s) = some { s with active := act } := by
      cases hb : s.isNew with
      | true => simpa [hb] using dropNew_good h
      | false =>
        have : pend = [] := by have := h.new; rw [hb] at this; simpa using this.symm
        subst this
        have ha := h.active
        rw [List.append_nil] at ha
        subst ha
        obtain ⟨_, _, _, _⟩ := s
        simp only at hb
        subst hb
        rfl
    refine ⟨{ s with active := act ++ rs, count := rs.length, isNew := true }, ?_, by simp [specStmt], rfl, rfl, ?_⟩
    · simp only [traverse, directive, hd]
    · show true = !(rs.isEmpty)
      rw [hne]; rfl
  | .other c body, s, act, pend, h, hp => by
    simp only [placedStmt, Bool.and_eq_true] at hp
    have hpe : pend = [] := by simpa using hp.1
    subst hpe
    have hb : s.isNew = false := by simpa using h.new
    have ha : s.active = act := by simpa using h.active
    have hg : Good (markCall c s) act [] := by
      cases c with
      | none => exact h
      | some c => exact ⟨h.active, h.count, h.new⟩
    obtain ⟨s', e1, e2, e3⟩ := traverseAll_good body (markCall c s) act [] hg (by simpa using hp.2)
    refine ⟨s', ?_, ?_, e3⟩
    · simp [traverse, unexpected, hb, e1]
    · rw [e2]
      cases c <;> simp [markCall, specStmt, callMarks, ha]
  | .scope l body, s, act, pend, h, hp => by
    have hp' : placedAll false body = true := by simpa [placedStmt] using hp
    by_cases he : s.active = []
    · have ha := h.active
      rw [he] at ha
      obtain ⟨ha1, ha2⟩ := List.append_eq_nil_iff.1 ha.symm
      subst ha1 ha2
      obtain ⟨s', e1, e2, e3⟩ := traverseAll_good body s [] [] h hp'
      refine ⟨s', ?_, ?_, e3⟩
      · simp [traverse, he, e1]
      · rw [e2]
        cases l <;> simp [specStmt, loopMarks]
    · have hg : Good (markLoop l { s with isNew := false, count := 0 }) (act ++ pend) [] := by
        cases l with
        | none => exact ⟨by simpa [markLoop] using h.active, rfl, rfl⟩
        | some l => exact ⟨by simpa [markLoop] using h.active, rfl, rfl⟩
      obtain ⟨s', e1, e2, e3⟩ := traverseAll_good body _ (act ++ pend) [] hg hp'
      have hi : s.active.isEmpty = false := by simpa using he
      have hl : ¬ s.active.length < s.count := by rw [h.active, h.count]; simp
      have hr : resize (s.active.length - s.count) s'.active = some act := by
        have := e3.active
        rw [List.append_nil] at this
        rw [this, h.active, h.count]
        simp [resize]
      refine ⟨{ s' with active := act }, ?_, ?_, ?_⟩
      · simp only [traverse, hi, if_neg hl, e1, hr]
        rfl
      · show s'.marks = _
        rw [e2]
        cases l <;> simp [markLoop, specStmt, loopMarks, h.active]
      · exact ⟨by simp [next], e3.count, e3.new⟩

theorem traverseAll_good : ∀ (xs : List Stmt) (s : St) (act pend : List Nat), Good s act pend →
    placedAll (!pend.isEmpty) xs = true → ∃ s', traverseAll xs s = some s' ∧ s'.marks = s.marks ++ specAll act pend xs ∧
      Good s' act []
  | [], s, act, pend, h, hp => by
    have : pend = [] := by simpa [placedAll] using hp
    subst this
    exact ⟨s, by simp [traverseAll], by simp [specAll], h⟩
  | x :: xs, s, act, pend, h, hp => by
    obtain ⟨hp1, hp2⟩ := placedAll_cons hp
    obtain ⟨s1, e1, m1, g1⟩ := traverse_good x s act pend h hp1
    obtain ⟨s2, e2, m2, g2⟩ := traverseAll_good xs s1 act (next pend x) g1 hp2
    refine ⟨s2, by simp [traverseAll, e1, e2], ?_, g2⟩
    rw [m2, m1, specAll_cons, List.append_assoc]
end

/-- **A loop or a call is marked for optimization if and only if it is inside a compound statement or a loop which follows
the directive**: the list of marks is equal to the specification if each directive is followed by a compound statement or a
loop. The full statement has no such hypothesis: other directives must be ignored, see `misplaced_fails` and
`crash_fails`. -/
theorem collect_partial {body : List Stmt} (h : placedAll false body = true) :
    collect body = some (specAll [] [] body) := by
  obtain ⟨s', e1, e2, _⟩ := traverseAll_good body ⟨[], false, 0, []⟩ [] [] ⟨rfl, rfl, rfl⟩ (by simpa using h)
  simp [collect, e1, e2]

/-- `#pragma spf region name(1)  { f0(); #pragma spf region name(2)  for (l5) { f1(); }  f2(); }  f3();` -/
def sample : List Stmt :=
  [.region [1], .scope none [.other (some 0) [], .region [2], .scope (some 5) [.other (some 1) []], .other (some 2) []],
    .other (some 3) []]

example : placedAll false sample = true ∧ specAll [] [] sample =
    [.call 1 0, .loop 1 5, .loop 2 5, .call 1 1, .call 2 1, .call 1 2] := by
  constructor <;> simp [sample, placedAll, placedStmt, specAll, specStmt, callMarks, loopMarks]

/-- A directive is not followed by a loop: `#pragma spf region name(1)  { #pragma spf region name(2)  x = 1;
for (l5) {}  for (l6) {} }`. The second loop is not in the region 1 although it must be. -/
theorem misplaced_fails : ∃ body : List Stmt, specAll [] [] body = [.loop 1 5, .loop 1 6] ∧
    collect body = some [.loop 1 5] := by
  refine ⟨[.region [1], .scope none [.region [2], .other none [], .scope (some 5) [], .scope (some 6) []]], ?_, ?_⟩
  · simp [specAll, specStmt, callMarks, loopMarks]
  · simp [collect, traverseAll, traverse, directive, unexpected, dropNew, markCall, markLoop, resize]

/-- A directive with two regions at the end of a block inside another region, an ordinary statement follows the block: the
analyzer crashes. -/
theorem crash_fails : ∃ body : List Stmt, specAll [] [] body = [.loop 1 5] ∧ collect body = none := by
  refine ⟨[.region [1], .scope none [.scope none [.region [2, 3]], .other none [], .scope (some 5) []]], ?_, ?_⟩
  · simp [specAll, specStmt, callMarks, loopMarks]
  · simp [collect, traverseAll, traverse, directive, unexpected, dropNew, markCall, markLoop, resize]

/-! ### Propagation to callees -/

/-- A function is in a region. -/
def Inside (r : Region) (f : Nat) : Prop := (r f).inside = true

theorem markCallee_inside (g : Nat) (r : Region) (f : Nat) : Inside (markCallee g r) f ↔ f = g ∨ Inside r f := by
  unfold Inside markCallee
  by_cases h : f = g
  · subst h
    simp only [if_true, true_or, iff_true]
    split <;> rfl
  · simp [h]

theorem markCallees_inside (gs : List Nat) (r : Region) (f : Nat) :
    Inside (markCallees gs r) f ↔ f ∈ gs ∨ Inside r f := by
  induction gs generalizing r with
  | nil => simp [markCallees]
  | cons g gs ih =>
    have : markCallees (g :: gs) r = markCallees gs (markCallee g r) := rfl
    rw [this, ih, markCallee_inside]
    simp only [List.mem_cons]
    constructor
    · rintro (h | h | h) <;> simp [h]
    · rintro ((h | h) | h) <;> simp [h]

theorem markChild_inside (g : Nat) (r : Region) (f : Nat) : Inside (markChild g r) f ↔ Inside r f := by
  unfold Inside markChild
  split
  · rename_i h
    simp only [Bool.and_eq_true, decide_eq_true_eq, beq_iff_eq] at h
    rw [h.2]
    simp [Status.inside]
  · rfl

theorem markChild_ne (g : Nat) (r : Region) : (markChild g r) g ≠ .no := by
  unfold markChild
  split
  · simp
  · rename_i h
    simpa using h

/-- Calls which are marked by directives. -/
def Seed (m : Module) (f g : Nat) : Prop := g ∈ m.marked f ∨ (m.hasLoop f = true ∧ g ∈ m.inLoop f)

/-- Facts about the first stage. -/
theorem first_facts (m : Module) (hsub : ∀ f g, g ∈ m.inLoop f → g ∈ m.calls f)
    (hch : ∀ f, m.hasLoop f = false → m.inLoop f = []) : ∀ (fs : List Nat) (r : Region) (b : Bool),
    (∀ g, Inside r g → Inside (first m fs (r, b)).1 g) ∧
    (∀ f ∈ fs, ∀ g, Seed m f g → Inside (first m fs (r, b)).1 g) ∧
    (∀ g, Inside (first m fs (r, b)).1 g → Inside r g ∨ (∃ f ∈ fs, Seed m f g) ∨
      ((first m fs (r, b)).2 = true ∧ ∃ f ∈ fs, g ∈ m.calls f)) ∧
    (b = true → (first m fs (r, b)).2 = true) ∧
    ((first m fs (r, b)).2 = true → b = true ∨ ∃ f ∈ fs, Inside r f ∨ ∃ f' ∈ fs, Seed m f' f)
  | [], r, b => by
    refine ⟨fun g h => h, fun f hf => (by cases hf), fun g h => Or.inl h, fun h => h, fun h => Or.inl h⟩
  | f :: fs, r, b => by
    have hr1 : ∀ g, Inside (if m.hasLoop f then markChild f (markCallees (m.marked f) r) else markCallees (m.marked f) r) g ↔
        g ∈ m.marked f ∨ Inside r g := by
      intro g
      split
      · rw [markChild_inside, markCallees_inside]
      · rw [markCallees_inside]
    generalize hR : (if m.hasLoop f then markChild f (markCallees (m.marked f) r) else markCallees (m.marked f) r) = R at hr1
    have hstep : first m (f :: fs) (r, b) = (match R f with
        | .always => first m fs (markCallees (m.calls f) R, true)
        | .condition => first m fs (markCallees (m.calls f) R, true)
        | .child => first m fs (markCallees (m.inLoop f) R, b)
        | .no => first m fs (R, b)) := by
      show (match (if m.hasLoop f then markChild f (markCallees (m.marked f) r) else markCallees (m.marked f) r) f with
        | .always => _ | .condition => _ | .child => _ | .no => _) = _
      rw [hR]
    have hin : (R f).inside = true → (match R f with
        | .always => first m fs (markCallees (m.calls f) R, true)
        | .condition => first m fs (markCallees (m.calls f) R, true)
        | .child => first m fs (markCallees (m.inLoop f) R, b)
        | .no => first m fs (R, b)) = first m fs (markCallees (m.calls f) R, true) := by
      cases R f <;> simp [Status.inside]
    by_cases hI : (R f).inside = true
    · rw [hstep, hin hI]
      obtain ⟨h1, h2, h3, h4, h5⟩ := first_facts m hsub hch fs (markCallees (m.calls f) R) true
      have ht := h4 rfl
      refine ⟨?_, ?_, ?_, fun _ => ht, fun _ => Or.inr ⟨f, List.mem_cons_self .., ?_⟩⟩
      · intro g hg
        exact h1 g ((markCallees_inside _ _ _).2 (Or.inr ((hr1 g).2 (Or.inr hg))))
      · intro f' hf' g hs
        rcases List.mem_cons.1 hf' with hx | hx
        · subst hx
          apply h1
          rw [markCallees_inside]
          rcases hs with hs | ⟨_, hs⟩
          · exact Or.inr ((hr1 g).2 (Or.inl hs))
          · exact Or.inl (hsub _ _ hs)
        · exact h2 f' hx g hs
      · intro g hg
        rcases h3 g hg with hx | ⟨f', hf', hs⟩ | ⟨_, f', hf', hc⟩
        · rw [markCallees_inside, hr1] at hx
          rcases hx with hx | hx | hx
          · exact Or.inr (Or.inr ⟨ht, f, List.mem_cons_self .., hx⟩)
          · exact Or.inr (Or.inl ⟨f, List.mem_cons_self .., Or.inl hx⟩)
          · exact Or.inl hx
        · exact Or.inr (Or.inl ⟨f', List.mem_cons_of_mem _ hf', hs⟩)
        · exact Or.inr (Or.inr ⟨ht, f', List.mem_cons_of_mem _ hf', hc⟩)
      · rcases (hr1 f).1 hI with hx | hx
        · exact Or.inr ⟨f, List.mem_cons_self .., Or.inl hx⟩
        · exact Or.inl hx
    · have hgen : ∃ R', first m (f :: fs) (r, b) = first m fs (R', b) ∧
          (∀ g, Inside R' g ↔ Inside r g ∨ Seed m f g) := by
        rw [hstep]
        cases hv : R f with
        | always => rw [hv] at hI; exact absurd rfl hI
        | condition => rw [hv] at hI; exact absurd rfl hI
        | child =>
          refine ⟨_, rfl, ?_⟩
          intro g
          rw [markCallees_inside, hr1]
          constructor
          · rintro (h | h | h)
            · right; right
              cases hl : m.hasLoop f with
              | true => exact ⟨rfl, h⟩
              | false => rw [hch f hl] at h; cases h
            · exact Or.inr (Or.inl h)
            · exact Or.inl h
          · rintro (h | h | ⟨_, h⟩)
            · exact Or.inr (Or.inr h)
            · exact Or.inr (Or.inl h)
            · exact Or.inl h
        | no =>
          refine ⟨_, rfl, ?_⟩
          have hl : m.hasLoop f = false := by
            cases hl : m.hasLoop f with
            | false => rfl
            | true =>
              rw [hl] at hR
              simp only [if_true] at hR
              rw [← hR] at hv
              exact absurd hv (markChild_ne _ _)
          intro g
          rw [hr1]
          constructor
          · rintro (h | h)
            · exact Or.inr (Or.inl h)
            · exact Or.inl h
          · rintro (h | h | ⟨h', _⟩)
            · exact Or.inr h
            · exact Or.inl h
            · rw [hl] at h'; cases h'
      obtain ⟨R', e, hR'⟩ := hgen
      rw [e]
      obtain ⟨h1, h2, h3, h4, h5⟩ := first_facts m hsub hch fs R' b
      refine ⟨fun g hg => h1 g ((hR' g).2 (Or.inl hg)), ?_, ?_, h4, ?_⟩
      · intro f' hf' g hs
        rcases List.mem_cons.1 hf' with hx | hx
        · subst hx
          exact h1 g ((hR' g).2 (Or.inr hs))
        · exact h2 f' hx g hs
      · intro g hg
        rcases h3 g hg with hx | ⟨f', hf', hs⟩ | ⟨ht, f', hf', hc⟩
        · rcases (hR' g).1 hx with hy | hy
          · exact Or.inl hy
          · exact Or.inr (Or.inl ⟨f, List.mem_cons_self .., hy⟩)
        · exact Or.inr (Or.inl ⟨f', List.mem_cons_of_mem _ hf', hs⟩)
        · exact Or.inr (Or.inr ⟨ht, f', List.mem_cons_of_mem _ hf', hc⟩)
      · intro ht
        rcases h5 ht with hx | ⟨f', hf', hx | ⟨f1, hf1, hx⟩⟩
        · exact Or.inl hx
        · rcases (hR' f').1 hx with hy | hy
          · exact Or.inr ⟨f', List.mem_cons_of_mem _ hf', Or.inl hy⟩
          · exact Or.inr ⟨f', List.mem_cons_of_mem _ hf', Or.inr ⟨f, List.mem_cons_self .., hy⟩⟩
        · exact Or.inr ⟨f', List.mem_cons_of_mem _ hf', Or.inr ⟨f1, List.mem_cons_of_mem _ hf1, hx⟩⟩

/-- Facts about an iteration of the second stage. -/
theorem second_facts (m : Module) : ∀ (fs : List Nat) (r : Region) (b : Bool),
    (∀ g, Inside r g → Inside (second m fs (r, b)).1 g) ∧
    (∀ g, Inside (second m fs (r, b)).1 g → Inside r g ∨
      ((second m fs (r, b)).2 = true ∧ ∃ f ∈ fs, g ∈ m.calls f)) ∧
    (b = true → (second m fs (r, b)).2 = true) ∧
    ((second m fs (r, b)).2 = true → b = true ∨ ∃ f ∈ fs, Inside r f) ∧
    (∀ f ∈ fs, Inside (second m fs (r, b)).1 f → (second m fs (r, b)).2 = true)
  | [], r, b => ⟨fun g h => h, fun g h => Or.inl h, fun h => h, fun h => Or.inl h, fun f hf => (by cases hf)⟩
  | f :: fs, r, b => by
    by_cases hI : (r f).inside = true
    · have e : second m (f :: fs) (r, b) = second m fs (markCallees (m.calls f) r, true) := by simp [second, hI]
      rw [e]
      obtain ⟨h1, h2, h3, h4, h5⟩ := second_facts m fs (markCallees (m.calls f) r) true
      have ht := h3 rfl
      refine ⟨fun g hg => h1 g ((markCallees_inside _ _ _).2 (Or.inr hg)), ?_, fun _ => ht,
        fun _ => Or.inr ⟨f, List.mem_cons_self .., hI⟩, fun _ _ _ => ht⟩
      intro g hg
      rcases h2 g hg with hx | ⟨_, f', hf', hc⟩
      · rcases (markCallees_inside _ _ _).1 hx with hy | hy
        · exact Or.inr ⟨ht, f, List.mem_cons_self .., hy⟩
        · exact Or.inl hy
      · exact Or.inr ⟨ht, f', List.mem_cons_of_mem _ hf', hc⟩
    · have e : second m (f :: fs) (r, b) = second m fs (r, b) := by simp [second, hI]
      rw [e]
      obtain ⟨h1, h2, h3, h4, h5⟩ := second_facts m fs r b
      refine ⟨h1, ?_, h3, ?_, ?_⟩
      · intro g hg
        rcases h2 g hg with hx | ⟨ht, f', hf', hc⟩
        · exact Or.inl hx
        · exact Or.inr ⟨ht, f', List.mem_cons_of_mem _ hf', hc⟩
      · intro ht
        rcases h4 ht with hx | ⟨f', hf', hx⟩
        · exact Or.inl hx
        · exact Or.inr ⟨f', List.mem_cons_of_mem _ hf', hx⟩
      · intro f' hf' hg
        rcases List.mem_cons.1 hf' with hx | hx
        · subst hx
          rcases h2 f' hg with hy | ⟨ht, _⟩
          · exact absurd hy hI
          · exact ht
        · exact h5 f' hx hg

theorem repeat_facts (m : Module) (fs : List Nat) : ∀ (n : Nat) (s : Region × Bool),
    (∀ g, Inside s.1 g → Inside (repeatSecond m fs n s).1 g) ∧
    (∀ g, Inside (repeatSecond m fs n s).1 g → Inside s.1 g ∨
      ((repeatSecond m fs n s).2 = true ∧ ∃ f ∈ fs, g ∈ m.calls f)) ∧
    (s.2 = true → (repeatSecond m fs n s).2 = true) ∧
    ((repeatSecond m fs n s).2 = true → s.2 = true ∨ ∃ f ∈ fs, Inside s.1 f) ∧
    (∀ f ∈ fs, Inside (repeatSecond m fs n s).1 f → (repeatSecond m fs n s).2 = true)
  | 0, s => second_facts m fs s.1 s.2
  | n + 1, s => by
    obtain ⟨h1, h2, h3, h4, h5⟩ := second_facts m fs s.1 s.2
    obtain ⟨k1, k2, k3, k4, k5⟩ := repeat_facts m fs n (second m fs s)
    have e : repeatSecond m fs (n + 1) s = repeatSecond m fs n (second m fs s) := rfl
    rw [e]
    refine ⟨fun g hg => k1 g (h1 g hg), ?_, fun h => k3 (h3 h), ?_, k5⟩
    · intro g hg
      rcases k2 g hg with hx | hx
      · rcases h2 g hx with hy | ⟨ht, hy⟩
        · exact Or.inl hy
        · exact Or.inr ⟨k3 ht, hy⟩
      · exact Or.inr hx
    · intro ht
      rcases k4 ht with hx | ⟨f, hf, hx⟩
      · exact h4 hx
      · rcases h2 f hx with hy | ⟨hy, _⟩
        · exact Or.inr ⟨f, hf, hy⟩
        · exact h4 hy

theorem fold_inside (m : Module) : ∀ (fs : List Nat) (r : Region) (g : Nat),
    Inside (fs.foldl (fun r f => markCallees (m.calls f) r) r) g ↔ (∃ f ∈ fs, g ∈ m.calls f) ∨ Inside r g
  | [], r, g => by simp
  | f :: fs, r, g => by
    rw [List.foldl_cons, fold_inside m fs, markCallees_inside]
    simp only [List.mem_cons, exists_eq_or_imp]
    constructor
    · rintro (h | h | h) <;> simp [h]
    · rintro ((h | h) | h) <;> simp [h]

/-- A module is consistent: calls which are marked by directives are calls of a function. -/
structure Valid (m : Module) : Prop where
  marked : ∀ f g, g ∈ m.marked f → g ∈ m.calls f
  inLoop : ∀ f g, g ∈ m.inLoop f → g ∈ m.calls f
  child : ∀ f, m.hasLoop f = false → m.inLoop f = []

theorem component_facts {m : Module} (hv : Valid m) (n : Nat) (fs : List Nat) (r : Region) :
    (∀ g, Inside r g → Inside (component m n fs r) g) ∧
    (∀ f ∈ fs, ∀ g, Seed m f g → Inside (component m n fs r) g) ∧
    (∀ f ∈ fs, ∀ g, Inside (component m n fs r) f → g ∈ m.calls f → Inside (component m n fs r) g) ∧
    (∀ g, Inside (component m n fs r) g → Inside r g ∨ (∃ f ∈ fs, Seed m f g) ∨
      ((∃ f' ∈ fs, Inside r f' ∨ ∃ f1 ∈ fs, Seed m f1 f') ∧ ∃ f ∈ fs, g ∈ m.calls f)) := by
  obtain ⟨a1, a2, a3, a4, a5⟩ := first_facts m hv.inLoop hv.child fs r false
  obtain ⟨b1, b2, b3, b4, b5⟩ := repeat_facts m fs n (first m fs (r, false))
  unfold component
  generalize hs : repeatSecond m fs n (first m fs (r, false)) = s at *
  generalize hq : first m fs (r, false) = q at *
  by_cases ht : s.2 = true
  · have hc : ∀ g, Inside (third m fs s) g ↔ (∃ f ∈ fs, g ∈ m.calls f) ∨ Inside s.1 g := by
      intro g
      unfold third
      rw [if_pos ht, fold_inside]
    refine ⟨fun g hg => (hc g).2 (Or.inr (b1 g (a1 g hg))), fun f hf g hg => (hc g).2 (Or.inr (b1 g (a2 f hf g hg))),
      fun f hf g _ hg => (hc g).2 (Or.inl ⟨f, hf, hg⟩), ?_⟩
    have hq2 : q.2 = true → ∃ f' ∈ fs, Inside r f' ∨ ∃ f1 ∈ fs, Seed m f1 f' := by
      intro hx
      rcases a5 hx with hy | hy
      · cases hy
      · exact hy
    have hw : ∃ f' ∈ fs, Inside r f' ∨ ∃ f1 ∈ fs, Seed m f1 f' := by
      rcases b4 ht with hx | ⟨f', hf', hx⟩
      · exact hq2 hx
      · rcases a3 f' hx with hz | hz | ⟨hz, _⟩
        · exact ⟨f', hf', Or.inl hz⟩
        · exact ⟨f', hf', Or.inr hz⟩
        · exact hq2 hz
    intro g hg
    rcases (hc g).1 hg with hx | hx
    · exact Or.inr (Or.inr ⟨hw, hx⟩)
    · rcases b2 g hx with hy | ⟨_, hy⟩
      · rcases a3 g hy with hz | hz | ⟨_, hz⟩
        · exact Or.inl hz
        · exact Or.inr (Or.inl hz)
        · exact Or.inr (Or.inr ⟨hw, hz⟩)
      · exact Or.inr (Or.inr ⟨hw, hy⟩)
  · have hc : third m fs s = s.1 := by
      unfold third
      rw [if_neg ht]
    rw [hc]
    refine ⟨fun g hg => b1 g (a1 g hg), fun f hf g hg => b1 g (a2 f hf g hg),
      fun f hf g hg _ => absurd (b5 f hf hg) ht, ?_⟩
    intro g hg
    rcases b2 g hg with hy | ⟨hy, _⟩
    · rcases a3 g hy with hz | hz | ⟨hz, _⟩
      · exact Or.inl hz
      · exact Or.inr (Or.inl hz)
      · exact absurd (b3 hz) ht
    · exact absurd hy ht

/-- Components are processed top-down: a function is not called from components which are processed later. -/
def TopDown (m : Module) (cs : List (Nat × List Nat)) : Prop :=
  cs.Pairwise fun c c' => ∀ f ∈ c.2, ∀ f' ∈ c'.2, f ∉ m.calls f'

theorem propagate_mono {m : Module} (hv : Valid m) : ∀ (cs : List (Nat × List Nat)) (r : Region) (g : Nat),
    Inside r g → Inside (propagate m cs r) g
  | [], _, _, h => h
  | (n, fs) :: cs, r, g, h => propagate_mono hv cs _ g ((component_facts hv n fs r).1 g h)

/-- A function which is not called from remaining components is not affected. -/
theorem propagate_stable {m : Module} (hv : Valid m) : ∀ (cs : List (Nat × List Nat)) (r : Region) (g : Nat),
    (∀ c ∈ cs, ∀ f ∈ c.2, g ∉ m.calls f) → Inside (propagate m cs r) g → Inside r g
  | [], _, _, _, h => h
  | (n, fs) :: cs, r, g, hn, h => by
    have h1 := propagate_stable hv cs (component m n fs r) g (fun c hc => hn c (List.mem_cons_of_mem _ hc)) h
    have hn0 : ∀ f ∈ fs, g ∉ m.calls f := hn (n, fs) (List.mem_cons_self ..)
    rcases (component_facts hv n fs r).2.2.2 g h1 with hx | ⟨f, hf, hs⟩ | ⟨_, f, hf, hc⟩
    · exact hx
    · rcases hs with hs | ⟨_, hs⟩
      · exact absurd (hv.marked _ _ hs) (hn0 f hf)
      · exact absurd (hv.inLoop _ _ hs) (hn0 f hf)
    · exact absurd hc (hn0 f hf)

theorem propagate_closed {m : Module} (hv : Valid m) : ∀ (cs : List (Nat × List Nat)) (r : Region), TopDown m cs →
    ∀ c ∈ cs, ∀ f ∈ c.2, (∀ g, Seed m f g → Inside (propagate m cs r) g) ∧
      (∀ g, Inside (propagate m cs r) f → g ∈ m.calls f → Inside (propagate m cs r) g)
  | [], _, _, c, hc, _, _ => by cases hc
  | (n, fs) :: cs, r, hT, c, hc, f, hf => by
    obtain ⟨hT1, hT2⟩ := List.pairwise_cons.1 hT
    rcases List.mem_cons.1 hc with hx | hx
    · subst hx
      obtain ⟨c1, c2, c3, _⟩ := component_facts hv n fs r
      refine ⟨fun g hg => propagate_mono hv cs _ g (c2 f hf g hg), ?_⟩
      intro g hI hg
      have hI' := propagate_stable hv cs (component m n fs r) f (fun c' hc' f' hf' => hT1 c' hc' f hf f' hf') hI
      exact propagate_mono hv cs _ g (c3 f hf g hI' hg)
    · exact propagate_closed hv cs (component m n fs r) hT2 c hx f hf

/-- Functions which are analyzed: they have bodies and they are not library functions. -/
def Analyzed (cs : List (Nat × List Nat)) (f : Nat) : Prop := ∃ c ∈ cs, f ∈ c.2

/-- A function is called directly or indirectly from a call which is marked by a directive. -/
inductive Reached (m : Module) (cs : List (Nat × List Nat)) : Nat → Prop
  | seed {f g : Nat} : Analyzed cs f → Seed m f g → Reached m cs g
  | call {f g : Nat} : Analyzed cs f → Reached m cs f → g ∈ m.calls f → Reached m cs g

/-- A component is strongly connected. -/
def Strong (m : Module) (cs : List (Nat × List Nat)) : Prop :=
  ∀ c ∈ cs, ∀ f ∈ c.2, ∀ g ∈ c.2, Relation.ReflTransGen (fun a b => a ∈ c.2 ∧ b ∈ m.calls a) f g

theorem reached_trans {m : Module} {cs : List (Nat × List Nat)} {c : Nat × List Nat} (hc : c ∈ cs) {f g : Nat}
    (hf : Reached m cs f) (h : Relation.ReflTransGen (fun a b => a ∈ c.2 ∧ b ∈ m.calls a) f g) : Reached m cs g := by
  induction h with
  | refl => exact hf
  | tail _ h ih => exact Reached.call ⟨c, hc, h.1⟩ ih h.2

theorem propagate_sound {m : Module} (hv : Valid m) {all : List (Nat × List Nat)} (hS : Strong m all) :
    ∀ (cs : List (Nat × List Nat)) (r : Region), (∀ c ∈ cs, c ∈ all) → (∀ g, Inside r g → Reached m all g) →
    ∀ g, Inside (propagate m cs r) g → Reached m all g
  | [], _, _, h, g, hg => h g hg
  | (n, fs) :: cs, r, hin, h, g, hg => by
    refine propagate_sound hv hS cs (component m n fs r) (fun c hc => hin c (List.mem_cons_of_mem _ hc)) ?_ g hg
    have hc0 := hin (n, fs) (List.mem_cons_self ..)
    obtain ⟨_, _, _, c4⟩ := component_facts hv n fs r
    intro g hg
    rcases c4 g hg with hx | ⟨f1, hf1, hs⟩ | ⟨⟨f1, hf1, hI1⟩, f2, hf2, hcall⟩
    · exact h g hx
    · exact Reached.seed ⟨_, hc0, hf1⟩ hs
    · have hr : Reached m all f1 := by
        rcases hI1 with hx | ⟨f3, hf3, hx⟩
        · exact h f1 hx
        · exact Reached.seed ⟨_, hc0, hf3⟩ hx
      exact Reached.call ⟨_, hc0, hf2⟩ (reached_trans hc0 hr (hS _ hc0 f1 hf1 f2 hf2)) hcall

/-- **A function is in a region if and only if it is called, directly or indirectly, from a call which is marked by a
directive.** -/
theorem region_functions {m : Module} {cs : List (Nat × List Nat)} (hv : Valid m) (hT : TopDown m cs) (hS : Strong m cs)
    (g : Nat) : Inside (propagate m cs fun _ => .no) g ↔ Reached m cs g := by
  constructor
  · exact propagate_sound hv hS cs _ (fun c hc => hc) (fun g hg => by cases hg) g
  · intro h
    induction h with
    | seed hf hs =>
      obtain ⟨c, hc, hf⟩ := hf
      exact (propagate_closed hv cs _ hT c hc _ hf).1 _ hs
    | call hf _ hg ih =>
      obtain ⟨c, hc, hf⟩ := hf
      exact (propagate_closed hv cs _ hT c hc _ hf).2 _ ih hg

/-- Function 0 calls functions 1 (inside a directive) and 4, functions 1 and 2 are recursive, 2 calls 3. -/
def sampleModule : Module where
  calls f := if f = 0 then [1, 4] else if f = 1 then [2] else if f = 2 then [1, 3] else []
  marked f := if f = 0 then [1] else []
  hasLoop _ := false
  inLoop _ := []

/-- Its components, the recursive functions are in an arbitrary order. -/
def sampleComponents : List (Nat × List Nat) := [(0, [0]), (1, [2, 1]), (0, [3]), (0, [4])]

example : Valid sampleModule ∧ TopDown sampleModule sampleComponents ∧ Strong sampleModule sampleComponents := by
  refine ⟨⟨?_, ?_, ?_⟩, ?_, ?_⟩
  · intro f g h
    simp only [sampleModule] at h ⊢
    split at h
    · rename_i hf
      simp at h
      simp [hf, h]
    · simp at h
  · intro f g h; cases h
  · intro f _; rfl
  · unfold TopDown sampleComponents
    decide
  · intro c hc f hf g hg
    simp only [sampleComponents, List.mem_cons, List.not_mem_nil, or_false] at hc
    rcases hc with h | h | h | h <;> subst h <;> simp at hf hg
    · subst hf hg; exact .refl
    · have e12 : Relation.ReflTransGen (fun a b => a ∈ [2, 1] ∧ b ∈ sampleModule.calls a) 1 2 :=
        .single (by decide)
      have e21 : Relation.ReflTransGen (fun a b => a ∈ [2, 1] ∧ b ∈ sampleModule.calls a) 2 1 :=
        .single (by decide)
      rcases hf with hf | hf <;> rcases hg with hg | hg <;> subst hf <;> subst hg
      · exact .refl
      · exact e21
      · exact e12
      · exact .refl
    · subst hf hg; exact .refl
    · subst hf hg; exact .refl

/-- Functions 1, 2 and 3 are in the region, functions 0 and 4 are not. -/
example : [0, 1, 2, 3, 4].map (propagate sampleModule sampleComponents fun _ => .no) =
    [.no, .condition, .condition, .condition, .no] := by decide

/-! ### Loops in a region -/

/-- A loop is in a region: its function is in the region or the loop or one of its parents is marked. -/
def LoopInside (ls : Loops) (r : Region) (marked : List Nat) (l : Nat) : Prop :=
  Inside r (ls.func l) ∨ ∃ x ∈ ls.path l, x ∈ marked

/-- Parents of a parent are parents, a loop and its parents are in the same function. -/
structure Nested (ls : Loops) : Prop where
  path : ∀ l x y, x ∈ ls.path l → y ∈ ls.path x → y ∈ ls.path l
  func : ∀ l x, x ∈ ls.path l → ls.func x = ls.func l

theorem containLoop_iff (ls : Loops) (r : Region) (scopes : List Nat) (l : Nat) :
    (containLoop ls r scopes l).1 = true ↔ LoopInside ls r scopes l := by
  unfold containLoop LoopInside Inside
  split
  · rename_i h; simp [h]
  · rename_i h
    split
    · rename_i h2
      simpa [h] using h2
    · rename_i h2
      simp only [Bool.not_eq_true] at h
      simp only [h]
      simpa using h2

theorem queries_inside {ls : Loops} {r : Region} (hN : Nested ls) {marked : List Nat} : ∀ (qs scopes : List Nat),
    (∀ x ∈ marked, x ∈ scopes) → (∀ x ∈ scopes, x ∈ marked ∨ LoopInside ls r marked x) →
    (∀ x ∈ marked, x ∈ queries ls r qs scopes) ∧
      ∀ x ∈ queries ls r qs scopes, x ∈ marked ∨ LoopInside ls r marked x
  | [], scopes, h1, h2 => ⟨h1, h2⟩
  | l :: qs, scopes, h1, h2 => by
    have hstep : (containLoop ls r scopes l).2 = scopes ∨
        ((containLoop ls r scopes l).2 = l :: scopes ∧ LoopInside ls r scopes l) := by
      have := containLoop_iff ls r scopes l
      unfold containLoop at this ⊢
      split
      · rename_i h
        split
        · exact Or.inr ⟨rfl, Or.inl h⟩
        · exact Or.inl rfl
      · rename_i h
        split
        · rename_i h3
          split
          · refine Or.inr ⟨rfl, Or.inr ?_⟩
            simpa using h3
          · exact Or.inl rfl
        · exact Or.inl rfl
    show (∀ x ∈ marked, x ∈ queries ls r qs (containLoop ls r scopes l).2) ∧ _
    refine queries_inside hN qs _ ?_ ?_
    · intro x hx
      rcases hstep with e | ⟨e, _⟩
      · rw [e]; exact h1 x hx
      · rw [e]; exact List.mem_cons_of_mem _ (h1 x hx)
    · intro x hx
      rcases hstep with e | ⟨e, hl⟩
      · rw [e] at hx; exact h2 x hx
      · rw [e] at hx
        rcases List.mem_cons.1 hx with hy | hy
        · subst hy
          right
          rcases hl with hl | ⟨y, hy1, hy2⟩
          · exact Or.inl hl
          · rcases h2 y hy2 with hz | hz | ⟨z, hz1, hz2⟩
            · exact Or.inr ⟨y, hy1, hz⟩
            · exact Or.inl (by rw [← hN.func x y hy1]; exact hz)
            · exact Or.inr ⟨z, hN.path x y z hy1 hz1, hz2⟩
        · exact h2 x hy

/-- **A loop is in a region if and only if its function is in the region or the loop is inside a marked loop**: the answer
does not depend on previous queries. -/
theorem loop_query {ls : Loops} {r : Region} (hN : Nested ls) (marked qs : List Nat) (l : Nat) :
    (containLoop ls r (queries ls r qs marked) l).1 = true ↔ LoopInside ls r marked l := by
  obtain ⟨h1, h2⟩ := queries_inside (r := r) hN qs marked (fun x hx => hx) (fun x hx => Or.inl hx)
  rw [containLoop_iff]
  constructor
  · rintro (h | ⟨y, hy1, hy2⟩)
    · exact Or.inl h
    · rcases h2 y hy2 with hz | hz | ⟨z, hz1, hz2⟩
      · exact Or.inr ⟨y, hy1, hz⟩
      · exact Or.inl (by rw [← hN.func l y hy1]; exact hz)
      · exact Or.inr ⟨z, hN.path l y z hy1 hz1, hz2⟩
  · rintro (h | ⟨y, hy1, hy2⟩)
    · exact Or.inl h
    · exact Or.inr ⟨y, hy1, h1 y hy2⟩

/-- Loop 1 contains loop 2 which contains loop 3, loop 4 is in another function. -/
def sampleLoops : Loops where
  func l := if l = 4 then 1 else 0
  path l := if l = 1 then [1] else if l = 2 then [2, 1] else if l = 3 then [3, 2, 1] else if l = 4 then [4] else []

example : Nested sampleLoops := by
  constructor
  · intro l x y hx hy
    simp only [sampleLoops] at hx hy ⊢
    split_ifs at hx <;> simp at hx <;> rcases hx with h | h | h <;> subst_vars <;> simp_all
  · intro l x hx
    simp only [sampleLoops] at hx ⊢
    split_ifs at hx <;> simp at hx <;> rcases hx with h | h | h <;> subst_vars <;> simp_all

/-- The loop 2 is marked: queries for loops 3 and 1 do not affect each other. -/
example : (containLoop sampleLoops (fun _ => .no) (queries sampleLoops (fun _ => .no) [3] [2]) 1).1 = false ∧
    (containLoop sampleLoops (fun _ => .no) (queries sampleLoops (fun _ => .no) [1] [2]) 3).1 = true := by decide

end Tsar.OptRegion
