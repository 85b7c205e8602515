import Verif.StructRepl.Model
import Mathlib.Algebra.Order.BigOperators.Group.List
import Mathlib.Tactic.Linarith

/-!
# Members which are used in called functions: property C137

Models `fillReplacementMembersFromCallees()`.
-/

namespace Tsar.StructRepl

/-- A function. -/
abbrev Fn := Nat

/-- Candidates of all functions (`mReplacementInfo`). -/
abbrev World := Fn → Cands

def setW (s : World) (f : Fn) (v : Var) (l : List Repl) : World := fun g => if g = f then put (s g) v l else s g

/-- An action in a loop of `fillReplacementMembersFromCallees()` (StructureReplacement.cpp:1610-1692).
`mark f v m`: a candidate `v` of `f` is passed to an explicitly requested call which expects an array of members `m`.
`link f v g w`: a candidate `v` of `f` is an argument of a call of `g` which corresponds to a parameter `w`, it does not
depend on a state which variable is mentioned in the argument (`getCandidate`). -/
inductive Act
  | mark (f : Fn) (v : Var) (m : Field)
  | link (f : Fn) (v : Var) (g : Fn) (w : Var)
  deriving DecidableEq, Repr

/-- Update of flags of a member which is found by `find_if` (StructureReplacement.cpp:1664-1679). -/
def orFirst (f : Field) (a b : Bool) : List Repl → List Repl
  | [] => []
  | r :: rs => if r.field = f then { r with asg := r.asg || a, arr := r.arr || b } :: rs else r :: orFirst f a b rs

/-- Update of members of a caller with a member of a callee (StructureReplacement.cpp:1663-1687). The second component
is `IsChanged`. -/
def mergeR (rec : Bool) (l : List Repl) (r : Repl) : List Repl × Bool :=
  match l.find? (fun x => x.field = r.field) with
  | some x =>
    if rec then (l, false)
    else
      (orFirst r.field r.asg r.arr l, (!x.asg && r.asg) || (!x.arr && r.arr))
  | none => (l ++ [⟨r.field, if rec then false else r.asg, r.arr⟩], true)

/-- Update of members of a caller (StructureReplacement.cpp:1662-1688). -/
def mergeAll (rec : Bool) (l : List Repl) : List Repl → List Repl × Bool
  | [] => (l, false)
  | r :: rs =>
    let a := mergeR rec l r
    let b := mergeAll rec a.1 rs
    (b.1, a.2 || b.2)

/-- A single action (StructureReplacement.cpp:1620-1690). -/
def act (isRec : Fn → Var → Bool) (s : World) : Act → World × Bool
  | .mark f v m =>
    match s f v with
    | some l => (setW s f v (l.map (fun r => if r.field = m then { r with arr := true } else r)), false)
    | none => (s, false)
  | .link f v g w =>
    match s f v, s g w with
    | some l, some k =>
      let r := mergeAll (isRec f v) l k
      (setW s f v r.1, r.2)
    | _, _ => (s, false)

/-- A body of a loop over functions (StructureReplacement.cpp:1615-1691). -/
def pass (isRec : Fn → Var → Bool) : List Act → World → World × Bool
  | [], s => (s, false)
  | a :: as, s =>
    let x := act isRec s a
    let y := pass isRec as x.1
    (y.1, x.2 || y.2)

/-- States after a number of passes. -/
def passes (isRec : Fn → Var → Bool) (as : List Act) : Nat → World → World
  | 0, s => s
  | n + 1, s => passes isRec as n (pass isRec as s).1

/-- Specification: members of a parameter are members of an argument, and flags are not lost. -/
def Covers (rec : Bool) (l k : List Repl) : Prop :=
  ∀ r ∈ k, ∃ x, l.find? (fun x => x.field = r.field) = some x ∧
    (rec = false → (r.asg = true → x.asg = true) ∧ (r.arr = true → x.arr = true))

/-- Specification: all arguments are covered. -/
def Closed (isRec : Fn → Var → Bool) (as : List Act) (s : World) : Prop :=
  ∀ f v g w l k, Act.link f v g w ∈ as → s f v = some l → s g w = some k → Covers (isRec f v) l k

/-! ### Lists of members -/

/-- Members and flags are not lost. -/
def Sub (l l' : List Repl) : Prop :=
  ∀ f x, l.find? (fun r => r.field = f) = some x → ∃ y, l'.find? (fun r => r.field = f) = some y ∧
    (x.asg = true → y.asg = true) ∧ (x.arr = true → y.arr = true)

theorem Sub.refl (l : List Repl) : Sub l l := fun _ x h => ⟨x, h, id, id⟩

theorem Sub.trans {a b c : List Repl} (h : Sub a b) (h' : Sub b c) : Sub a c := by
  intro f x hx
  obtain ⟨y, h1, h2, h3⟩ := h f x hx
  obtain ⟨z, k1, k2, k3⟩ := h' f y h1
  exact ⟨z, k1, k2 ∘ h2, k3 ∘ h3⟩

theorem covers_sub {rec : Bool} {l l' k : List Repl} (h : Covers rec l k) (hs : Sub l l') : Covers rec l' k := by
  intro r hr
  obtain ⟨x, h1, h2⟩ := h r hr
  obtain ⟨y, k1, k2, k3⟩ := hs _ x h1
  exact ⟨y, k1, fun hh => ⟨fun e => k2 ((h2 hh).1 e), fun e => k3 ((h2 hh).2 e)⟩⟩

theorem find_map (l : List Repl) (u : Repl → Repl) (hu : ∀ r, (u r).field = r.field) (f : Field) :
    (l.map u).find? (fun r => r.field = f) = (l.find? (fun r => r.field = f)).map u := by
  rw [List.find?_map]
  congr 2
  funext r
  simp [Function.comp, hu]

theorem find_field {l : List Repl} {f : Field} {x : Repl} (h : l.find? (fun r => r.field = f) = some x) :
    x.field = f := by simpa using List.find?_some h

theorem find_orFirst (f : Field) (a b : Bool) (g : Field) : ∀ l : List Repl,
    (orFirst f a b l).find? (fun r => r.field = g) =
      if g = f then (l.find? (fun r => r.field = f)).map (fun r => { r with asg := r.asg || a, arr := r.arr || b })
      else l.find? (fun r => r.field = g)
  | [] => by simp [orFirst]
  | r :: rs => by
    have ih := find_orFirst f a b g rs
    simp only [orFirst]
    by_cases h : r.field = f
    · by_cases hg : g = f
      · subst hg; simp [h]
      · have : ¬ f = g := fun e => hg e.symm
        simp [h, hg, this]
    · simp only [h, if_false, List.find?_cons]
      by_cases hg : r.field = g
      · have : ¬ g = f := fun e => h (hg.trans e)
        simp [hg, this]
      · simp only [hg, decide_false, h]
        exact ih

theorem merge_sub (rec : Bool) (l : List Repl) (r : Repl) : Sub l (mergeR rec l r).1 := by
  unfold mergeR
  split
  · next x hx =>
    split_ifs
    · exact Sub.refl l
    · intro f y hy
      simp only [find_orFirst]
      split_ifs with e
      · subst e
        rw [hy]
        exact ⟨_, rfl, fun h => by simp [h], fun h => by simp [h]⟩
      · exact ⟨y, hy, id, id⟩
  · intro f y hy
    exact ⟨y, by simp [List.find?_append, hy], id, id⟩

theorem merge_has (rec : Bool) (l : List Repl) (r : Repl) : Covers rec (mergeR rec l r).1 [r] := by
  intro r' hr'
  simp only [List.mem_singleton] at hr'
  subst hr'
  unfold mergeR
  split
  · next x hx =>
    split_ifs with h
    · exact ⟨x, hx, fun h' => by simp [h] at h'⟩
    · simp only [find_orFirst, if_true]
      rw [hx]
      exact ⟨_, rfl, fun _ => ⟨fun e => by simp [e], fun e => by simp [e]⟩⟩
  · next hx =>
    refine ⟨⟨r'.field, if rec then false else r'.asg, r'.arr⟩, by simp [List.find?_append, hx], fun h => ?_⟩
    exact ⟨fun e => by simp [h, e], id⟩

theorem mergeAll_sub (rec : Bool) : ∀ (k l : List Repl), Sub l (mergeAll rec l k).1
  | [], l => Sub.refl l
  | r :: k, l => (merge_sub rec l r).trans (mergeAll_sub rec k _)

theorem mergeAll_covers (rec : Bool) : ∀ (k l : List Repl), Covers rec (mergeAll rec l k).1 k
  | [], _ => fun r h => by simp at h
  | r :: k, l => by
    intro r' hr'
    rcases List.mem_cons.mp hr' with rfl | h
    · exact covers_sub (merge_has rec l r') (mergeAll_sub rec k _) r' (by simp)
    · exact mergeAll_covers rec k _ r' h

/-! ### A single pass -/

/-- Nothing is lost and there are the same candidates. -/
def SubW (s s' : World) : Prop :=
  ∀ f v, (s f v = none → s' f v = none) ∧ ∀ l, s f v = some l → ∃ l', s' f v = some l' ∧ Sub l l'

theorem SubW.refl (s : World) : SubW s s := fun _ _ => ⟨id, fun l h => ⟨l, h, Sub.refl l⟩⟩

theorem SubW.trans {a b c : World} (h : SubW a b) (h' : SubW b c) : SubW a c := by
  intro f v
  refine ⟨fun e => (h' f v).1 ((h f v).1 e), fun l hl => ?_⟩
  obtain ⟨l', h1, h2⟩ := (h f v).2 l hl
  obtain ⟨l2, h3, h4⟩ := (h' f v).2 l' h1
  exact ⟨l2, h3, h2.trans h4⟩

theorem setW_same (s : World) (f : Fn) (v : Var) (l : List Repl) : setW s f v l f v = some l := by simp [setW, put]

theorem setW_other (s : World) {f g : Fn} {v w : Var} (l : List Repl) (h : ¬ (g = f ∧ w = v)) :
    setW s f v l g w = s g w := by
  simp only [setW]
  split_ifs with h1
  · simp only [put]
    rw [if_neg (fun h2 => h ⟨h1, h2⟩)]
  · rfl

theorem subW_set {s : World} {f : Fn} {v : Var} {l l' : List Repl} (h : s f v = some l) (hs : Sub l l') :
    SubW s (setW s f v l') := by
  intro g w
  by_cases e : g = f ∧ w = v
  · obtain ⟨rfl, rfl⟩ := e
    refine ⟨fun hn => (by rw [hn] at h; cases h), fun k hk => ⟨l', setW_same _ _ _ _, ?_⟩⟩
    rw [h, Option.some.injEq] at hk
    exact hk ▸ hs
  · rw [setW_other s l' e]
    exact ⟨id, fun k hk => ⟨k, hk, Sub.refl k⟩⟩

theorem sub_mark (l : List Repl) (m : Field) :
    Sub l (l.map (fun r => if r.field = m then { r with arr := true } else r)) := by
  intro f x hx
  rw [find_map _ _ (fun r => by split_ifs <;> rfl), hx]
  refine ⟨_, rfl, ?_, ?_⟩ <;> dsimp only <;> split_ifs <;> simp

theorem act_sub (isRec : Fn → Var → Bool) (s : World) (a : Act) : SubW s (act isRec s a).1 := by
  cases a with
  | mark f v m =>
    simp only [act]
    split
    · next l h => exact subW_set h (sub_mark l m)
    · exact SubW.refl s
  | link f v g w =>
    simp only [act]
    split
    · next l k h _ => exact subW_set h (mergeAll_sub _ k l)
    · exact SubW.refl s

theorem pass_sub (isRec : Fn → Var → Bool) : ∀ (as : List Act) (s : World), SubW s (pass isRec as s).1
  | [], s => SubW.refl s
  | a :: as, s => (act_sub isRec s a).trans (pass_sub isRec as _)

/-- The caller of an action. -/
def Act.caller : Act → Fn
  | .mark f _ _ => f
  | .link f _ _ _ => f

theorem act_frame (isRec : Fn → Var → Bool) (s : World) (a : Act) (g : Fn) (h : g ≠ a.caller) (w : Var) :
    (act isRec s a).1 g w = s g w := by
  cases a with
  | mark f v m =>
    simp only [act]
    split
    · exact setW_other s _ (fun e => h e.1)
    · rfl
  | link f v g' w' =>
    simp only [act]
    split
    · exact setW_other s _ (fun e => h e.1)
    · rfl

theorem pass_frame (isRec : Fn → Var → Bool) (g : Fn) (w : Var) : ∀ (as : List Act) (s : World),
    (∀ a ∈ as, g ≠ a.caller) → (pass isRec as s).1 g w = s g w
  | [], _, _ => rfl
  | a :: as, s, h => by
    simp only [pass]
    rw [pass_frame isRec g w as _ (fun b hb => h b (by simp [hb])), act_frame isRec s a g (h a (by simp))]

/-- If a function does not call itself, directly or not, then a single pass is enough. -/
theorem fill_once (isRec : Fn → Var → Bool) (f : Fn) : ∀ (as : List Act) (s : World), (∀ a ∈ as, a.caller = f) →
    (∀ v g w, Act.link f v g w ∈ as → g ≠ f) → Closed isRec as (pass isRec as s).1
  | [], _, _, _ => fun _ _ _ _ _ _ h => by simp at h
  | a :: as, s, hc, hl => by
    intro f' v g w l k hm h1 h2
    have ih := fill_once isRec f as (act isRec s a).1 (fun b hb => hc b (by simp [hb]))
      (fun v g w h => hl v g w (by simp [h]))
    rcases List.mem_cons.mp hm with e | hm
    · subst e
      have hf : f' = f := hc (.link f' v g w) (by simp)
      subst hf
      have hg := hl v g w (by simp)
      have hk : s g w = some k := by
        have := pass_frame isRec g w (.link f' v g w :: as) s (fun a ha => by rw [hc a ha]; exact hg)
        rw [this] at h2
        exact h2
      have hfr : ∃ l0, s f' v = some l0 := by
        cases hs : s f' v with
        | none =>
          have := (pass_sub isRec (.link f' v g w :: as) s f' v).1 hs
          rw [this] at h1; cases h1
        | some l0 => exact ⟨l0, rfl⟩
      obtain ⟨l0, hl0⟩ := hfr
      have ha : (act isRec s (.link f' v g w)).1 f' v = some (mergeAll (isRec f' v) l0 k).1 := by
        simp only [act, hl0, hk]
        exact setW_same _ _ _ _
      obtain ⟨l', h3, h4⟩ := (pass_sub isRec as (act isRec s (.link f' v g w)).1 f' v).2 _ ha
      simp only [pass] at h1
      rw [h3, Option.some.injEq] at h1
      subst h1
      exact covers_sub (mergeAll_covers _ k l0) h4
    · exact ih f' v g w l k hm h1 h2

/-! ### Recursion -/

theorem orFirst_same {f : Field} {a b : Bool} : ∀ {l : List Repl} {x : Repl},
    l.find? (fun r => r.field = f) = some x → ((!x.asg && a) || (!x.arr && b)) = false → orFirst f a b l = l
  | [], _, h, _ => by simp at h
  | r :: rs, x, h, hx => by
    simp only [orFirst]
    split_ifs with e
    · simp only [List.find?_cons, e, decide_true, Option.some.injEq] at h
      subst h
      obtain ⟨rf, ra, rb⟩ := r
      cases ra <;> cases rb <;> cases a <;> cases b <;> simp_all
    · simp only [List.find?_cons, e, decide_false] at h
      rw [orFirst_same h hx]

theorem merge_same {rec : Bool} {l : List Repl} {r : Repl} (h : (mergeR rec l r).2 = false) :
    (mergeR rec l r).1 = l := by
  unfold mergeR at h ⊢
  split at h
  · next x hx =>
    split_ifs at h with hrec
    · simp only [hrec, if_true]
    · simp only [hrec, Bool.false_eq_true, if_false]
      exact orFirst_same hx h
  · cases h

theorem mergeAll_same {rec : Bool} : ∀ {k l : List Repl}, (mergeAll rec l k).2 = false → (mergeAll rec l k).1 = l
  | [], l, _ => rfl
  | r :: k, l, h => by
    simp only [mergeAll, Bool.or_eq_false_iff] at h ⊢
    have h1 := merge_same h.1
    rw [h1] at h ⊢
    exact mergeAll_same h.2

theorem setW_id {s : World} {f : Fn} {v : Var} {l : List Repl} (h : s f v = some l) : setW s f v l = s := by
  funext g w
  by_cases e : g = f ∧ w = v
  · obtain ⟨rfl, rfl⟩ := e
    rw [setW_same, h]
  · exact setW_other s l e

/-- The callee of each call is covered after a pass without changes, and the pass changes nothing. -/
theorem pass_same (isRec : Fn → Var → Bool) : ∀ (as : List Act) (s : World), (∀ a ∈ as, ∃ f v g w, a = .link f v g w) →
    (pass isRec as s).2 = false → (pass isRec as s).1 = s ∧ Closed isRec as s
  | [], s, _, _ => ⟨rfl, fun _ _ _ _ _ _ h => by simp at h⟩
  | a :: as, s, hl, h => by
    simp only [pass, Bool.or_eq_false_iff] at h ⊢
    obtain ⟨f, v, g, w, rfl⟩ := hl a (by simp)
    have ha : (act isRec s (.link f v g w)).1 = s ∧ ∀ l k, s f v = some l → s g w = some k →
        Covers (isRec f v) l k := by
      have h1 := h.1
      cases e1 : s f v with
      | none => exact ⟨by simp only [act, e1], fun l k h => by cases h⟩
      | some l =>
        cases e2 : s g w with
        | none => exact ⟨by simp only [act, e1, e2], fun l k _ h => by cases h⟩
        | some k =>
          simp only [act, e1, e2] at h1 ⊢
          have hs := mergeAll_same h1
          refine ⟨by rw [hs]; exact setW_id e1, fun l' k' e3 e4 => ?_⟩
          simp only [Option.some.injEq] at e3 e4
          subst e3 e4
          have := mergeAll_covers (isRec f v) k l
          rw [hs] at this
          exact this
    rw [ha.1] at h ⊢
    obtain ⟨i1, i2⟩ := pass_same isRec as s (fun b hb => hl b (by simp [hb])) h.2
    refine ⟨i1, fun f' v' g' w' l k hm e1 e2 => ?_⟩
    rcases List.mem_cons.mp hm with e | hm
    · cases e
      exact ha.2 l k e1 e2
    · exact i2 f' v' g' w' l k hm e1 e2

/-- If functions are recursive and there are no explicitly requested calls which expect arrays then the last pass makes
no changes, and all arguments are covered. -/
theorem fill_closed_partial (isRec : Fn → Var → Bool) (as : List Act) (s : World)
    (hl : ∀ a ∈ as, ∃ f v g w, a = .link f v g w) (h : (pass isRec as s).2 = false) :
    Closed isRec as (pass isRec as s).1 := by
  obtain ⟨h1, h2⟩ := pass_same isRec as s hl h
  rw [h1]; exact h2

/-- A function 0 calls a function 1, which calls the function 0 and passes its parameter as an array to an explicitly
requested call. This is not a change, so the flag is not propagated to the function 0. -/
theorem fill_closed_fails : ∃ (isRec : Fn → Var → Bool) (as : List Act) (s : World),
    (pass isRec as s).2 = false ∧ ¬ Closed isRec as (pass isRec as s).1 := by
  refine ⟨fun _ _ => false, [.link 0 0 1 0, .mark 1 0 5, .link 1 0 0 0], fun _ _ => some [⟨5, false, false⟩],
    by decide, fun h => ?_⟩
  have h1 : (pass (fun _ _ => false) [.link 0 0 1 0, .mark 1 0 5, .link 1 0 0 0]
    (fun _ _ => some [⟨5, false, false⟩])).1 0 0 = some [⟨5, false, false⟩] := by decide
  have h2 : (pass (fun _ _ => false) [.link 0 0 1 0, .mark 1 0 5, .link 1 0 0 0]
    (fun _ _ => some [⟨5, false, false⟩])).1 1 0 = some [⟨5, false, true⟩] := by decide
  obtain ⟨x, k1, k2⟩ := h 0 0 1 0 _ _ (by simp) h1 h2 ⟨5, false, true⟩ (by simp)
  simp only [List.find?_cons, decide_true, Option.some.injEq] at k1
  subst k1
  simp at k2

/-! ### Termination -/

/-- What may be added to a member of a candidate. -/
def room (l : Option (List Repl)) (f : Field) : Nat :=
  match l with
  | none => 0
  | some l =>
    match l.find? (fun r => r.field = f) with
    | none => 3
    | some r => (if r.asg then 0 else 1) + (if r.arr then 0 else 1)

theorem room_sub {l l' : List Repl} (h : Sub l l') (f : Field) : room (some l') f ≤ room (some l) f := by
  simp only [room]
  cases hl : l.find? (fun r => r.field = f) with
  | none =>
    cases l'.find? (fun r => r.field = f) with
    | none => simp
    | some y => simp only; split_ifs <;> omega
  | some x =>
    obtain ⟨y, h1, h2, h3⟩ := h f x hl
    simp only [h1]
    cases hx : x.asg <;> cases hy : x.arr <;> simp_all
    · split_ifs <;> omega
    · split_ifs <;> omega
    · split_ifs <;> omega

theorem room_subW {s s' : World} (h : SubW s s') (g : Fn) (w : Var) (f : Field) :
    room (s' g w) f ≤ room (s g w) f := by
  cases hs : s g w with
  | none => rw [(h g w).1 hs]
  | some l =>
    obtain ⟨l', h1, h2⟩ := (h g w).2 l hs
    rw [h1]
    exact room_sub h2 f

theorem merge_room {rec : Bool} {l : List Repl} {r : Repl} (h : (mergeR rec l r).2 = true) :
    room (some (mergeR rec l r).1) r.field < room (some l) r.field := by
  unfold mergeR at h ⊢
  split at h
  · next x hx =>
    split_ifs at h with hrec
    simp only [hrec, Bool.false_eq_true, if_false, room, find_orFirst, if_true, hx, Option.map_some]
    cases hx : x.asg <;> cases hy : x.arr <;> cases ha : r.asg <;> cases hb : r.arr <;> simp_all
  · next hx =>
    simp only [room, List.find?_append, hx, Option.none_or, List.find?_cons, decide_true]
    split_ifs <;> omega

theorem mergeAll_room {rec : Bool} : ∀ {k l : List Repl}, (mergeAll rec l k).2 = true →
    ∃ r ∈ k, room (some (mergeAll rec l k).1) r.field < room (some l) r.field
  | [], l, h => by simp [mergeAll] at h
  | r :: k, l, h => by
    simp only [mergeAll, Bool.or_eq_true] at h ⊢
    by_cases h1 : (mergeR rec l r).2 = true
    · exact ⟨r, by simp, Nat.lt_of_le_of_lt (room_sub (mergeAll_sub rec k _) _) (merge_room h1)⟩
    · obtain ⟨r', h2, h3⟩ := mergeAll_room (h.resolve_left h1)
      have : (mergeR rec l r).1 = l := merge_same (by simpa using h1)
      rw [this] at h3 ⊢
      exact ⟨r', by simp [h2], h3⟩

/-- All members of candidates are known. -/
def Known (fs : List Field) (s : World) : Prop := ∀ f v l, s f v = some l → ∀ r ∈ l, r.field ∈ fs

theorem orFirst_fields {f : Field} {a b : Bool} : ∀ {l : List Repl} {r : Repl}, r ∈ orFirst f a b l →
    ∃ x ∈ l, x.field = r.field
  | [], _, h => by simp [orFirst] at h
  | y :: l, r, h => by
    simp only [orFirst] at h
    split_ifs at h
    · rcases List.mem_cons.mp h with rfl | h
      · exact ⟨y, by simp, rfl⟩
      · exact ⟨r, by simp [h], rfl⟩
    · rcases List.mem_cons.mp h with rfl | h
      · exact ⟨r, by simp, rfl⟩
      · obtain ⟨x, h1, h2⟩ := orFirst_fields h
        exact ⟨x, by simp [h1], h2⟩

theorem mergeAll_fields {rec : Bool} (fs : List Field) : ∀ {k l : List Repl}, (∀ r ∈ l, r.field ∈ fs) →
    (∀ r ∈ k, r.field ∈ fs) → ∀ r ∈ (mergeAll rec l k).1, r.field ∈ fs
  | [], _, hl, _ => hl
  | x :: k, l, hl, hk => by
    refine mergeAll_fields (l := (mergeR rec l x).1) fs ?_ (fun r hr => hk r (by simp [hr]))
    intro r hr
    unfold mergeR at hr
    split at hr
    · split_ifs at hr
      · exact hl r hr
      · obtain ⟨y, h1, h2⟩ := orFirst_fields hr
        rw [← h2]
        exact hl y h1
    · rcases List.mem_append.mp hr with hr | hr
      · exact hl r hr
      · simp only [List.mem_singleton] at hr
        subst hr
        exact hk x (by simp)

theorem act_known (isRec : Fn → Var → Bool) (fs : List Field) {s : World} (h : Known fs s) (a : Act) :
    Known fs (act isRec s a).1 := by
  have hset : ∀ f v l, (∀ r ∈ l, r.field ∈ fs) → Known fs (setW s f v l) := by
    intro f v l hl g w k hk
    by_cases e : g = f ∧ w = v
    · obtain ⟨rfl, rfl⟩ := e
      rw [setW_same, Option.some.injEq] at hk
      subst hk
      exact hl
    · rw [setW_other s l e] at hk
      exact h g w k hk
  cases a with
  | mark f v m =>
    simp only [act]
    split
    · next l hl =>
      refine hset f v _ (fun r hr => ?_)
      obtain ⟨x, h1, rfl⟩ := List.mem_map.mp hr
      have := h f v l hl x h1
      split_ifs <;> exact this
    · exact h
  | link f v g w =>
    simp only [act]
    split
    · next l k e1 e2 => exact hset f v _ (mergeAll_fields fs (h f v l e1) (h g w k e2))
    · exact h

theorem pass_known (isRec : Fn → Var → Bool) (fs : List Field) : ∀ (as : List Act) {s : World}, Known fs s →
    Known fs (pass isRec as s).1
  | [], _, h => h
  | a :: as, _, h => pass_known isRec fs as (act_known isRec fs h a)

/-- A variable which is updated by an action. -/
def Act.target : Act → Fn × Var
  | .mark f v _ => (f, v)
  | .link f v _ _ => (f, v)

/-- What may be added to all candidates. -/
def measure (as : List Act) (fs : List Field) (s : World) : Nat :=
  (as.map (fun a => (fs.map (room (s a.target.1 a.target.2))).sum)).sum

theorem sum_le {α : Type} (l : List α) (p q : α → Nat) (h : ∀ a ∈ l, p a ≤ q a) : (l.map p).sum ≤ (l.map q).sum :=
  List.sum_le_sum h

theorem sum_lt {α : Type} (l : List α) (p q : α → Nat) (h : ∀ a ∈ l, p a ≤ q a) (a : α) (ha : a ∈ l) (hlt : p a < q a) :
    (l.map p).sum < (l.map q).sum :=
  List.sum_lt_sum p q h ⟨a, ha, hlt⟩

theorem measure_le (as : List Act) (fs : List Field) {s s' : World} (h : SubW s s') :
    measure as fs s' ≤ measure as fs s :=
  sum_le _ _ _ (fun _ _ => sum_le _ _ _ (fun f _ => room_subW h _ _ f))

theorem act_lt (isRec : Fn → Var → Bool) (all : List Act) (fs : List Field) {s : World} (hk : Known fs s) (a : Act)
    (ha : a ∈ all) (h : (act isRec s a).2 = true) : measure all fs (act isRec s a).1 < measure all fs s := by
  have hs := act_sub isRec s a
  cases a with
  | mark f v m =>
    simp only [act] at h
    split at h <;> cases h
  | link f v g w =>
    have : ∃ r ∈ fs, room ((act isRec s (.link f v g w)).1 f v) r < room (s f v) r := by
      cases e1 : s f v with
      | none => simp [act, e1] at h
      | some l =>
        cases e2 : s g w with
        | none => simp [act, e1, e2] at h
        | some k =>
          simp only [act, e1, e2] at h ⊢
          obtain ⟨r, h1, h2⟩ := mergeAll_room h
          refine ⟨r.field, hk g w k e2 r h1, ?_⟩
          rw [setW_same]
          exact h2
    obtain ⟨r, h1, h2⟩ := this
    refine sum_lt _ _ _ (fun _ _ => sum_le _ _ _ (fun f _ => room_subW hs _ _ f)) _ ha ?_
    exact sum_lt _ _ _ (fun f' _ => room_subW hs _ _ f') r h1 h2

theorem pass_lt (isRec : Fn → Var → Bool) (all : List Act) (fs : List Field) : ∀ (as : List Act) {s : World},
    Known fs s → (∀ a ∈ as, a ∈ all) → (pass isRec as s).2 = true →
    measure all fs (pass isRec as s).1 < measure all fs s
  | [], _, _, _, h => by simp [pass] at h
  | a :: as, s, hk, hm, h => by
    simp only [pass, Bool.or_eq_true] at h ⊢
    by_cases h1 : (act isRec s a).2 = true
    · exact Nat.lt_of_le_of_lt (measure_le all fs (pass_sub isRec as _)) (act_lt isRec all fs hk a (hm a (by simp)) h1)
    · exact Nat.lt_of_lt_of_le
        (pass_lt isRec all fs as (act_known isRec fs hk a) (fun b hb => hm b (by simp [hb])) (h.resolve_left h1))
        (measure_le all fs (act_sub isRec s a))

/-- A loop terminates: some pass makes no changes. -/
theorem fill_terminates (isRec : Fn → Var → Bool) (as : List Act) (fs : List Field) : ∀ (s : World), Known fs s →
    ∃ n, (pass isRec as (passes isRec as n s)).2 = false := by
  intro s
  induction hm : measure as fs s using Nat.strong_induction_on generalizing s with
  | _ k ih =>
    intro hk
    cases h : (pass isRec as s).2 with
    | false => exact ⟨0, h⟩
    | true =>
      have hlt := pass_lt isRec as fs as hk (fun a h => h) h
      rw [hm] at hlt
      obtain ⟨n, hn⟩ := ih _ hlt (pass isRec as s).1 rfl (pass_known isRec fs as hk)
      exact ⟨n + 1, hn⟩

/-- Members and flags which have been found in a function are kept. -/
theorem fill_keeps (isRec : Fn → Var → Bool) (as : List Act) : ∀ (n : Nat) (s : World), SubW s (passes isRec as n s)
  | 0, s => SubW.refl s
  | n + 1, s => (pass_sub isRec as s).trans (fill_keeps isRec as n _)

/-- A function 0 calls a function 1 which calls a function 2 and the function 0. -/
example :
    let as : List Act := [.link 0 0 1 0, .link 1 0 2 0, .link 1 0 0 0]
    let s : World := fun f v => if v = 0 then
      if f = 0 then some [⟨4, false, false⟩] else if f = 1 then some [⟨5, false, false⟩] else some [⟨6, true, false⟩]
      else none
    (pass (fun _ _ => false) as s).2 = true ∧ (pass (fun _ _ => false) as (passes (fun _ _ => false) as 2 s)).2 = false ∧
    passes (fun _ _ => false) as 2 s 0 0 = some [⟨4, false, false⟩, ⟨5, false, false⟩, ⟨6, true, false⟩] := by
  decide

end Tsar.StructRepl
