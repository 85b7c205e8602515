import Verif.ArrayAccess.Model
import Mathlib.Data.List.Basic
import Mathlib.Data.List.Nodup
import Mathlib.Data.List.TakeWhile
import Mathlib.Tactic.SplitIfs

/-!
# Properties of a collection of array accesses
-/

namespace Tsar.ArrayAccess

/-! ### Specification -/

/-- Accesses which are added and which are not removed. -/
def liveFrom (p : Prog) (l : List Nat) : List Op → List Nat
  | [] => l
  | .add x :: ops => liveFrom p (x :: l) ops
  | .erase v :: ops => liveFrom p (l.filter fun a => p.arr a != v) ops

/-- Scopes form a tree. -/
structure Tree (p : Prog) : Prop where
  nodup : ∀ a, (p.nest a).Nodup
  same : ∀ a b s, s ∈ p.nest a → s ∈ p.nest b →
    (p.nest a).dropWhile (fun t => t != s) = (p.nest b).dropWhile (fun t => t != s)

/-! ### Lists -/

theorem dropWhile_split {l pre post : List Nat} {b : Nat} (hn : l.Nodup) (h : l = pre ++ b :: post) :
    l.dropWhile (fun a => a != b) = b :: post := by
  subst h
  rw [List.dropWhile_append_of_pos]
  · simp
  · intro a ha
    obtain ⟨_, _, hd⟩ := List.nodup_append.1 hn
    simpa using hd a ha b (List.mem_cons_self ..)

theorem takeWhile_split {seg post : List Nat} (hn : (seg ++ post).Nodup) :
    (seg ++ post).takeWhile (fun a => some a != post.head?) = seg := by
  obtain ⟨_, _, hd⟩ := List.nodup_append.1 hn
  rw [List.takeWhile_append_of_pos]
  · cases post with
    | nil => simp
    | cons c post => simp
  · intro a ha
    cases post with
    | nil => simp
    | cons c post => simpa using hd a ha c (List.mem_cons_self ..)

theorem dropWhile_split' {seg post : List Nat} (hn : (seg ++ post).Nodup) :
    (seg ++ post).dropWhile (fun a => some a != post.head?) = post := by
  obtain ⟨_, _, hd⟩ := List.nodup_append.1 hn
  rw [List.dropWhile_append_of_pos]
  · cases post with
    | nil => simp
    | cons c post => simp
  · intro a ha
    cases post with
    | nil => simp
    | cons c post => simpa using hd a ha c (List.mem_cons_self ..)

/-- A range of a contiguous segment. -/
theorem range_split {pre seg post : List Nat} {b : Nat} (hn : (pre ++ seg ++ post).Nodup) (hb : seg.head? = some b) :
    range (pre ++ seg ++ post) b post.head? = seg := by
  obtain ⟨t, rfl⟩ : ∃ t, seg = b :: t := by
    cases seg with
    | nil => simp at hb
    | cons c t => simp at hb; exact ⟨t, by rw [hb]⟩
  unfold range
  rw [dropWhile_split (pre := pre) (post := t ++ post) hn (by simp)]
  have : (b :: (t ++ post)) = (b :: t) ++ post := rfl
  rw [this, takeWhile_split]
  rw [List.append_assoc] at hn
  exact (List.nodup_append.1 hn).2.1

/-- A scope refers to a contiguous segment of accesses. -/
structure Seg (p : Prog) (l : List Nat) (e : Entry) (pre seg post : List Nat) : Prop where
  split : l = pre ++ seg ++ post
  first : seg.head? = some e.first
  last : post.head? = e.last
  inside : ∀ a ∈ seg, e.scope ∈ p.nest a
  before : ∀ a ∈ pre, e.scope ∉ p.nest a
  after : ∀ a ∈ post, e.scope ∉ p.nest a

theorem Seg.ne {p : Prog} {l : List Nat} {e : Entry} {pre seg post : List Nat} (h : Seg p l e pre seg post) : seg ≠ [] := by
  rintro rfl
  have := h.first
  simp at this

/-- The main invariant. -/
structure Inv (p : Prog) (i : Info) : Prop where
  nodup : i.accs.Nodup
  scopes : (i.entries.map Entry.scope).Nodup
  seg : ∀ e ∈ i.entries, ∃ pre seg post, Seg p i.accs e pre seg post
  all : ∀ a ∈ i.accs, ∀ s ∈ p.nest a, ∃ e ∈ i.entries, e.scope = s

theorem find_iff {i : Info} (hn : (i.entries.map Entry.scope).Nodup) {s : Nat} {e : Entry} :
    i.find s = some e ↔ e ∈ i.entries ∧ e.scope = s := by
  unfold Info.find
  constructor
  · intro h
    exact ⟨List.mem_of_find?_eq_some h, by simpa using List.find?_some h⟩
  · rintro ⟨h1, h2⟩
    revert hn h1
    generalize i.entries = es
    induction es with
    | nil => intro _ h; cases h
    | cons c es ih =>
      intro hn h1
      rw [List.map_cons, List.nodup_cons] at hn
      rcases List.mem_cons.1 h1 with hx | hx
      · subst hx
        simp [h2]
      · have : c.scope ≠ s := fun hc => hn.1 (List.mem_map.2 ⟨e, hx, by rw [h2, hc]⟩)
        rw [List.find?_cons_of_neg (by simpa using this)]
        exact ih hn.2 hx

theorem find_none {i : Info} {s : Nat} : i.find s = none ↔ ∀ e ∈ i.entries, e.scope ≠ s := by
  unfold Info.find
  simp

/-- Accesses of a scope are exactly accesses which are inside of it. -/
theorem accesses_inv {p : Prog} {i : Info} (h : Inv p i) (s : Nat) :
    (i.accesses s).Nodup ∧ ∀ a, a ∈ i.accesses s ↔ a ∈ i.accs ∧ s ∈ p.nest a := by
  unfold Info.accesses
  cases hf : i.find s with
  | none =>
    refine ⟨by simp, ?_⟩
    intro a
    constructor
    · intro h; cases h
    · rintro ⟨h1, h2⟩
      obtain ⟨e, he, hs⟩ := h.all a h1 s h2
      exact absurd hs (find_none.1 hf e he)
  | some e =>
    obtain ⟨he, hs⟩ := (find_iff h.scopes).1 hf
    obtain ⟨pre, seg, post, hS⟩ := h.seg e he
    have hn := h.nodup
    have hr : range i.accs e.first e.last = seg := by
      rw [hS.split, ← hS.last]
      exact range_split (hS.split ▸ hn) hS.first
    simp only [hr]
    rw [hS.split] at hn ⊢
    refine ⟨(List.nodup_append.1 (List.nodup_append.1 hn).1).2.1, ?_⟩
    intro a
    subst hs
    constructor
    · intro ha
      exact ⟨by simp [ha], hS.inside a ha⟩
    · rintro ⟨ha, hx⟩
      rcases List.mem_append.1 ha with ha | ha
      · rcases List.mem_append.1 ha with ha | ha
        · exact absurd hx (hS.before a ha)
        · exact ha
      · exact absurd hx (hS.after a ha)

/-! ### Insertion -/

theorem known_none {i : Info} : ∀ {ss : List Nat}, known i ss = none → ∀ s ∈ ss, i.find s = none
  | [], _, s, hs => by cases hs
  | t :: ss, h, s, hs => by
    unfold known at h
    split at h
    · cases h
    · rename_i ht
      rcases List.mem_cons.1 hs with hx | hx
      · rw [hx]; exact ht
      · exact known_none (by simpa using h) s hx

theorem known_some {i : Info} : ∀ {ss ns : List Nat} {c : Entry}, known i ss = some (ns, c) →
    (∀ s ∈ ns, i.find s = none) ∧ ∃ s rest, ss = ns ++ s :: rest ∧ i.find s = some c
  | [], _, _, h => by cases h
  | t :: ss, ns, c, h => by
    unfold known at h
    split at h
    · rename_i e he
      simp only [Option.some.injEq, Prod.mk.injEq] at h
      obtain ⟨h1, h2⟩ := h
      subst h1 h2
      exact ⟨fun s hs => (by cases hs), ⟨t, ss, rfl, he⟩⟩
    · rename_i ht
      cases hk : known i ss with
      | none => rw [hk] at h; cases h
      | some q =>
        obtain ⟨ns', c'⟩ := q
        rw [hk] at h
        simp only [Option.map_some, Option.some.injEq, Prod.mk.injEq] at h
        obtain ⟨h1, h2⟩ := h
        subst h1 h2
        obtain ⟨h3, s, rest, h4, h5⟩ := known_some hk
        refine ⟨?_, s, rest, by rw [h4]; rfl, h5⟩
        intro s' hs'
        rcases List.mem_cons.1 hs' with hx | hx
        · rw [hx]; exact ht
        · exact h3 s' hx

/-- Change the end of a scope from a list. -/
def cut (x : Nat) (e : Option Nat) (ts : List Nat) (c : Entry) : Entry :=
  if c.scope ∈ ts ∧ c.last = e then { c with last := some x } else c

theorem cut_scope (x : Nat) (e : Option Nat) (ts : List Nat) (c : Entry) : (cut x e ts c).scope = c.scope := by
  unfold cut; split <;> rfl

theorem cut_first (x : Nat) (e : Option Nat) (ts : List Nat) (c : Entry) : (cut x e ts c).first = c.first := by
  unfold cut; split <;> rfl

theorem exclude_fold {x : Nat} {e : Option Nat} (hx : e ≠ some x) : ∀ (ts : List Nat) (es : List Entry),
    ts.foldl (exclude x e) es = es.map (cut x e ts)
  | [], es => by
    have : cut x e [] = id := by funext c; simp [cut]
    rw [this]; simp
  | t :: ts, es => by
    rw [List.foldl_cons, exclude_fold hx ts]
    unfold exclude
    rw [List.map_map]
    apply List.map_congr_left
    intro c _
    simp only [Function.comp_apply]
    by_cases h : c.scope = t ∧ c.last = e
    · rw [if_pos h]
      unfold cut
      rw [if_neg (fun hh => hx hh.2.symm), if_pos ⟨by rw [h.1]; simp, h.2⟩]
    · rw [if_neg h]
      unfold cut
      by_cases h2 : c.scope ∈ ts ∧ c.last = e
      · rw [if_pos h2, if_pos ⟨List.mem_cons_of_mem _ h2.1, h2.2⟩]
      · rw [if_neg h2, if_neg]
        rintro ⟨h3, h4⟩
        rcases List.mem_cons.1 h3 with h3 | h3
        · exact h ⟨h3, h4⟩
        · exact h2 ⟨h3, h4⟩

theorem excludeAll_eq {p : Prog} {x : Nat} {c : Entry} (hx : c.last ≠ some x) : ∀ (as : List Nat) (es : List Entry),
    excludeAll p x c as es = es.map (cut x c.last (as.flatMap fun a => (p.nest a).takeWhile fun t => t != c.scope)) := by
  intro as es
  have : ∀ (as : List Nat) (es : List Entry), excludeAll p x c as es =
      (as.flatMap fun a => (p.nest a).takeWhile fun t => t != c.scope).foldl (exclude x c.last) es := by
    intro as
    induction as with
    | nil => intro es; rfl
    | cons a as ih =>
      intro es
      rw [List.flatMap_cons, List.foldl_append, ← ih]
      rfl
  rw [this, exclude_fold hx]

/-- A scope in a list of scopes is either inside of the other scope or it contains this scope. -/
theorem mem_nest_split {l : List Nat} {s t : Nat} (h : t ∈ l) :
    t ∈ l.takeWhile (fun u => u != s) ∨ t ∈ l.dropWhile (fun u => u != s) := by
  rw [← List.takeWhile_append_dropWhile (p := fun u => u != s) (l := l)] at h
  exact List.mem_append.1 h

/-- Scopes which contain a common scope of two accesses are common. -/
theorem outer_common {p : Prog} (hT : Tree p) {a b s t : Nat} (ha : s ∈ p.nest a) (hb : s ∈ p.nest b)
    (ht : t ∈ (p.nest a).dropWhile fun u => u != s) : t ∈ p.nest b := by
  rw [hT.same a b s ha hb] at ht
  exact (List.dropWhile_sublist _).subset ht

/-- A scope inside of `s` is not used outside of `s`. -/
theorem inner_common {p : Prog} (hT : Tree p) {a b s t : Nat} (hsa : s ∈ p.nest a)
    (hta : t ∈ (p.nest a).takeWhile fun u => u != s) (htb : t ∈ p.nest b) : s ∈ p.nest b := by
  have hta' : t ∈ p.nest a := (List.takeWhile_sublist _).subset hta
  apply outer_common hT hta' htb
  -- `s` is after `t` in the nest of `a`.
  rcases mem_nest_split (s := t) hsa with h | h
  · exfalso
    obtain ⟨u, v, e⟩ := List.append_of_mem hta
    have hd : (p.nest a) = u ++ t :: (v ++ (p.nest a).dropWhile fun u => u != s) := by
      have := List.takeWhile_append_dropWhile (p := fun u => u != s) (l := p.nest a)
      rw [e] at this
      rw [List.append_assoc] at this
      exact this.symm
    have hnd := hT.nodup a
    have hu : (p.nest a).takeWhile (fun w => w != t) = u := by
      have e2 := hd
      generalize (p.nest a).dropWhile (fun u => u != s) = d at e2
      rw [e2] at hnd ⊢
      rw [List.takeWhile_append_of_pos]
      · simp
      · intro w hw
        obtain ⟨_, _, hdis⟩ := List.nodup_append.1 hnd
        simpa using hdis w hw t (List.mem_cons_self ..)
    rw [hu] at h
    have : s ∈ (p.nest a).takeWhile fun u => u != s := by rw [e]; simp [h]
    have := List.mem_takeWhile_imp this
    simp at this
  · exact h

/-- Compare two segments of the same list. -/
theorem seg_cases {u post pre' seg' post' : List Nat} (h : u ++ post = pre' ++ seg' ++ post') :
    (∃ q, u = pre' ++ seg' ++ q ∧ post' = q ++ post) ∨
    (∃ r, pre' = u ++ r ∧ post = r ++ seg' ++ post') ∨
    (∃ c d, seg' = c ++ d ∧ c ≠ [] ∧ d ≠ [] ∧ u = pre' ++ c ∧ post = d ++ post') := by
  rcases List.append_eq_append_iff.1 h with ⟨as, h1, h2⟩ | ⟨bs, h1, h2⟩
  · -- pre' ++ seg' = u ++ as, post = as ++ post'
    rcases List.append_eq_append_iff.1 h1.symm with ⟨r, h3, h4⟩ | ⟨r, h3, h4⟩
    · exact Or.inr (Or.inl ⟨r, h3, by rw [h2, h4]⟩) 
    · by_cases hr : r = []
      · subst hr
        refine Or.inr (Or.inl ⟨[], ?_, ?_⟩)
        · rw [h3]; simp
        · rw [h2]; simpa using h4.symm
      · by_cases ha : as = []
        · subst ha
          refine Or.inl ⟨[], ?_, ?_⟩
          · rw [List.append_nil] at h1; rw [← h1]; simp
          · rw [h2]; simp
        · exact Or.inr (Or.inr ⟨r, as, h4, hr, ha, h3, h2⟩)
  · exact Or.inl ⟨bs, h1, h2⟩

theorem head_ne {q post : List Nat} (hq : q ≠ []) (hn : (q ++ post).Nodup) : (q ++ post).head? ≠ post.head? := by
  obtain ⟨c, q, rfl⟩ := List.exists_cons_of_ne_nil hq
  cases post with
  | nil => simp
  | cons d post =>
    obtain ⟨_, _, hd⟩ := List.nodup_append.1 hn
    have := hd c (List.mem_cons_self ..) d (List.mem_cons_self ..)
    simpa using this

/-- Insertion preserves the invariant. -/
theorem add_inv {p : Prog} (hT : Tree p) {i : Info} (h : Inv p i) {x : Nat} (hx : x ∉ i.accs) :
    Inv p (i.add p x) ∧ ∀ a, a ∈ (i.add p x).accs ↔ a = x ∨ a ∈ i.accs := by
  unfold Info.add
  cases hk : known i (p.nest x) with
  | none =>
    have hnew := known_none hk
    refine ⟨⟨?_, ?_, ?_, ?_⟩, by intro a; simp⟩
    · exact List.nodup_cons.2 ⟨hx, h.nodup⟩
    · rw [List.map_append, List.nodup_append]
      refine ⟨h.scopes, ?_, ?_⟩
      · rw [List.map_map]
        have : (Entry.scope ∘ fun s => (⟨s, x, i.accs.head?⟩ : Entry)) = id := rfl
        rw [this, List.map_id, List.nodup_reverse]
        exact hT.nodup x
      · intro s hs t ht
        obtain ⟨e, he, rfl⟩ := List.mem_map.1 hs
        obtain ⟨e', he', rfl⟩ := List.mem_map.1 ht
        obtain ⟨s', hs', rfl⟩ := List.mem_map.1 he'
        exact find_none.1 (hnew s' (List.mem_reverse.1 hs')) e he
    · intro e he
      rcases List.mem_append.1 he with he | he
      · obtain ⟨pre, seg, post, hS⟩ := h.seg e he
        refine ⟨x :: pre, seg, post, by show x :: i.accs = _; rw [hS.split]; rfl, hS.first, hS.last, hS.inside, ?_, hS.after⟩
        intro a ha
        rcases List.mem_cons.1 ha with ha | ha
        · rw [ha]
          intro hh
          exact find_none.1 (hnew _ hh) e he rfl
        · exact hS.before a ha
      · obtain ⟨s, hs, rfl⟩ := List.mem_map.1 he
        have hs := List.mem_reverse.1 hs
        refine ⟨[], [x], i.accs, rfl, rfl, rfl, ?_, ?_, ?_⟩
        · intro a ha
          rw [List.mem_singleton.1 ha]
          exact hs
        · intro a ha; cases ha
        · intro a ha hh
          obtain ⟨e', he', e2⟩ := h.all a ha s hh
          exact find_none.1 (hnew s hs) e' he' e2
    · intro a ha s hs
      rcases List.mem_cons.1 ha with ha | ha
      · subst ha
        exact ⟨⟨s, a, i.accs.head?⟩, List.mem_append_right _ (List.mem_map.2 ⟨s, List.mem_reverse.2 hs, rfl⟩), rfl⟩
      · obtain ⟨e, he, e2⟩ := h.all a ha s hs
        exact ⟨e, List.mem_append_left _ he, e2⟩
  | some q =>
    obtain ⟨ns, c⟩ := q
    obtain ⟨hnew, s0, rest, hnest, hf⟩ := known_some hk
    obtain ⟨hc, hs0⟩ := (find_iff h.scopes).1 hf
    subst hs0
    obtain ⟨pre, seg, post, hS⟩ := h.seg c hc
    have hn := h.nodup
    have hnx := hT.nodup x
    rw [hnest] at hnx
    have hcx : c.scope ∈ p.nest x := by rw [hnest]; simp
    have hlx : c.last ≠ some x := by
      intro e
      rw [← hS.last] at e
      apply hx
      rw [hS.split]
      exact List.mem_append_right _ (List.mem_of_mem_head? (by rw [e]; rfl))
    -- A new list of accesses.
    have hL : insertBefore x c.last i.accs = pre ++ seg ++ x :: post := by
      unfold insertBefore
      have hn' := hn
      rw [hS.split] at hn'
      rw [← hS.last, hS.split, takeWhile_split hn', dropWhile_split' hn']
    have hnL : (pre ++ seg ++ x :: post).Nodup := by
      have hp : (pre ++ seg ++ x :: post).Perm (x :: i.accs) := by
        rw [hS.split]
        exact List.perm_middle
      exact hp.nodup_iff.2 (List.nodup_cons.2 ⟨hx, hn⟩)
    have hR : range (insertBefore x c.last i.accs) c.first (some x) = seg := by
      rw [hL]
      have := range_split (pre := pre) (seg := seg) (post := x :: post) hnL hS.first
      exact this
    rw [hL] at hR
    simp only [hL, hR]
    rw [excludeAll_eq hlx]
    generalize hts : (seg.flatMap fun a => (p.nest a).takeWhile fun t => t != c.scope) = ts
    -- Scopes which contain a new access are not changed.
    have houter : ∀ t ∈ p.nest x, i.find t ≠ none → t ∉ ts ∧ ∀ a ∈ seg, t ∈ p.nest a := by
      intro t ht hfn
      have hdx : (p.nest x).dropWhile (fun u => u != c.scope) = c.scope :: rest := by
        rw [hnest, List.dropWhile_append_of_pos]
        · simp
        · intro w hw
          obtain ⟨_, _, hd⟩ := List.nodup_append.1 hnx
          simpa using hd w hw c.scope (List.mem_cons_self ..)
      have htr : t ∈ c.scope :: rest := by
        rw [hnest] at ht
        rcases List.mem_append.1 ht with hh | hh
        · exact absurd (hnew t hh) hfn
        · exact hh
      have hd : ∀ a ∈ seg, t ∈ (p.nest a).dropWhile fun u => u != c.scope := by
        intro a ha
        rw [hT.same a x c.scope (hS.inside a ha) hcx, hdx]
        exact htr
      refine ⟨?_, fun a ha => (List.dropWhile_sublist _).subset (hd a ha)⟩
      rw [← hts]
      intro hh
      obtain ⟨a, ha, hta⟩ := List.mem_flatMap.1 hh
      have hna := hT.nodup a
      rw [← List.takeWhile_append_dropWhile (p := fun u => u != c.scope) (l := p.nest a)] at hna
      exact (List.nodup_append.1 hna).2.2 t hta t (hd a ha) rfl
    refine ⟨⟨hnL, ?_, ?_, ?_⟩, ?_⟩
    · rw [List.map_append, List.nodup_append]
      refine ⟨?_, ?_, ?_⟩
      · rw [List.map_map]
        have : (Entry.scope ∘ cut x c.last ts) = Entry.scope := by funext e; exact cut_scope ..
        rw [this]
        exact h.scopes
      · rw [List.map_map]
        have : (Entry.scope ∘ fun s => (⟨s, x, c.last⟩ : Entry)) = id := rfl
        rw [this, List.map_id, List.nodup_reverse]
        exact (List.nodup_append.1 hnx).1
      · intro s hs t ht
        obtain ⟨e, he, rfl⟩ := List.mem_map.1 hs
        obtain ⟨e0, he0, rfl⟩ := List.mem_map.1 he
        obtain ⟨e', he', rfl⟩ := List.mem_map.1 ht
        obtain ⟨s', hs', rfl⟩ := List.mem_map.1 he'
        rw [cut_scope]
        exact find_none.1 (hnew s' (List.mem_reverse.1 hs')) e0 he0
    · intro e he
      rcases List.mem_append.1 he with he | he
      · obtain ⟨t, ht, rfl⟩ := List.mem_map.1 he
        obtain ⟨pre', seg', post', hS'⟩ := h.seg t ht
        have hft : i.find t.scope = some t := (find_iff h.scopes).2 ⟨ht, rfl⟩
        have hsplit : (pre ++ seg) ++ post = pre' ++ seg' ++ post' := by rw [← hS.split, ← hS'.split]
        have hn' : ((pre ++ seg) ++ post).Nodup := by rw [← hS.split]; exact hn
        -- The last access of the updated scope.
        obtain ⟨seg0, u, hseg⟩ : ∃ seg0 u, seg = seg0 ++ [u] :=
          ⟨seg.dropLast, seg.getLast hS.ne, (List.dropLast_append_getLast hS.ne).symm⟩
        have hu : u ∈ seg := by rw [hseg]; simp
        have hcu := hS.inside u hu
        by_cases htx : t.scope ∈ p.nest x
        · obtain ⟨hnts, hin⟩ := houter t.scope htx (by rw [hft]; simp)
          have hcut : cut x c.last ts t = t := by
            unfold cut
            rw [if_neg (fun hh => hnts hh.1)]
          rw [hcut]
          have hu' : u ∈ seg' := by
            have : u ∈ pre' ++ seg' ++ post' := by rw [← hsplit]; simp [hu]
            rcases List.mem_append.1 this with hh | hh
            · rcases List.mem_append.1 hh with hh | hh
              · exact absurd (hin u hu) (hS'.before u hh)
              · exact hh
            · exact absurd (hin u hu) (hS'.after u hh)
          rcases seg_cases hsplit with ⟨q, h1, h2⟩ | ⟨r, h1, h2⟩ | ⟨a, d, h1, h2, h3, h4, h5⟩
          · -- The segment ends together with the updated scope.
            have hq : q = [] := by
              by_contra hne
              obtain ⟨q0, w, rfl⟩ : ∃ q0 w, q = q0 ++ [w] :=
                ⟨q.dropLast, q.getLast hne, (List.dropLast_append_getLast hne).symm⟩
              have hw : w = u := by
                rw [hseg, ← List.append_assoc, ← List.append_assoc] at h1
                exact ((List.append_inj' h1 rfl).2 |> List.singleton_inj.1).symm
              have : w ∈ post' := by rw [h2]; simp
              rw [hw] at this
              exact hS'.after u this (hin u hu)
            subst hq
            rw [List.append_nil] at h1
            rw [List.nil_append] at h2
            refine ⟨pre', seg' ++ [x], post', ?_, ?_, hS'.last, ?_, hS'.before, hS'.after⟩
            · rw [h1, h2]; simp
            · rw [List.head?_append, hS'.first]; rfl
            · intro a ha
              rcases List.mem_append.1 ha with ha | ha
              · exact hS'.inside a ha
              · rw [List.mem_singleton.1 ha]; exact htx
          · exfalso
            have : u ∈ pre' := by rw [h1]; simp [hu]
            exact hS'.before u this (hin u hu)
          · refine ⟨pre', a ++ x :: d, post', ?_, ?_, hS'.last, ?_, hS'.before, hS'.after⟩
            · rw [h4, h5]; simp
            · have := hS'.first
              rw [h1, List.head?_append] at this
              rw [List.head?_append]
              obtain ⟨a0, a, rfl⟩ := List.exists_cons_of_ne_nil h2
              simpa using this
            · intro b hb
              rcases List.mem_append.1 hb with hb | hb
              · exact hS'.inside b (by rw [h1]; simp [hb])
              · rcases List.mem_cons.1 hb with hb | hb
                · rw [hb]; exact htx
                · exact hS'.inside b (by rw [h1]; simp [hb])
        · rcases seg_cases hsplit with ⟨q, h1, h2⟩ | ⟨r, h1, h2⟩ | ⟨a, d, h1, h2, h3, h4, h5⟩
          · by_cases hq : q = []
            · subst hq
              rw [List.append_nil] at h1
              rw [List.nil_append] at h2
              -- The scope ends at the same place, it must be updated.
              have hu' : u ∈ seg' := by
                obtain ⟨seg1, w, hseg'⟩ : ∃ seg1 w, seg' = seg1 ++ [w] :=
                  ⟨seg'.dropLast, seg'.getLast hS'.ne, (List.dropLast_append_getLast hS'.ne).symm⟩
                rw [hseg, hseg', ← List.append_assoc, ← List.append_assoc] at h1
                have := (List.append_inj' h1 rfl).2
                rw [List.singleton_inj.1 this, hseg']
                simp
              have hin : t.scope ∈ ts := by
                rw [← hts]
                refine List.mem_flatMap.2 ⟨u, hu, ?_⟩
                rcases mem_nest_split (s := c.scope) (hS'.inside u hu') with hh | hh
                · exact hh
                · exact absurd (outer_common hT hcu hcx hh) htx
              have hcut : cut x c.last ts t = { t with last := some x } := by
                unfold cut
                rw [if_pos ⟨hin, by rw [← hS.last, ← hS'.last, h2]⟩]
              rw [hcut]
              refine ⟨pre', seg', x :: post, ?_, hS'.first, rfl, hS'.inside, hS'.before, ?_⟩
              · rw [h1]
              · intro b hb
                rcases List.mem_cons.1 hb with hb | hb
                · rw [hb]; exact htx
                · exact hS'.after b (by rw [h2]; exact hb)
            · have hcut : cut x c.last ts t = t := by
                unfold cut
                rw [if_neg]
                rintro ⟨_, hh⟩
                rw [← hS.last, ← hS'.last, h2] at hh
                refine head_ne hq ?_ hh
                rw [h1, List.append_assoc] at hn'
                exact (List.nodup_append.1 hn').2.1
              rw [hcut]
              refine ⟨pre', seg', q ++ x :: post, ?_, hS'.first, ?_, hS'.inside, hS'.before, ?_⟩
              · rw [h1]; simp
              · rw [← hS'.last, h2]
                obtain ⟨q0, q, rfl⟩ := List.exists_cons_of_ne_nil hq
                rfl
              · intro b hb
                rcases List.mem_append.1 hb with hb | hb
                · exact hS'.after b (by rw [h2]; simp [hb])
                · rcases List.mem_cons.1 hb with hb | hb
                  · rw [hb]; exact htx
                  · exact hS'.after b (by rw [h2]; simp [hb])
          · have hcut : cut x c.last ts t = t := by
              unfold cut
              rw [if_neg]
              rintro ⟨_, hh⟩
              rw [← hS.last, ← hS'.last, h2] at hh
              refine head_ne (q := r ++ seg') ?_ ?_ hh.symm
              · intro e
                exact hS'.ne (List.append_eq_nil_iff.1 e).2
              · rw [h2] at hn'
                exact (List.nodup_append.1 hn').2.1
            rw [hcut]
            refine ⟨(pre ++ seg) ++ x :: r, seg', post', ?_, hS'.first, hS'.last, hS'.inside, ?_, hS'.after⟩
            · rw [h2]; simp
            · intro b hb
              rcases List.mem_append.1 hb with hb | hb
              · exact hS'.before b (by rw [h1]; exact List.mem_append_left _ hb)
              · rcases List.mem_cons.1 hb with hb | hb
                · rw [hb]; exact htx
                · exact hS'.before b (by rw [h1]; exact List.mem_append_right _ hb)
          · exfalso
            have hua : u ∈ a := by
              obtain ⟨a0, w, ha⟩ : ∃ a0 w, a = a0 ++ [w] :=
                ⟨a.dropLast, a.getLast h2, (List.dropLast_append_getLast h2).symm⟩
              rw [hseg, ha, ← List.append_assoc, ← List.append_assoc] at h4
              have := (List.append_inj' h4 rfl).2
              rw [List.singleton_inj.1 this, ha]
              simp
            obtain ⟨w, d, rfl⟩ := List.exists_cons_of_ne_nil h3
            have htu : t.scope ∈ p.nest u := hS'.inside u (by rw [h1]; simp [hua])
            have htw : t.scope ∈ p.nest w := hS'.inside w (by rw [h1]; simp)
            rcases mem_nest_split (s := c.scope) htu with hh | hh
            · exact hS.after w (by rw [h5]; simp) (inner_common hT hcu hh htw)
            · exact htx (outer_common hT hcu hcx hh)
      · obtain ⟨s, hs, rfl⟩ := List.mem_map.1 he
        have hs := List.mem_reverse.1 hs
        have hno : ∀ a ∈ i.accs, s ∉ p.nest a := by
          intro a ha hh
          obtain ⟨e', he', e2⟩ := h.all a ha s hh
          exact find_none.1 (hnew s hs) e' he' e2
        refine ⟨pre ++ seg, [x], post, by simp, rfl, hS.last, ?_, ?_, ?_⟩
        · intro a ha
          rw [List.mem_singleton.1 ha, hnest]
          simp [hs]
        · intro a ha
          exact hno a (by rw [hS.split]; exact List.mem_append_left _ ha)
        · intro a ha
          exact hno a (by rw [hS.split]; exact List.mem_append_right _ ha)
    · intro a ha s hs
      have hold : ∀ t, i.find t ≠ none → ∃ e ∈ i.entries.map (cut x c.last ts) ++ ns.reverse.map (fun s => ⟨s, x, c.last⟩),
          e.scope = t := by
        intro t ht
        cases hq : i.find t with
        | none => exact absurd hq ht
        | some e =>
          obtain ⟨he, e2⟩ := (find_iff h.scopes).1 hq
          exact ⟨cut x c.last ts e, List.mem_append_left _ (List.mem_map.2 ⟨e, he, rfl⟩), by rw [cut_scope, e2]⟩
      have hold' : ∀ b ∈ i.accs, ∀ t ∈ p.nest b, i.find t ≠ none := by
        intro b hb t ht hq
        obtain ⟨e, he, e2⟩ := h.all b hb t ht
        exact find_none.1 hq e he e2
      have ha' : a = x ∨ a ∈ i.accs := by
        rw [hS.split]
        simp only [List.mem_append, List.mem_cons] at ha ⊢
        rcases ha with (hh | hh) | hh | hh <;> simp [hh]
      rcases ha' with ha' | ha'
      · subst ha'
        by_cases hsn : s ∈ ns
        · exact ⟨⟨s, a, c.last⟩, List.mem_append_right _ (List.mem_map.2 ⟨s, List.mem_reverse.2 hsn, rfl⟩), rfl⟩
        · apply hold
          -- The scope contains the first access of the known scope.
          obtain ⟨b, seg1, hb⟩ := List.exists_cons_of_ne_nil hS.ne
          have hbs : b ∈ seg := by rw [hb]; simp
          refine hold' b (by rw [hS.split]; simp [hbs]) s ?_
          refine outer_common hT hcx (hS.inside b hbs) ?_
          rcases mem_nest_split (s := c.scope) hs with hh | hh
          · exfalso
            have : (p.nest a).takeWhile (fun u => u != c.scope) = ns := by
              rw [hnest, List.takeWhile_append_of_pos]
              · simp
              · intro w hw
                obtain ⟨_, _, hd⟩ := List.nodup_append.1 hnx
                simpa using hd w hw c.scope (List.mem_cons_self ..)
            rw [this] at hh
            exact hsn hh
          · exact hh
      · exact hold s (hold' a ha' s hs)
    · intro a
      rw [hS.split]
      simp only [List.mem_append, List.mem_cons]
      constructor
      · rintro ((hh | hh) | hh | hh) <;> simp [hh]
      · rintro (hh | (hh | hh) | hh) <;> simp [hh]

/-! ### Removal -/

theorem head_dropWhile (f : Nat → Bool) : ∀ l : List Nat, (l.dropWhile f).head? = (l.filter fun a => !f a).head?
  | [] => rfl
  | a :: l => by
    cases h : f a with
    | true => rw [List.dropWhile_cons_of_pos h, List.filter_cons_of_neg (by simp [h])]; exact head_dropWhile f l
    | false => rw [List.dropWhile_cons_of_neg (by simp [h]), List.filter_cons_of_pos (by simp [h])]; rfl

/-- Each scope which contains a live access contains an access to some other array. -/
def Kept (p : Prog) (v : Nat) (l : List Nat) : Prop :=
  ∀ a ∈ l, ∀ s ∈ p.nest a, ∃ b ∈ l, s ∈ p.nest b ∧ p.arr b ≠ v

/-- Update of a single scope. -/
theorem erase_entry {p : Prog} {v : Nat} {l : List Nat} (hn : l.Nodup) {e : Entry} {pre seg post : List Nat}
    (hS : Seg p l e pre seg post) (hk : ∃ b ∈ seg, p.arr b ≠ v) :
    ∃ b, ((l.dropWhile fun a => a != e.first).dropWhile fun a => p.arr a == v && some a != e.last).head? = some b ∧
      some b ≠ e.last ∧
      Seg p (l.filter fun a => p.arr a != v)
        { e with first := b, last := ((l.dropWhile fun a => some a != e.last).dropWhile fun a => p.arr a == v).head? }
        (pre.filter fun a => p.arr a != v) (seg.filter fun a => p.arr a != v) (post.filter fun a => p.arr a != v) := by
  obtain ⟨w, hw, hwv⟩ := hk
  have hsplit := hS.split
  subst hsplit
  obtain ⟨tl, htl⟩ : ∃ tl, seg = e.first :: tl := by
    have := hS.first
    cases seg with
    | nil => simp at this
    | cons c tl => simp at this; exact ⟨tl, by rw [this]⟩
  have h1 : (pre ++ seg ++ post).dropWhile (fun a => a != e.first) = seg ++ post := by
    rw [dropWhile_split (pre := pre) (post := tl ++ post) hn (by rw [htl]; simp), htl]
    rfl
  have hsp : (seg ++ post).Nodup := by
    rw [List.append_assoc] at hn
    exact (List.nodup_append.1 hn).2.1
  have hne : ∀ a ∈ seg, some a ≠ e.last := by
    intro a ha hh
    rw [← hS.last] at hh
    exact (List.nodup_append.1 hsp).2.2 a ha a (List.mem_of_mem_head? hh.symm) rfl
  have h2 : (pre ++ seg ++ post).dropWhile (fun a => some a != e.last) = post := by
    rw [← hS.last]
    exact dropWhile_split' (seg := pre ++ seg) hn
  rw [h1, h2, head_dropWhile, head_dropWhile, List.filter_append]
  have hf : (seg.filter fun a => !(p.arr a == v && some a != e.last)) = seg.filter fun a => p.arr a != v := by
    apply List.filter_congr
    intro a ha
    have := hne a ha
    by_cases hv : p.arr a = v
    · simp [hv, this]
    · have h1 : (p.arr a == v) = false := by simpa using hv
      have h2 : (p.arr a != v) = true := by simpa using hv
      rw [h1, h2]
      rfl
  rw [hf]
  obtain ⟨b, fs, hfs⟩ : ∃ b fs, (seg.filter fun a => p.arr a != v) = b :: fs :=
    List.exists_cons_of_ne_nil (List.ne_nil_of_mem (List.mem_filter.2 ⟨hw, by simpa using hwv⟩))
  have hb : b ∈ seg := (List.mem_filter.1 (by rw [hfs]; simp : b ∈ seg.filter fun a => p.arr a != v)).1
  refine ⟨b, by rw [hfs]; rfl, hne b hb, ?_, ?_, ?_, ?_, ?_, ?_⟩
  · rw [List.filter_append, List.filter_append]
  · rw [hfs]; rfl
  · rfl
  · intro a ha
    exact hS.inside a (List.mem_filter.1 ha).1
  · intro a ha
    exact hS.before a (List.mem_filter.1 ha).1
  · intro a ha
    exact hS.after a (List.mem_filter.1 ha).1

/-- Update of all scopes. -/
theorem eraseEntries_inv {p : Prog} {v : Nat} {l : List Nat} (hn : l.Nodup) : ∀ {es : List Entry},
    (∀ e ∈ es, ∃ pre seg post, Seg p l e pre seg post ∧ ∃ b ∈ seg, p.arr b ≠ v) →
    (eraseEntries p v l es).2 = none ∧ (eraseEntries p v l es).1.map Entry.scope = es.map Entry.scope ∧
      ∀ e ∈ (eraseEntries p v l es).1, ∃ pre seg post, Seg p (l.filter fun a => p.arr a != v) e pre seg post
  | [], _ => ⟨rfl, rfl, fun e he => by cases he⟩
  | e :: es, h => by
    obtain ⟨pre, seg, post, hS, hk⟩ := h e (List.mem_cons_self ..)
    obtain ⟨b, hb, hbl, hS'⟩ := erase_entry hn hS hk
    obtain ⟨h1, h2, h3⟩ := eraseEntries_inv hn (es := es) fun e he => h e (List.mem_cons_of_mem _ he)
    unfold eraseEntries
    simp only [hb]
    rw [if_neg hbl]
    refine ⟨h1, by simp [h2], ?_⟩
    intro e' he'
    rcases List.mem_cons.1 he' with he' | he'
    · rw [he']
      exact ⟨_, _, _, hS'⟩
    · exact h3 e' he'

/-- Removal preserves the invariant if no scope becomes empty. -/
theorem erase_inv {p : Prog} {i : Info} (h : Inv p i) {v : Nat} (hk : Kept p v i.accs) :
    Inv p (i.erase p v) ∧ ∀ a, a ∈ (i.erase p v).accs ↔ a ∈ i.accs ∧ p.arr a ≠ v := by
  unfold Info.erase
  by_cases ha : (i.accs.all fun a => p.arr a != v) = true
  · rw [if_pos ha]
    refine ⟨h, fun a => ⟨fun hh => ⟨hh, ?_⟩, fun hh => hh.1⟩⟩
    simpa using List.all_eq_true.1 ha a hh
  · rw [if_neg ha]
    obtain ⟨h1, h2, h3⟩ := eraseEntries_inv (p := p) (v := v) h.nodup (es := i.entries) (by
      intro e he
      obtain ⟨pre, seg, post, hS⟩ := h.seg e he
      refine ⟨pre, seg, post, hS, ?_⟩
      obtain ⟨a, tl, hat⟩ := List.exists_cons_of_ne_nil hS.ne
      have has : a ∈ seg := by rw [hat]; simp
      obtain ⟨b, hb, hbs, hbv⟩ := hk a (by rw [hS.split]; simp [has]) e.scope (hS.inside a has)
      refine ⟨b, ?_, hbv⟩
      rw [hS.split] at hb
      rcases List.mem_append.1 hb with hb | hb
      · rcases List.mem_append.1 hb with hb | hb
        · exact absurd hbs (hS.before b hb)
        · exact hb
      · exact absurd hbs (hS.after b hb))
    have hf : ((eraseEntries p v i.accs i.entries).1.filter fun e => some e.scope != (eraseEntries p v i.accs i.entries).2) =
        (eraseEntries p v i.accs i.entries).1 := by
      rw [h1]
      simp
    simp only [hf]
    refine ⟨⟨h.nodup.filter _, by rw [h2]; exact h.scopes, h3, ?_⟩, ?_⟩
    · intro a ha s hs
      obtain ⟨e, he, e2⟩ := h.all a (List.mem_filter.1 ha).1 s hs
      have : s ∈ (eraseEntries p v i.accs i.entries).1.map Entry.scope := by
        rw [h2]
        exact List.mem_map.2 ⟨e, he, e2⟩
      obtain ⟨e', he', e2'⟩ := List.mem_map.1 this
      exact ⟨e', he', e2'⟩
    · intro a
      rw [List.mem_filter]
      simp

/-! ### Histories -/

/-- A history is valid after some accesses have been added: an access is added once, if accesses to an array are removed then
each scope contains other accesses. -/
def ValidFrom (p : Prog) (l : List Nat) : List Op → Prop
  | [] => True
  | .add x :: ops => x ∉ l ∧ ValidFrom p (x :: l) ops
  | .erase v :: ops => Kept p v l ∧ ValidFrom p (l.filter fun a => p.arr a != v) ops

theorem run_inv {p : Prog} (hT : Tree p) : ∀ (ops : List Op) {i : Info} {l : List Nat}, Inv p i → (∀ a, a ∈ i.accs ↔ a ∈ l) →
    ValidFrom p l ops → Inv p (ops.foldl (step p) i) ∧ ∀ a, a ∈ (ops.foldl (step p) i).accs ↔ a ∈ liveFrom p l ops
  | [], _, _, h, hl, _ => ⟨h, hl⟩
  | .add x :: ops, i, l, h, hl, hv => by
    obtain ⟨h1, h2⟩ := add_inv hT h (x := x) (fun hh => hv.1 ((hl x).1 hh))
    exact run_inv hT ops h1 (fun a => by show a ∈ (i.add p x).accs ↔ _; rw [h2, List.mem_cons, hl]) hv.2
  | .erase v :: ops, i, l, h, hl, hv => by
    obtain ⟨h1, h2⟩ := erase_inv h (v := v) (by
      intro a ha s hs
      obtain ⟨b, hb, h3⟩ := hv.1 a ((hl a).1 ha) s hs
      exact ⟨b, (hl b).2 hb, h3⟩)
    exact run_inv hT ops h1 (fun a => by show a ∈ (i.erase p v).accs ↔ _; rw [h2, List.mem_filter, hl]; simp) hv.2

theorem inv_empty (p : Prog) : Inv p ⟨[], []⟩ where
  nodup := List.nodup_nil
  scopes := List.nodup_nil
  seg := fun e he => by cases he
  all := fun a ha => by cases ha

/-- **C163.** Accesses are added in any order. For each scope the collection enumerates each access which is inside of this
scope exactly once, and it enumerates nothing else. All accesses are also enumerated exactly once. -/
theorem add_exact (p : Prog) (hT : Tree p) (xs : List Nat) (hx : xs.Nodup) :
    (∀ s, ((run p (xs.map Op.add)).accesses s).Nodup ∧
      ∀ a, a ∈ (run p (xs.map Op.add)).accesses s ↔ a ∈ xs ∧ s ∈ p.nest a) ∧
    (run p (xs.map Op.add)).accs.Perm xs := by
  have hval : ∀ (xs l : List Nat), xs.Nodup → (∀ x ∈ xs, x ∉ l) → ValidFrom p l (xs.map Op.add) ∧
      ∀ a, a ∈ liveFrom p l (xs.map Op.add) ↔ a ∈ xs ∨ a ∈ l := by
    intro xs
    induction xs with
    | nil => intro l _ _; exact ⟨trivial, fun a => by simp [liveFrom]⟩
    | cons x xs ih =>
      intro l hn hl
      obtain ⟨hn1, hn2⟩ := List.nodup_cons.1 hn
      obtain ⟨h1, h2⟩ := ih (x :: l) hn2 (by
        intro y hy hh
        rcases List.mem_cons.1 hh with hh | hh
        · exact hn1 (hh ▸ hy)
        · exact hl y (List.mem_cons_of_mem _ hy) hh)
      refine ⟨⟨hl x (List.mem_cons_self ..), h1⟩, ?_⟩
      intro a
      show a ∈ liveFrom p (x :: l) (xs.map Op.add) ↔ _
      rw [h2]
      simp only [List.mem_cons]
      constructor
      · rintro (h | h | h) <;> simp [h]
      · rintro ((h | h) | h) <;> simp [h]
  obtain ⟨hv, hl⟩ := hval xs [] hx (fun x _ hh => by cases hh)
  obtain ⟨h1, h2⟩ := run_inv hT _ (inv_empty p) (l := []) (fun a => Iff.rfl) hv
  have hm : ∀ a, a ∈ (run p (xs.map Op.add)).accs ↔ a ∈ xs := by
    intro a
    unfold run
    rw [h2, hl]
    simp
  refine ⟨?_, ?_⟩
  · intro s
    obtain ⟨h3, h4⟩ := accesses_inv h1 s
    exact ⟨h3, fun a => by rw [← hm a]; exact h4 a⟩
  · exact (List.perm_ext_iff_of_nodup h1.nodup hx).2 hm

/-- **C164.** Accesses are added and accesses to arrays are removed in any order. For each scope the collection enumerates
each live access which is inside of this scope exactly once. The missing part: removal must leave at least one access in each
scope, see `erase_fails` and `erase_dangling_fails`. -/
theorem history_exact_partial (p : Prog) (hT : Tree p) (ops : List Op) (hv : ValidFrom p [] ops) (s : Nat) :
    ((run p ops).accesses s).Nodup ∧ ∀ a, a ∈ (run p ops).accesses s ↔ a ∈ liveFrom p [] ops ∧ s ∈ p.nest a := by
  obtain ⟨h1, h2⟩ := run_inv hT ops (inv_empty p) (l := []) (fun a => Iff.rfl) hv
  obtain ⟨h3, h4⟩ := accesses_inv h1 s
  exact ⟨h3, fun a => by rw [← h2 a]; exact h4 a⟩

/-- **C164.** The full statement fails: an access of another array is lost. -/
theorem erase_fails : ∃ (p : Prog) (ops : List Op) (s a : Nat), Tree p ∧ ops = [.add 1, .add 2, .add 3, .erase 0] ∧
    a ∈ liveFrom p [] ops ∧ s ∈ p.nest a ∧ a ∉ (run p ops).accesses s := by
  refine ⟨⟨fun a => if a = 1 then [1] else [2], fun a => if a = 3 then 9 else 0⟩, _, 2, 3, ⟨?_, ?_⟩, rfl, by decide, by decide,
    by decide⟩
  · intro a
    by_cases h : a = 1 <;> simp [h]
  · intro a b s ha hb
    by_cases h : a = 1 <;> by_cases h' : b = 1 <;> simp_all

/-- **C164.** Regardless of an order of scopes in a hash table, there is a scope which still refers to a removed access: a nest
of two loops with a single access. -/
theorem erase_dangling_fails : ∃ (p : Prog) (x : Nat), Tree p ∧
    ∀ es, es.Perm (run p [.add x]).entries →
      let i := Info.erase p (p.arr x) ⟨(run p [.add x]).accs, es⟩
      ∃ e ∈ i.entries, e.first ∉ i.accs := by
  refine ⟨⟨fun _ => [2, 1], fun _ => 0⟩, 5, ⟨by intro a; simp, by intro a b s _ _; rfl⟩, ?_⟩
  intro es hes
  have hl : es.length = 2 := hes.length_eq
  obtain ⟨a, b, rfl⟩ : ∃ a b, es = [a, b] := by
    match es, hl with
    | [a, b], _ => exact ⟨a, b, rfl⟩
  have hm : ∀ e ∈ [a, b], e = ⟨1, 5, none⟩ ∨ e = ⟨2, 5, none⟩ := by
    intro e he
    have := hes.mem_iff.1 he
    have h0 : (run ⟨fun _ => [2, 1], fun _ => 0⟩ [.add 5]).entries = [⟨1, 5, none⟩, ⟨2, 5, none⟩] := by decide
    rw [h0] at this
    simpa using this
  have hab : a ≠ b := by
    have hnd : (run ⟨fun _ => [2, 1], fun _ => 0⟩ [.add 5]).entries.Nodup := by decide
    have := hes.nodup_iff.2 hnd
    simpa using this
  rcases hm a (by simp) with ha | ha <;> rcases hm b (by simp) with hb | hb <;> subst ha <;> subst hb
  · exact absurd rfl hab
  · decide
  · decide
  · exact absurd rfl hab

/-! ### Non-vacuity -/

/-- Loops: 1 contains 2 and 3, 4 is a separate loop. -/
def exProg : Prog where
  nest a := if a = 1 then [2, 1] else if a = 2 then [1] else if a = 3 then [3, 1] else if a = 4 then [4] else
    if a = 5 then [2, 1] else []
  arr a := if a = 3 then 3 else if a = 1 then 1 else 2

theorem exTree : Tree exProg := by
  constructor
  · intro a
    unfold exProg
    by_cases h1 : a = 1 <;> by_cases h2 : a = 2 <;> by_cases h3 : a = 3 <;> by_cases h4 : a = 4 <;> by_cases h5 : a = 5 <;>
      simp [h1, h2, h3, h4, h5]
  · intro a b s ha hb
    have key : ∀ a, exProg.nest a = [2, 1] ∨ exProg.nest a = [1] ∨ exProg.nest a = [3, 1] ∨ exProg.nest a = [4] ∨
        exProg.nest a = [] := by
      intro a
      unfold exProg
      by_cases h1 : a = 1 <;> by_cases h2 : a = 2 <;> by_cases h3 : a = 3 <;> by_cases h4 : a = 4 <;> by_cases h5 : a = 5 <;>
        simp [h1, h2, h3, h4, h5]
    rcases key a with h | h | h | h | h <;> rcases key b with h' | h' | h' | h' | h' <;> rw [h] at ha ⊢ <;>
      rw [h'] at hb ⊢ <;> simp at ha hb <;> (try subst ha) <;> (try rcases ha with rfl | rfl) <;> simp_all

example : (run exProg ([1, 2, 3, 4, 5].map Op.add)).accesses 2 = [1, 5] ∧
    (run exProg ([1, 2, 3, 4, 5].map Op.add)).accesses 1 = [1, 5, 2, 3] := by decide

example : ValidFrom exProg [] [.add 1, .add 2, .add 5, .erase 1, .add 3] ∧
    (run exProg [.add 1, .add 2, .add 5, .erase 1, .add 3]).accesses 2 = [5] := by
  refine ⟨?_, by decide⟩
  refine ⟨by decide, by decide, by decide, ?_, by decide, trivial⟩
  unfold Kept
  decide

end Tsar.ArrayAccess
