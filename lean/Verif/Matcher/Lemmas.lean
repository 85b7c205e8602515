import Verif.Matcher.Model

/-!
# Lemmas about the matcher of loops
-/
namespace Tsar.Matcher

/-- Where a loop of LLVM IR is kept. -/
inductive Slot
  | ir (p : Place)
  | imp (p : Place)
  | done

/-- Every loop is kept once. -/
structure Owned (st : St) (own : IRLoop → Slot) : Prop where
  ir : ∀ p q, st.ir p = some q → q.items.Nodup ∧ ∀ l ∈ q.items, own l = .ir p
  imp : ∀ p q, st.implicit p = some q → q.items.Nodup ∧ ∀ l ∈ q.items, own l = .imp p
  pairs : ∀ e ∈ st.pairs, own e.2 = .done

section
variable {asserts : Bool} {presumed : Nat → Place} {loops : List IRLoop}

/-- The loops in the map are at the places of their keys. -/
def Placed (presumed : Nat → Place) (stmts : List Stmt) (loops : List IRLoop) (m : IRMap) : Prop :=
  ∀ p q, m p = some q → ∀ l ∈ q.items, l ∈ loops ∧ ∃ a, l.start = some a ∧
    Relation.ReflTransGen (Leads presumed stmts) a p

/-- A label and a loop: the terminator of the header of the loop is at a statement which follows the
label, with no other label between them. -/
def AfterLabel (presumed : Nat → Place) (stmts : List Stmt) (lb : Stmt) (l : IRLoop) : Prop :=
  ∃ before s after, stmts = before ++ s :: after ∧ lastLabel before = some lb ∧ ¬ s.isLoop ∧
    l.header ≠ none ∧ s.place presumed = l.header

theorem pop_cases {m m' : IRMap} {p : Place} {q : Queue} {r : Option IRLoop}
    (h : pop asserts m p q = some (r, m')) :
    (r = none ∧ m' = m) ∨ ∃ l rest, q.items = rest ++ [l] ∧ r = some l ∧
      m' = upd m p (some ⟨rest, q.big⟩) := by
  unfold pop at h
  split at h
  · split at h
    · exact absurd h (by simp)
    · simp only [Option.some.injEq, Prod.mk.injEq] at h
      exact Or.inl ⟨h.1.symm, h.2.symm⟩
  · next l hl =>
    simp only [Option.some.injEq, Prod.mk.injEq] at h
    refine Or.inr ⟨l, q.items.dropLast, ?_, h.1.symm, h.2.symm⟩
    have hne : q.items ≠ [] := by
      rintro he
      simp [he] at hl
    have := List.dropLast_append_getLast hne
    rw [List.getLast?_eq_some_getLast hne] at hl
    simp only [Option.some.injEq] at hl
    rw [← hl]
    exact this.symm

theorem findIR_cases {m m' : IRMap} {loc : Option Place} {r : Option IRLoop}
    (h : findIR asserts m loc = some (r, m')) :
    (r = none ∧ m' = m) ∨ ∃ p q l rest, loc = some p ∧ m p = some q ∧ q.items = rest ++ [l] ∧
      r = some l ∧ m' = upd m p (some ⟨rest, q.big⟩) := by
  unfold findIR at h
  split at h
  · simp only [Option.some.injEq, Prod.mk.injEq] at h
    exact Or.inl ⟨h.1.symm, h.2.symm⟩
  · next p =>
    split at h
    · simp only [Option.some.injEq, Prod.mk.injEq] at h
      exact Or.inl ⟨h.1.symm, h.2.symm⟩
    · next q hq =>
      rcases pop_cases h with h | ⟨l, rest, h1, h2, h3⟩
      · exact Or.inl h
      · exact Or.inr ⟨p, q, l, rest, rfl, hq, h1, h2, h3⟩

theorem visitInit_cases {st st' : St} {s : Stmt}
    (h : visitInit asserts presumed st s = some (some st')) :
    ∃ p q l rest, s.isLoop ∧ s.initPlace presumed = some p ∧ st.ir p = some q ∧
      q.items = rest ++ [l] ∧ st'.pairs = emplace st.pairs s l ∧ st'.implicit = st.implicit ∧
      st'.macros = st.macros ∧ st'.unmatched = st.unmatched ∧
      ((rest = [] ∧ st'.ir = upd st.ir p (some ⟨[], q.big⟩)) ∨ st'.ir = upd st.ir p none ∨
        ∃ h, s.place presumed = some h ∧ (h = p ∨ st.ir h = none) ∧
          st'.ir = upd (upd st.ir p none) h (some ⟨rest, q.big⟩)) := by
  have hupd : ∀ (m : IRMap) p a, upd (upd m p a) p none = upd m p none := by
    intro m p a
    funext k
    simp only [upd]
    split <;> rfl
  unfold visitInit at h
  split at h
  · simp at h
  · next p hp =>
    have hl : s.isLoop := by
      unfold Stmt.initPlace at hp
      unfold Stmt.isLoop
      split at hp
      · next hk => simp [hk]
      · simp at hp
    split at h
    · simp at h
    · next q hq =>
      split at h
      · simp at h
      · simp at h
      · next l ir hpop =>
        rcases pop_cases hpop with ⟨h1, _⟩ | ⟨l', rest, h1, h2, h3⟩
        · simp at h1
        · simp only [Option.some.injEq] at h2
          subst h2
          have hd : q.items.dropLast = rest := by simp [h1]
          refine ⟨p, q, l, rest, hl, hp, hq, h1, ?_⟩
          simp only [hd, h3, hupd] at h
          split at h
          · next hr =>
            simp only [Option.some.injEq] at h
            subst h
            exact ⟨rfl, rfl, rfl, rfl, Or.inl ⟨hr, by rw [hr]⟩⟩
          · split at h
            · next hd' hh =>
              split at h
              · next hc =>
                simp only [Option.some.injEq] at h
                subst h
                refine ⟨rfl, rfl, rfl, rfl, Or.inr (Or.inr ⟨hd', hc.1, ?_, rfl⟩)⟩
                by_cases hhp : hd' = p
                · exact Or.inl hhp
                · right
                  simpa [upd, hhp] using hc.2
              · simp only [Option.some.injEq] at h
                subst h
                exact ⟨rfl, rfl, rfl, rfl, Or.inr (Or.inl rfl)⟩
            · simp only [Option.some.injEq] at h
              subst h
              exact ⟨rfl, rfl, rfl, rfl, Or.inr (Or.inl rfl)⟩

theorem visitStart_cases {st st' : St} {s : Stmt}
    (h : visitStart asserts presumed st s = some st') :
    st'.macros = st.macros ∧
    ((st'.ir = st.ir ∧ st'.implicit = st.implicit ∧ st'.pairs = st.pairs ∧
        ((s.isLoop ∧ st'.unmatched = st.unmatched ++ [s]) ∨
          (¬ s.isLoop ∧ st'.unmatched = st.unmatched))) ∨
      ∃ p q l rest, s.place presumed = some p ∧ st.ir p = some q ∧ q.items = rest ++ [l] ∧
        st'.ir = upd st.ir p (some ⟨rest, q.big⟩) ∧ st'.unmatched = st.unmatched ∧
        ((s.isLoop ∧ st'.implicit = st.implicit ∧ st'.pairs = emplace st.pairs s l) ∨
          (¬ s.isLoop ∧ st'.pairs = st.pairs ∧
            ((l.header = none ∧ st'.implicit = st.implicit) ∨
              ∃ hd, l.header = some hd ∧ st'.implicit = pushIR st.implicit hd l)))) := by
  unfold visitStart at h
  split at h
  · simp at h
  · next r ir hf =>
    rcases findIR_cases hf with ⟨h1, h2⟩ | ⟨p, q, l, rest, h1, h2, h3, h4, h5⟩
    · subst h1
      subst h2
      split at h
      · next hl =>
        simp only [Option.some.injEq] at h
        subst h
        exact ⟨rfl, Or.inl ⟨rfl, rfl, rfl, Or.inl ⟨hl, rfl⟩⟩⟩
      · next hl =>
        simp only [Option.some.injEq] at h
        subst h
        exact ⟨rfl, Or.inl ⟨rfl, rfl, rfl, Or.inr ⟨hl, rfl⟩⟩⟩
    · subst h4
      subst h5
      split at h
      · next hl =>
        simp only [Option.some.injEq] at h
        subst h
        exact ⟨rfl, Or.inr ⟨p, q, l, rest, h1, h2, h3, rfl, rfl, Or.inl ⟨hl, rfl, rfl⟩⟩⟩
      · next hl =>
        dsimp only at h
        split at h
        · next hd hh =>
          simp only [Option.some.injEq] at h
          subst h
          exact ⟨rfl, Or.inr ⟨p, q, l, rest, h1, h2, h3, rfl, rfl,
            Or.inr ⟨hl, rfl, Or.inr ⟨hd, hh, rfl⟩⟩⟩⟩
        · next hh =>
          simp only [Option.some.injEq] at h
          subst h
          exact ⟨rfl, Or.inr ⟨p, q, l, rest, h1, h2, h3, rfl, rfl,
            Or.inr ⟨hl, rfl, Or.inl ⟨hh, rfl⟩⟩⟩⟩

theorem visitExplicit_cases {st st' : St} {s : Stmt}
    (h : visitExplicit asserts presumed st s = some st') :
    (∃ raw, s.begin_ = .inMacro raw ∧ st' = visitFromMacro st s raw) ∨
    ((∀ raw, s.begin_ ≠ .inMacro raw) ∧
      (visitInit asserts presumed st s = some (some st') ∨
        (visitInit asserts presumed st s = some none ∧
          visitStart asserts presumed st s = some st'))) := by
  unfold visitExplicit at h
  split at h
  · next raw hb =>
    simp only [Option.some.injEq] at h
    exact Or.inl ⟨raw, hb, h.symm⟩
  · next hb =>
    refine Or.inr ⟨fun raw hr => hb raw hr, ?_⟩
    split at h
    · simp at h
    · next st'' hi =>
      simp only [Option.some.injEq] at h
      subst h
      exact Or.inl hi
    · next hi => exact Or.inr ⟨hi, h⟩

/-! ### Pairs -/

theorem mem_emplace {m : List (Stmt × IRLoop)} {s : Stmt} {l : IRLoop} {e : Stmt × IRLoop}
    (h : e ∈ emplace m s l) : e ∈ m ∨ e = (s, l) := by
  unfold emplace at h
  split at h
  · exact Or.inl h
  · simpa using h

theorem subset_emplace {m : List (Stmt × IRLoop)} {s : Stmt} {l : IRLoop} {e : Stmt × IRLoop}
    (h : e ∈ m) : e ∈ emplace m s l := by
  unfold emplace
  split
  · exact h
  · simp [h]

theorem emplace_new {m : List (Stmt × IRLoop)} {s : Stmt} {l : IRLoop}
    (h : ∀ e ∈ m, e.1 ≠ s ∧ e.2 ≠ l) : emplace m s l = m ++ [(s, l)] := by
  unfold emplace
  rw [if_neg]
  rintro ⟨e, he, h1 | h1⟩
  · exact (h e he).1 h1
  · exact (h e he).2 h1

/-- One to one. -/
def OneToOne (m : List (Stmt × IRLoop)) : Prop := (m.map Prod.fst).Nodup ∧ (m.map Prod.snd).Nodup

theorem OneToOne.emplace {m : List (Stmt × IRLoop)} (h : OneToOne m) (s : Stmt) (l : IRLoop) :
    OneToOne (emplace m s l) := by
  unfold Matcher.emplace
  split
  · exact h
  · next hn =>
    push Not at hn
    constructor
    · rw [List.map_append, List.nodup_append]
      refine ⟨h.1, by simp, ?_⟩
      intro a ha b hb
      simp only [List.map_cons, List.map_nil, List.mem_singleton] at hb
      obtain ⟨e, he, rfl⟩ := List.mem_map.1 ha
      rw [hb]
      exact (hn e he).1
    · rw [List.map_append, List.nodup_append]
      refine ⟨h.2, by simp, ?_⟩
      intro a ha b hb
      simp only [List.map_cons, List.map_nil, List.mem_singleton] at hb
      obtain ⟨e, he, rfl⟩ := List.mem_map.1 ha
      rw [hb]
      exact (hn e he).2

/-! ### Ownership -/

theorem Owned.fresh {st : St} {own : IRLoop → Slot} (h : Owned st own) {p : Place} {q : Queue}
    (hq : st.ir p = some q) {l : IRLoop} (hl : l ∈ q.items) : ∀ e ∈ st.pairs, e.2 ≠ l := by
  intro e he hc
  have h1 := h.pairs e he
  have h2 := (h.ir p q hq).2 l hl
  rw [hc, h2] at h1
  cases h1

theorem Owned.freshImp {st : St} {own : IRLoop → Slot} (h : Owned st own) {p : Place} {q : Queue}
    (hq : st.implicit p = some q) {l : IRLoop} (hl : l ∈ q.items) : ∀ e ∈ st.pairs, e.2 ≠ l := by
  intro e he hc
  have h1 := h.pairs e he
  have h2 := (h.imp p q hq).2 l hl
  rw [hc, h2] at h1
  cases h1

/-- Ownership is kept when a loop `l` and a list of loops `rest` of one queue move elsewhere. -/
theorem Owned.take {st st' : St} {own : IRLoop → Slot} (h : Owned st own) {p : Place} {q : Queue}
    (hq : st.ir p = some q) {l : IRLoop} {rest : List IRLoop} (hi : q.items = rest ++ [l])
    (hir : ∀ p' q', st'.ir p' = some q' → (p' = p ∧ q'.items = rest) ∨
      (p' ≠ p ∧ st.ir p' = some q'))
    (himp : st'.implicit = st.implicit)
    (hp : ∀ e ∈ st'.pairs, e ∈ st.pairs ∨ e.2 = l) : ∃ own, Owned st' own := by
  have hq' := h.ir p q hq
  rw [hi, List.nodup_append] at hq'
  have hlr : l ∉ rest := fun hc => hq'.1.2.2 l hc l (by simp) rfl
  have hown : own l = .ir p := hq'.2 l (by simp)
  refine ⟨fun x => if x = l then .done else own x, ?_, ?_, ?_⟩
  · intro p' q' hp'
    rcases hir p' q' hp' with ⟨rfl, he⟩ | ⟨hne, he⟩
    · rw [he]
      refine ⟨hq'.1.1, fun x hx => ?_⟩
      have : x ≠ l := fun hc => hlr (hc ▸ hx)
      rw [if_neg this]
      exact hq'.2 x (by simp [hx])
    · have := h.ir p' q' he
      refine ⟨this.1, fun x hx => ?_⟩
      have hxl : x ≠ l := by
        rintro rfl
        have h1 := this.2 x hx
        rw [hown] at h1
        exact hne (by injection h1 with h2; exact h2.symm)
      rw [if_neg hxl]
      exact this.2 x hx
  · intro p' q' hp'
    rw [himp] at hp'
    have := h.imp p' q' hp'
    refine ⟨this.1, fun x hx => ?_⟩
    have hxl : x ≠ l := by
      rintro rfl
      have h1 := this.2 x hx
      rw [hown] at h1
      cases h1
    rw [if_neg hxl]
    exact this.2 x hx
  · intro e he
    by_cases hc : e.2 = l
    · simp [hc]
    · rw [if_neg hc]
      exact h.pairs e ((hp e he).resolve_right hc)

/-- Ownership is kept when a loop moves to the queues of implicit loops. -/
theorem Owned.takeImp {st st' : St} {own : IRLoop → Slot} (h : Owned st own) {p : Place}
    {q : Queue} (hq : st.ir p = some q) {l : IRLoop} {rest : List IRLoop}
    (hi : q.items = rest ++ [l]) (hir : st'.ir = upd st.ir p (some ⟨rest, q.big⟩)) {hd : Place}
    (himp : st'.implicit = pushIR st.implicit hd l) (hp : st'.pairs = st.pairs) :
    ∃ own, Owned st' own := by
  have hq' := h.ir p q hq
  rw [hi, List.nodup_append] at hq'
  have hlr : l ∉ rest := fun hc => hq'.1.2.2 l hc l (by simp) rfl
  have hown : own l = .ir p := hq'.2 l (by simp)
  have himpl : ∀ p' q', st.implicit p' = some q' → l ∉ q'.items := by
    intro p' q' h1 h2
    have := (h.imp p' q' h1).2 l h2
    rw [hown] at this
    cases this
  refine ⟨fun x => if x = l then .imp hd else own x, ?_, ?_, ?_⟩
  · intro p' q' hp'
    rw [hir] at hp'
    simp only [upd] at hp'
    split at hp'
    · next hpp =>
      subst hpp
      simp only [Option.some.injEq] at hp'
      subst hp'
      refine ⟨hq'.1.1, fun x hx => ?_⟩
      have : x ≠ l := fun hc => hlr (hc ▸ hx)
      rw [if_neg this]
      exact hq'.2 x (by simp only at hx; simp [hx])
    · next hne =>
      have := h.ir p' q' hp'
      refine ⟨this.1, fun x hx => ?_⟩
      have hxl : x ≠ l := by
        rintro rfl
        have h1 := this.2 x hx
        rw [hown] at h1
        exact hne (by injection h1 with h2; exact h2.symm)
      rw [if_neg hxl]
      exact this.2 x hx
  · intro p' q' hp'
    rw [himp] at hp'
    simp only [pushIR, upd] at hp'
    split at hp'
    · next hpp =>
      subst hpp
      simp only [Option.some.injEq] at hp'
      subst hp'
      cases hc : st.implicit p' with
      | none => simp [Queue.add]
      | some q'' =>
        have := h.imp p' q'' hc
        simp only [Option.getD_some, Queue.add]
        refine ⟨?_, fun x hx => ?_⟩
        · rw [List.nodup_append]
          refine ⟨this.1, by simp, ?_⟩
          rintro a ha b hb rfl
          simp only [List.mem_singleton] at hb
          exact himpl p' q'' hc (hb ▸ ha)
        · by_cases hxl : x = l
          · simp [hxl]
          · rw [if_neg hxl]
            simp only [List.mem_append, List.mem_singleton] at hx
            exact this.2 x (hx.resolve_right hxl)
    · have := h.imp p' q' hp'
      refine ⟨this.1, fun x hx => ?_⟩
      have hxl : x ≠ l := by
        rintro rfl
        exact himpl p' q' hp' hx
      rw [if_neg hxl]
      exact this.2 x hx
  · intro e he
    rw [hp] at he
    have h1 := h.pairs e he
    have hxl : e.2 ≠ l := by
      intro hc
      rw [hc, hown] at h1
      cases h1
    rw [if_neg hxl]
    exact h1

/-- Ownership is kept when the rest of a queue gets another key. -/
theorem Owned.takeKey {st st' : St} {own : IRLoop → Slot} (h : Owned st own) {p : Place}
    {q : Queue} (hq : st.ir p = some q) {l : IRLoop} {rest : List IRLoop}
    (hi : q.items = rest ++ [l]) {hd : Place} (hh : hd = p ∨ st.ir hd = none)
    (hir : st'.ir = upd (upd st.ir p none) hd (some ⟨rest, q.big⟩))
    (himp : st'.implicit = st.implicit)
    (hp : ∀ e ∈ st'.pairs, e ∈ st.pairs ∨ e.2 = l) : ∃ own, Owned st' own := by
  have hq' := h.ir p q hq
  rw [hi, List.nodup_append] at hq'
  have hlr : l ∉ rest := fun hc => hq'.1.2.2 l hc l (by simp) rfl
  have hown : ∀ x ∈ rest ++ [l], own x = .ir p := hq'.2
  refine ⟨fun x => if x = l then .done else if x ∈ rest then .ir hd else own x, ?_, ?_, ?_⟩
  · intro p' q' hp'
    rw [hir] at hp'
    simp only [upd] at hp'
    split at hp'
    · next hpp =>
      subst hpp
      simp only [Option.some.injEq] at hp'
      subst hp'
      refine ⟨hq'.1.1, fun x hx => ?_⟩
      have : x ≠ l := fun hc => hlr (hc ▸ hx)
      simp only at hx
      rw [if_neg this, if_pos hx]
    · next hne =>
      split at hp'
      · simp at hp'
      · next hnp =>
        have := h.ir p' q' hp'
        refine ⟨this.1, fun x hx => ?_⟩
        have hxl : x ∉ rest ++ [l] := by
          intro hc
          have h1 := this.2 x hx
          rw [hown x hc] at h1
          exact hnp (by injection h1 with h2; exact h2.symm)
        simp only [List.mem_append, List.mem_singleton, not_or] at hxl
        rw [if_neg hxl.2, if_neg hxl.1]
        exact this.2 x hx
  · intro p' q' hp'
    rw [himp] at hp'
    have := h.imp p' q' hp'
    refine ⟨this.1, fun x hx => ?_⟩
    have hxl : x ∉ rest ++ [l] := by
      intro hc
      have h1 := this.2 x hx
      rw [hown x hc] at h1
      cases h1
    simp only [List.mem_append, List.mem_singleton, not_or] at hxl
    rw [if_neg hxl.2, if_neg hxl.1]
    exact this.2 x hx
  · intro e he
    by_cases hc : e.2 = l
    · simp [hc]
    · have h0 := (hp e he).resolve_right hc
      have h1 := h.pairs e h0
      have hxl : e.2 ∉ rest := by
        intro hc'
        rw [hown e.2 (by simp [hc'])] at h1
        cases h1
      rw [if_neg hc, if_neg hxl]
      exact h1

/-! ### The invariant -/

/-- The invariant of the matcher. -/
structure Inv (presumed : Nat → Place) (stmts : List Stmt) (loops : List IRLoop) (st : St) : Prop where
  own : ∃ own, Owned st own
  placed : Placed presumed stmts loops st.ir
  imp : ∀ p q, st.implicit p = some q → ∀ l ∈ q.items, l ∈ loops ∧ l.header = some p
  pairs : ∀ e ∈ st.pairs, e.2 ∈ loops ∧
    ((e.1 ∈ stmts ∧ e.1.isLoop ∧ SamePlace presumed stmts e.1 e.2) ∨
    (e.1.kind = .label ∧ AfterLabel presumed stmts e.1 e.2))
  oto : OneToOne st.pairs
  mac : ∀ raw q, st.macros raw = some q → ∀ s ∈ q, s ∈ stmts ∧ s.isLoop ∧ s.begin_ = .inMacro raw

theorem Placed.same {stmts : List Stmt} {m : IRMap} (h : Placed presumed stmts loops m) {p : Place}
    {q : Queue} (hq : m p = some q) {l : IRLoop} (hl : l ∈ q.items) {s : Stmt}
    (hs : s.place presumed = some p ∨ s.initPlace presumed = some p) : SamePlace presumed stmts s l := by
  obtain ⟨-, a, h1, h2⟩ := h p q hq l hl
  exact ⟨a, p, h1, h2, hs⟩

theorem Placed.sub {stmts : List Stmt} {m m' : IRMap} (h : Placed presumed stmts loops m)
    (hs : ∀ p q', m' p = some q' → q'.items = [] ∨ ∃ q, m p = some q ∧ q'.items ⊆ q.items) :
    Placed presumed stmts loops m' := by
  intro p q' hq' l hl
  rcases hs p q' hq' with h0 | ⟨q, h1, h2⟩
  · simp [h0] at hl
  · exact h p q h1 l (h2 hl)

theorem upd_sub {m : IRMap} {p : Place} {q : Queue} (hq : m p = some q) {rest : List IRLoop}
    (hr : rest ⊆ q.items) {b : Bool} : ∀ p' q', upd m p (some ⟨rest, b⟩) p' = some q' →
      q'.items = [] ∨ ∃ q, m p' = some q ∧ q'.items ⊆ q.items := by
  intro p' q' h
  simp only [upd] at h
  split at h
  · next hp =>
    subst hp
    simp only [Option.some.injEq] at h
    subst h
    exact Or.inr ⟨q, hq, hr⟩
  · exact Or.inr ⟨q', h, fun _ hx => hx⟩

theorem Inv.visitInit {stmts : List Stmt} {st st' : St} {s : Stmt} (hi : Inv presumed stmts loops st)
    (hs : s ∈ stmts) (h : visitInit asserts presumed st s = some (some st')) :
    Inv presumed stmts loops st' := by
  obtain ⟨p, q, l, rest, hloop, hp, hq, hit, hpairs, himp, hmac, hun, hir⟩ := visitInit_cases h
  obtain ⟨own, hown⟩ := hi.own
  have hl : l ∈ q.items := by simp [hit]
  have hrest : rest ⊆ q.items := by simp [hit]
  have hpm : ∀ e ∈ st'.pairs, e ∈ st.pairs ∨ e.2 = l := by
    intro e he
    rw [hpairs] at he
    rcases mem_emplace he with h1 | h1
    · exact Or.inl h1
    · exact Or.inr (by simp [h1])
  refine ⟨?_, ?_, ?_, ?_, ?_, ?_⟩
  · rcases hir with ⟨h0, hir⟩ | hir | ⟨hd, h1, h2, hir⟩
    · refine hown.take hq hit ?_ himp hpm
      intro p' q' hp'
      rw [hir] at hp'
      simp only [upd] at hp'
      split at hp'
      · next hpp =>
        simp only [Option.some.injEq] at hp'
        subst hp'
        exact Or.inl ⟨hpp, h0.symm⟩
      · next hpp => exact Or.inr ⟨hpp, hp'⟩
    · refine hown.take hq hit ?_ himp hpm
      intro p' q' hp'
      rw [hir] at hp'
      simp only [upd] at hp'
      split at hp'
      · simp at hp'
      · next hpp => exact Or.inr ⟨hpp, hp'⟩
    · exact hown.takeKey hq hit h2 hir himp hpm
  · rcases hir with ⟨_, hir⟩ | hir | ⟨hd, h1, h2, hir⟩
    · rw [hir]
      exact hi.placed.sub (upd_sub hq (by simp))
    · rw [hir]
      refine hi.placed.sub ?_
      intro p' q' hp'
      simp only [upd] at hp'
      split at hp'
      · simp at hp'
      · exact Or.inr ⟨q', hp', fun _ hx => hx⟩
    · rw [hir]
      intro p' q' hp' x hx
      simp only [upd] at hp'
      split at hp'
      · next hpp =>
        simp only [Option.some.injEq] at hp'
        subst hp'
        simp only at hx
        obtain ⟨h0, a, h3, h4⟩ := hi.placed p q hq x (hrest hx)
        exact ⟨h0, a, h3, h4.tail ⟨s, hs, hloop, hp, by rw [h1, hpp]⟩⟩
      · split at hp'
        · simp at hp'
        · exact hi.placed p' q' hp' x hx
  · rw [himp]
    exact hi.imp
  · intro e he
    rw [hpairs] at he
    rcases mem_emplace he with h1 | h1
    · exact hi.pairs e h1
    · subst h1
      exact ⟨(hi.placed p q hq l hl).1, Or.inl ⟨hs, hloop, hi.placed.same hq hl (Or.inr hp)⟩⟩
  · rw [hpairs]
    exact hi.oto.emplace s l
  · rw [hmac]
    exact hi.mac

theorem Inv.visitStart {stmts : List Stmt} {st st' : St} {s : Stmt} (hi : Inv presumed stmts loops st)
    (hs : s ∈ stmts) (h : visitStart asserts presumed st s = some st') :
    Inv presumed stmts loops st' := by
  obtain ⟨hmac, hc⟩ := visitStart_cases h
  obtain ⟨own, hown⟩ := hi.own
  rcases hc with ⟨hir, himp, hpairs, _⟩ | ⟨p, q, l, rest, hp, hq, hit, hir, _, hc⟩
  · refine ⟨⟨own, ?_, ?_, ?_⟩, ?_, ?_, ?_, ?_, ?_⟩
    · rw [hir]; exact hown.ir
    · rw [himp]; exact hown.imp
    · rw [hpairs]; exact hown.pairs
    · rw [hir]; exact hi.placed
    · rw [himp]; exact hi.imp
    · rw [hpairs]; exact hi.pairs
    · rw [hpairs]; exact hi.oto
    · rw [hmac]; exact hi.mac
  · have hl : l ∈ q.items := by simp [hit]
    have hrest : rest ⊆ q.items := by simp [hit]
    have hpl : Placed presumed stmts loops st'.ir := by
      rw [hir]
      exact hi.placed.sub (upd_sub hq hrest)
    have hir' : ∀ p' q', st'.ir p' = some q' → (p' = p ∧ q'.items = rest) ∨
        (p' ≠ p ∧ st.ir p' = some q') := by
      intro p' q' hp'
      rw [hir] at hp'
      simp only [upd] at hp'
      split at hp'
      · next hpp =>
        simp only [Option.some.injEq] at hp'
        subst hp'
        exact Or.inl ⟨hpp, rfl⟩
      · next hpp => exact Or.inr ⟨hpp, hp'⟩
    have hmac' : ∀ raw q, st'.macros raw = some q → ∀ s ∈ q, s ∈ stmts ∧ s.isLoop ∧
        s.begin_ = .inMacro raw := by
      rw [hmac]
      exact hi.mac
    rcases hc with ⟨hloop, himp, hpairs⟩ | ⟨hloop, hpairs, hc⟩
    · refine ⟨hown.take hq hit hir' himp ?_, hpl, by rw [himp]; exact hi.imp, ?_, ?_, hmac'⟩
      · intro e he
        rw [hpairs] at he
        rcases mem_emplace he with h1 | h1
        · exact Or.inl h1
        · exact Or.inr (by simp [h1])
      · intro e he
        rw [hpairs] at he
        rcases mem_emplace he with h1 | h1
        · exact hi.pairs e h1
        · subst h1
          exact ⟨(hi.placed p q hq l hl).1, Or.inl ⟨hs, hloop, hi.placed.same hq hl (Or.inl hp)⟩⟩
      · rw [hpairs]
        exact hi.oto.emplace s l
    · have h1 : ∀ e ∈ st'.pairs, e.2 ∈ loops ∧
          ((e.1 ∈ stmts ∧ e.1.isLoop ∧ SamePlace presumed stmts e.1 e.2) ∨
          (e.1.kind = .label ∧ AfterLabel presumed stmts e.1 e.2)) := by
        rw [hpairs]
        exact hi.pairs
      have h2 : OneToOne st'.pairs := by
        rw [hpairs]
        exact hi.oto
      rcases hc with ⟨_, himp⟩ | ⟨hd, hh, himp⟩
      · exact ⟨hown.take hq hit hir' himp (by rw [hpairs]; exact fun e he => Or.inl he), hpl,
          by rw [himp]; exact hi.imp, h1, h2, hmac'⟩
      · refine ⟨hown.takeImp hq hit hir himp hpairs, hpl, ?_, h1, h2, hmac'⟩
        intro p' q' hp' x hx
        rw [himp] at hp'
        simp only [pushIR, upd] at hp'
        split at hp'
        · next hpp =>
          simp only [Option.some.injEq] at hp'
          subst hp'
          simp only [Queue.add, List.mem_append, List.mem_singleton] at hx
          rcases hx with hx | hx
          · cases hc : st.implicit hd with
            | none => simp [hc] at hx
            | some q'' =>
              rw [hc] at hx
              rw [hpp]
              exact hi.imp hd q'' hc x hx
          · rw [hx, hh, hpp]
            exact ⟨(hi.placed p q hq l hl).1, rfl⟩
        · exact hi.imp p' q' hp' x hx

theorem Inv.visitFromMacro {stmts : List Stmt} {st : St} {s : Stmt} (hi : Inv presumed stmts loops st)
    (hs : s ∈ stmts) {raw : Nat} (hr : s.begin_ = .inMacro raw) :
    Inv presumed stmts loops (visitFromMacro st s raw) := by
  unfold Matcher.visitFromMacro
  split
  · next hl =>
    obtain ⟨own, hown⟩ := hi.own
    refine ⟨⟨own, hown.ir, hown.imp, hown.pairs⟩, hi.placed, hi.imp, hi.pairs, hi.oto, ?_⟩
    intro raw' q hq x hx
    simp only [pushStmt, upd] at hq
    split at hq
    · next hrr =>
      simp only [Option.some.injEq] at hq
      subst hq
      simp only [List.mem_append, List.mem_singleton] at hx
      rcases hx with hx | hx
      · cases hc : st.macros raw with
        | none => simp [hc] at hx
        | some q'' =>
          rw [hc] at hx
          rw [hrr]
          exact hi.mac raw q'' hc x hx
      · subst hx
        exact ⟨hs, hl, by rw [hr, hrr]⟩
    · exact hi.mac raw' q hq x hx
  · exact hi

theorem Inv.explicit {stmts : List Stmt} : ∀ {ss : List Stmt} {st st' : St},
    Inv presumed stmts loops st → (∀ s ∈ ss, s ∈ stmts) → explicit asserts presumed st ss = some st' →
    Inv presumed stmts loops st'
  | [], st, st', hi, _, h => by
    simp only [Matcher.explicit, Option.some.injEq] at h
    exact h ▸ hi
  | s :: ss, st, st', hi, hs, h => by
    simp only [Matcher.explicit] at h
    split at h
    · simp at h
    · next st1 h1 =>
      refine Inv.explicit ?_ (fun x hx => hs x (by simp [hx])) h
      rcases visitExplicit_cases h1 with ⟨raw, hb, rfl⟩ | ⟨_, h2 | ⟨_, h2⟩⟩
      · exact hi.visitFromMacro (hs s (by simp)) hb
      · exact hi.visitInit (hs s (by simp)) h2
      · exact hi.visitStart (hs s (by simp)) h2

theorem visitImplicit_cases {st st' : St} {last last' : Option Stmt} {s : Stmt}
    (h : visitImplicit asserts presumed st last s = some (st', last')) :
    st'.ir = st.ir ∧ st'.macros = st.macros ∧ st'.unmatched = st.unmatched ∧
    last' = (if s.kind = .label then some s else last) ∧
    ((st'.implicit = st.implicit ∧ st'.pairs = st.pairs) ∨
      ∃ lb p q l rest, last = some lb ∧ ¬ s.isLoop ∧ s.place presumed = some p ∧
        st.implicit p = some q ∧ q.items = rest ++ [l] ∧
        st'.implicit = upd st.implicit p (some ⟨rest, q.big⟩) ∧
        st'.pairs = emplace st.pairs lb l) := by
  unfold visitImplicit at h
  split at h
  · next hl =>
    simp only [Option.some.injEq, Prod.mk.injEq] at h
    obtain ⟨rfl, rfl⟩ := h
    have : s.kind ≠ .label := by
      intro hk
      simp [Stmt.isLoop, hk] at hl
    simp [this]
  · next hl =>
    split at h
    · next hk =>
      simp only [Option.some.injEq, Prod.mk.injEq] at h
      obtain ⟨rfl, rfl⟩ := h
      simp [hk]
    · next hk =>
      split at h
      · simp only [Option.some.injEq, Prod.mk.injEq] at h
        obtain ⟨rfl, rfl⟩ := h
        simp [hk]
      · next lb =>
        split at h
        · simp at h
        · next l im hf =>
          simp only [Option.some.injEq, Prod.mk.injEq] at h
          obtain ⟨rfl, rfl⟩ := h
          rcases findIR_cases hf with ⟨h1, _⟩ | ⟨p, q, l', rest, h1, h2, h3, h4, h5⟩
          · simp at h1
          · simp only [Option.some.injEq] at h4
            subst h4
            refine ⟨rfl, rfl, rfl, by simp [hk], Or.inr ⟨lb, p, q, l, rest, rfl, hl, h1, h2, h3, h5,
              rfl⟩⟩
        · next im hf =>
          simp only [Option.some.injEq, Prod.mk.injEq] at h
          obtain ⟨rfl, rfl⟩ := h
          rcases findIR_cases hf with ⟨_, h1⟩ | ⟨p, q, l', rest, h1, h2, h3, h4, h5⟩
          · exact ⟨rfl, rfl, rfl, by simp [hk], Or.inl ⟨h1, rfl⟩⟩
          · simp at h4

theorem lastLabel_snoc (pre : List Stmt) (s : Stmt) :
    lastLabel (pre ++ [s]) = if s.kind = .label then some s else lastLabel pre := by
  unfold lastLabel
  by_cases h : s.kind = .label <;> simp [List.filter_append, h]

theorem lastLabel_label {pre : List Stmt} {lb : Stmt} (h : lastLabel pre = some lb) :
    lb.kind = .label := by
  unfold lastLabel at h
  have := List.mem_of_getLast? h
  simpa using (List.mem_filter.1 this).2

theorem Inv.implicitFrom {stmts : List Stmt} : ∀ {ss pre : List Stmt} {last : Option Stmt}
    {st st' : St}, Inv presumed stmts loops st → stmts = pre ++ ss → last = lastLabel pre →
    implicitFrom asserts presumed st last ss = some st' → Inv presumed stmts loops st'
  | [], _, _, st, st', hi, _, _, h => by
    simp only [Matcher.implicitFrom, Option.some.injEq] at h
    exact h ▸ hi
  | s :: ss, pre, last, st, st', hi, hst, hlast, h => by
    simp only [Matcher.implicitFrom] at h
    split at h
    · simp at h
    · next st1 last1 h1 =>
      obtain ⟨hir, hmac, hun, hl1, hc⟩ := visitImplicit_cases h1
      refine Inv.implicitFrom (pre := pre ++ [s]) ?_ (by simp [hst])
        (by rw [hl1, lastLabel_snoc, hlast]) h
      obtain ⟨own, hown⟩ := hi.own
      rcases hc with ⟨himp, hpairs⟩ | ⟨lb, p, q, l, rest, hlb, hnl, hp, hq, hit, himp, hpairs⟩
      · refine ⟨⟨own, ?_, ?_, ?_⟩, ?_, ?_, ?_, ?_, ?_⟩
        · rw [hir]; exact hown.ir
        · rw [himp]; exact hown.imp
        · rw [hpairs]; exact hown.pairs
        · rw [hir]; exact hi.placed
        · rw [himp]; exact hi.imp
        · rw [hpairs]; exact hi.pairs
        · rw [hpairs]; exact hi.oto
        · rw [hmac]; exact hi.mac
      · have hl : l ∈ q.items := by simp [hit]
        have hq' := hown.imp p q hq
        rw [hit, List.nodup_append] at hq'
        have hlr : l ∉ rest := fun hc => hq'.1.2.2 l hc l (by simp) rfl
        have hol : own l = .imp p := hq'.2 l (by simp)
        refine ⟨⟨fun x => if x = l then .done else own x, ?_, ?_, ?_⟩, ?_, ?_, ?_, ?_, ?_⟩
        · intro p' q' hp'
          rw [hir] at hp'
          have := hown.ir p' q' hp'
          refine ⟨this.1, fun x hx => ?_⟩
          have hxl : x ≠ l := by
            rintro rfl
            have h3 := this.2 x hx
            rw [hol] at h3
            cases h3
          rw [if_neg hxl]
          exact this.2 x hx
        · intro p' q' hp'
          rw [himp] at hp'
          simp only [upd] at hp'
          split at hp'
          · next hpp =>
            subst hpp
            simp only [Option.some.injEq] at hp'
            subst hp'
            refine ⟨hq'.1.1, fun x hx => ?_⟩
            simp only at hx
            have hxl : x ≠ l := fun hc => hlr (hc ▸ hx)
            rw [if_neg hxl]
            exact hq'.2 x (by simp [hx])
          · next hpp =>
            have := hown.imp p' q' hp'
            refine ⟨this.1, fun x hx => ?_⟩
            have hxl : x ≠ l := by
              rintro rfl
              have h3 := this.2 x hx
              rw [hol] at h3
              exact hpp (by injection h3 with h4; exact h4.symm)
            rw [if_neg hxl]
            exact this.2 x hx
        · intro e he
          rw [hpairs] at he
          by_cases hc : e.2 = l
          · simp [hc]
          · rw [if_neg hc]
            rcases mem_emplace he with h3 | h3
            · exact hown.pairs e h3
            · exact absurd (by simp [h3]) hc
        · rw [hir]; exact hi.placed
        · intro p' q' hp' x hx
          rw [himp] at hp'
          simp only [upd] at hp'
          split at hp'
          · next hpp =>
            subst hpp
            simp only [Option.some.injEq] at hp'
            subst hp'
            simp only at hx
            exact hi.imp p' q hq x (by simp [hit, hx])
          · exact hi.imp p' q' hp' x hx
        · intro e he
          rw [hpairs] at he
          rcases mem_emplace he with h3 | h3
          · exact hi.pairs e h3
          · subst h3
            rw [hlb] at hlast
            refine ⟨(hi.imp p q hq l hl).1, Or.inr ⟨lastLabel_label hlast.symm, pre, s, ss, hst,
              hlast.symm, hnl, ?_, ?_⟩⟩
            · rw [(hi.imp p q hq l hl).2]
              simp
            · rw [(hi.imp p q hq l hl).2, hp]
        · rw [hpairs]
          exact hi.oto.emplace lb l
        · rw [hmac]; exact hi.mac

theorem mem_popPairs : ∀ {z m : List (Stmt × IRLoop)} {e : Stmt × IRLoop},
    e ∈ popPairs m z → e ∈ m ∨ e ∈ z
  | [], _, _, h => Or.inl h
  | (s, l) :: r, m, e, h => by
    simp only [popPairs] at h
    rcases mem_popPairs h with h | h
    · rcases mem_emplace h with h | h
      · exact Or.inl h
      · exact Or.inr (by simp [h])
    · exact Or.inr (by simp [h])

theorem OneToOne.popPairs : ∀ {z m : List (Stmt × IRLoop)}, OneToOne m → OneToOne (popPairs m z)
  | [], _, h => h
  | (s, l) :: r, m, h => by
    simp only [Matcher.popPairs]
    exact OneToOne.popPairs (h.emplace s l)

theorem Inv.matchMacro {stmts : List Stmt} {st : St} (hi : Inv presumed stmts loops st) (raw : Nat) :
    Inv presumed stmts loops (matchMacro presumed st raw) := by
  obtain ⟨own, hown⟩ := hi.own
  have hm : ∀ raw' q, upd st.macros raw (some []) raw' = some q →
      ∀ s ∈ q, s ∈ stmts ∧ s.isLoop ∧ s.begin_ = .inMacro raw' := by
    intro raw' q hq x hx
    simp only [upd] at hq
    split at hq
    · simp only [Option.some.injEq] at hq
      subst hq
      simp at hx
    · exact hi.mac raw' q hq x hx
  unfold Matcher.matchMacro
  split
  · exact hi
  · next q hq =>
    split
    · exact ⟨⟨own, hown.ir, hown.imp, hown.pairs⟩, hi.placed, hi.imp, hi.pairs, hi.oto, hm⟩
    · next irq hirq =>
      split
      · exact ⟨⟨own, hown.ir, hown.imp, hown.pairs⟩, hi.placed, hi.imp, hi.pairs, hi.oto, hm⟩
      · have hq' := hown.ir _ _ hirq
        have hz : ∀ e ∈ q.reverse.zip irq.items.reverse, e.1 ∈ q ∧ e.2 ∈ irq.items := by
          intro e he
          have := List.of_mem_zip he
          simpa using this
        refine ⟨⟨fun x => if x ∈ irq.items then .done else own x, ?_, ?_, ?_⟩, ?_, hi.imp, ?_,
          hi.oto.popPairs, hm⟩
        · intro p' q' hp'
          simp only [upd] at hp'
          split at hp'
          · simp only [Option.some.injEq] at hp'
            subst hp'
            simp
          · next hpp =>
            have := hown.ir p' q' hp'
            refine ⟨this.1, fun x hx => ?_⟩
            have hxl : x ∉ irq.items := by
              intro hc
              have h3 := this.2 x hx
              rw [hq'.2 x hc] at h3
              exact hpp (by injection h3 with h4; exact h4.symm)
            rw [if_neg hxl]
            exact this.2 x hx
        · intro p' q' hp'
          have := hown.imp p' q' hp'
          refine ⟨this.1, fun x hx => ?_⟩
          have hxl : x ∉ irq.items := by
            intro hc
            have h3 := this.2 x hx
            rw [hq'.2 x hc] at h3
            cases h3
          rw [if_neg hxl]
          exact this.2 x hx
        · intro e he
          rcases mem_popPairs he with h3 | h3
          · have := hown.pairs e h3
            split
            · rfl
            · exact this
          · rw [if_pos (hz e h3).2]
        · exact hi.placed.sub (upd_sub hirq (by simp))
        · intro e he
          rcases mem_popPairs he with h3 | h3
          · exact hi.pairs e h3
          · obtain ⟨h4, h5⟩ := hz e h3
            obtain ⟨h6, h7, h8⟩ := hi.mac raw q hq e.1 h4
            refine ⟨(hi.placed _ _ hirq e.2 h5).1, Or.inl ⟨h6, h7, hi.placed.same hirq h5
              (Or.inl ?_)⟩⟩
            simp [Stmt.place, h8, Pos.place]

theorem Inv.matchInMacro {stmts : List Stmt} : ∀ {order : List Nat} {st : St},
    Inv presumed stmts loops st → Inv presumed stmts loops (matchInMacro presumed st order)
  | [], _, hi => hi
  | r :: rs, st, hi => by
    simp only [Matcher.matchInMacro]
    exact Inv.matchInMacro (hi.matchMacro r)

/-! ### The initial map -/

theorem build_aux : ∀ (loops : List IRLoop) (m : IRMap) (p : Place),
    (loops.foldl addLoop m) p =
    if loopsAt loops p = [] then m p
    else some ⟨((m p).getD ⟨[], false⟩).items ++ loopsAt loops p,
      ((m p).getD ⟨[], false⟩).big ||
        decide (2 ≤ (((m p).getD ⟨[], false⟩).items ++ loopsAt loops p).length)⟩ := by
  intro loops
  induction loops with
  | nil => intro m p; simp [loopsAt]
  | cons l ls ih =>
    intro m p
    simp only [List.foldl_cons]
    rw [ih]
    unfold addLoop
    cases hl : l.start with
    | none =>
      have : loopsAt (l :: ls) p = loopsAt ls p := by simp [loopsAt, hl]
      rw [this]
    | some p' =>
      by_cases hp : p' = p
      · subst hp
        have h1 : loopsAt (l :: ls) p' = l :: loopsAt ls p' := by simp [loopsAt, hl]
        have h2 : pushIR m p' l p' = some (((m p').getD ⟨[], false⟩).add l) := by
          simp [pushIR, upd]
        rw [h1]
        simp only [h2, Option.getD_some, Queue.add, List.append_assoc, List.cons_append,
          List.nil_append, reduceCtorEq, if_false]
        split
        · next h3 =>
          rw [h3]
          simp only [Option.some.injEq, Queue.mk.injEq, true_and, List.length_append,
            List.length_cons, List.length_nil]
          congr 1
          cases ((m p').getD ⟨[], false⟩).items <;> simp
        · simp only [Option.some.injEq, Queue.mk.injEq, true_and, List.length_append,
            List.length_cons]
          cases hc : ((m p').getD ⟨[], false⟩).items with
          | nil => simp
          | cons a b =>
            simp only [List.isEmpty_cons, Bool.not_false, Bool.or_true, Bool.true_or,
              List.length_cons]
            have : 2 ≤ b.length + 1 + ((loopsAt ls p').length + 1) := by omega
            simp [this]
      · have h1 : loopsAt (l :: ls) p = loopsAt ls p := by
          simp [loopsAt, hl, hp]
        have h2 : pushIR m p' l p = m p := by
          simp [pushIR, upd, Ne.symm hp]
        rw [h1]
        simp only [h2]

theorem build_eq (loops : List IRLoop) (p : Place) : build loops p =
    if loopsAt loops p = [] then none
    else some ⟨(loopsAt loops p).reverse, decide (2 ≤ (loopsAt loops p).length)⟩ := by
  unfold build reverseIR
  rw [build_aux]
  split <;> simp

theorem Inv.init {stmts : List Stmt} (hn : loops.Nodup) :
    Inv presumed stmts loops (init loops) := by
  have hb : ∀ p q, build loops p = some q → q.items = (loopsAt loops p).reverse := by
    intro p q h
    rw [build_eq] at h
    split at h
    · simp at h
    · simp only [Option.some.injEq] at h
      rw [← h]
  refine ⟨⟨fun l => match l.start with | some p => .ir p | none => .done, ?_, ?_, ?_⟩, ?_, ?_, ?_,
    ?_, ?_⟩
  · intro p q hq
    rw [hb p q hq]
    refine ⟨List.nodup_reverse.2 (hn.filter _), fun l hl => ?_⟩
    have : l.start = some p := by simpa [loopsAt] using (List.mem_filter.1 (List.mem_reverse.1 hl)).2
    rw [this]
  · intro p q hq
    simp [Matcher.init] at hq
  · simp [Matcher.init]
  · intro p q hq l hl
    rw [hb p q hq] at hl
    have : l.start = some p := by simpa [loopsAt] using (List.mem_filter.1 (List.mem_reverse.1 hl)).2
    exact ⟨(List.mem_filter.1 (List.mem_reverse.1 hl)).1, p, this, .refl⟩
  · intro p q hq
    simp [Matcher.init] at hq
  · simp [Matcher.init]
  · simp [Matcher.init, OneToOne]
  · intro raw q hq
    simp [Matcher.init] at hq

end

end Tsar.Matcher
