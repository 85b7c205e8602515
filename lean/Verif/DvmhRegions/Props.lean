import Verif.DvmhRegions.Model
import Mathlib.Data.List.Basic
import Mathlib.Data.List.Induction
import Mathlib.Tactic.SplitIfs

/-!
# Properties of regions around DVMH parallel loops
-/

namespace Tsar.DvmhRegions

/-! ### Merge of regions -/

/-- A loop surrounded by its own region: `actual` is before the region, `get_actual` is after it. -/
structure Surrounded (b : Blk) (host : Bool) (a : Option (List Nat)) (c : Clauses) (g : Option (List Nat)) : Prop where
  entry : b.entry = (a.map Item.actual).toList ++ [.region host c, .parallel]
  exit : b.exit = .marker :: (g.map Item.getActual).toList

/-- A loop inside a region which is opened before this loop and closed after it. -/
def Inside (b : Blk) : Prop := b.entry = [.parallel] ∧ b.exit = []

/-- The first loop in a merged region. -/
structure First (b : Blk) (host : Bool) (a : List Nat) (c : Clauses) : Prop where
  entry : b.entry = [.actual a, .region host c, .parallel] ∨ b.entry = [.region host c, .parallel, .actual a]
  exit : b.exit = []

/-- The last loop in a merged region. -/
structure Last (b : Blk) (g : List Nat) : Prop where
  entry : b.entry = [.parallel]
  exit : b.exit = [.marker, .getActual g]

/-- Descriptions of a surrounded loop. -/
structure Desc where
  host : Bool
  a : Option (List Nat)
  c : Clauses
  g : Option (List Nat)

def Clauses.append (c d : Clauses) : Clauses := ⟨c.ins ++ d.ins, c.outs ++ d.outs, c.priv ++ d.priv⟩

theorem set_same (st : State) (l : Nat) (b : Blk) : st.set l b l = b := by simp [State.set]
theorem set_other (st : State) {l k : Nat} (b : Blk) (h : k ≠ l) : st.set l b k = st k := by simp [State.set, h]

/-- Begin of a merged region while loops are processed. -/
def Begin (pb : List Item) (host : Bool) (a : List Nat) (c : Clauses) : Prop :=
  pb = [.actual a, .region host c, .parallel] ∨ pb = [.region host c, .parallel, .actual a]

theorem removeEnd_front {st : State} {f b : Nat} {g gb : List Nat} {o : Option (List Nat)} (hn : f ≠ b)
    (hf : (st f).exit = .marker :: (o.map Item.getActual).toList) (ho : o.getD [] = g)
    (hb : (st b).exit = [.marker, .getActual gb]) :
    removeEnd b f st = some ((st.set b { st b with exit := [.marker, .getActual (gb ++ g)] }).set f
      { st f with exit := [] }) := by
  subst ho
  cases o with
  | none => simp [removeEnd, hf, hb, indexOf, Item.kind, set_other _ _ hn, remove, addVars, varsOf, List.findIdx?_cons]
  | some v => simp [removeEnd, hf, hb, indexOf, Item.kind, set_other _ _ hn, remove, addVars, varsOf, List.findIdx?_cons]

theorem removeStart_other {st : State} {f l : Nat} {h h' : Bool} {af : List Nat} {cf c : Clauses}
    {o : Option (List Nat)} (hn : l ≠ f) (hf : Begin (st f).entry h af cf)
    (hl : (st l).entry = (o.map Item.actual).toList ++ [.region h' c, .parallel]) :
    ∃ e, Begin e h (af ++ o.getD []) (cf.append c) ∧
      removeStart f l st = some ((st.set f { st f with entry := e }).set l { st l with entry := [.parallel] }) := by
  cases o with
  | none =>
    rcases hf with hf | hf
    · exact ⟨_, Or.inl rfl, by
        simp [removeStart, hf, hl, indexOf, Item.kind, set_other _ _ hn, remove, addVars, varsOf, List.findIdx?_cons,
          clausesOf, addClauses, Clauses.append]⟩
    · exact ⟨_, Or.inr rfl, by
        simp [removeStart, hf, hl, indexOf, Item.kind, set_other _ _ hn, remove, addVars, varsOf, List.findIdx?_cons,
          clausesOf, addClauses, Clauses.append]⟩
  | some v =>
    rcases hf with hf | hf
    · exact ⟨_, Or.inl rfl, by
        simp [removeStart, hf, hl, indexOf, Item.kind, set_other _ _ hn, remove, addVars, varsOf, List.findIdx?_cons,
          clausesOf, addClauses, Clauses.append]⟩
    · exact ⟨_, Or.inr rfl, by
        simp [removeStart, hf, hl, indexOf, Item.kind, set_other _ _ hn, remove, addVars, varsOf, List.findIdx?_cons,
          clausesOf, addClauses, Clauses.append]⟩

/-- Variables of `actual` of a surrounded loop. -/
def Desc.as (d : Desc) : List Nat := d.a.getD []
/-- Variables of `get_actual` of a surrounded loop. -/
def Desc.gs (d : Desc) : List Nat := d.g.getD []

theorem removeMiddle_ok {f b : Nat} {h : Bool} {d : Nat → Desc} (hfb : f ≠ b) : ∀ (ms : List Nat) (st : State)
    (af : List Nat) (cf : Clauses) (gb : List Nat), f ∉ ms → b ∉ ms → ms.Nodup → Begin (st f).entry h af cf →
    (st b).exit = [.marker, .getActual gb] →
    (∀ l ∈ ms, Surrounded (st l) (d l).host (d l).a (d l).c (d l).g) →
    ∃ st', removeMiddle f b ms st = some st' ∧
      Begin (st' f).entry h (af ++ ms.flatMap fun l => (d l).as)
        ⟨cf.ins ++ ms.flatMap fun l => (d l).c.ins, cf.outs ++ ms.flatMap fun l => (d l).c.outs,
          cf.priv ++ ms.flatMap fun l => (d l).c.priv⟩ ∧
      (st' f).exit = (st f).exit ∧ (st' b).entry = (st b).entry ∧
      (st' b).exit = [.marker, .getActual (gb ++ ms.flatMap fun l => (d l).gs)] ∧
      (∀ l ∈ ms, Inside (st' l)) ∧ (∀ l, l ∉ ms → l ≠ f → l ≠ b → st' l = st l)
  | [], st, af, cf, gb, _, _, _, hB, hE, _ => by
    refine ⟨st, rfl, ?_, rfl, rfl, ?_, ?_, ?_⟩
    · simpa using hB
    · simpa using hE
    · intro l hl; cases hl
    · intro l _ _ _; rfl
  | m :: ms, st, af, cf, gb, hf, hb, hnd, hB, hE, hS => by
    have hmf : m ≠ f := fun e => hf (e ▸ List.mem_cons_self ..)
    have hmb : m ≠ b := fun e => hb (e ▸ List.mem_cons_self ..)
    have hm := hS m (List.mem_cons_self ..)
    have e1 := removeEnd_front (st := st) (f := m) (b := b) (g := (d m).gs) (gb := gb) (o := (d m).g) hmb hm.exit rfl hE
    let st1 := (st.set b { st b with exit := [.marker, .getActual (gb ++ (d m).gs)] }).set m { st m with exit := [] }
    have hf1 : st1 f = st f := by
      show State.set _ _ _ f = _
      rw [set_other _ _ (Ne.symm hmf), set_other _ _ hfb]
    have hm1 : st1 m = { st m with exit := [] } := set_same ..
    have hb1 : st1 b = { st b with exit := [.marker, .getActual (gb ++ (d m).gs)] } := by
      show State.set _ _ _ b = _
      rw [set_other _ _ (Ne.symm hmb), set_same]
    have ho1 : ∀ l, l ≠ m → l ≠ b → st1 l = st l := by
      intro l h1 h2
      show State.set _ _ _ l = _
      rw [set_other _ _ h1, set_other _ _ h2]
    obtain ⟨e, he, e2⟩ := removeStart_other (st := st1) (f := f) (l := m) (h := h) (h' := (d m).host) (af := af) (cf := cf)
      (c := (d m).c) (o := (d m).a) hmf (by rw [hf1]; exact hB) (by rw [hm1]; exact hm.entry)
    let st2 := (st1.set f { st1 f with entry := e }).set m { st1 m with entry := [.parallel] }
    have hf2 : st2 f = { st f with entry := e } := by
      show State.set _ _ _ f = _
      rw [set_other _ _ (Ne.symm hmf), set_same, hf1]
    have hm2 : st2 m = ⟨[.parallel], []⟩ := by
      show State.set _ _ _ m = _
      rw [set_same, hm1]
    have ho2 : ∀ l, l ≠ m → l ≠ f → st2 l = st1 l := by
      intro l h1 h2
      show State.set _ _ _ l = _
      rw [set_other _ _ h1, set_other _ _ h2]
    have hb2 : st2 b = { st b with exit := [.marker, .getActual (gb ++ (d m).gs)] } := by
      rw [ho2 b (Ne.symm hmb) (Ne.symm hfb), hb1]
    obtain ⟨st', h1, h2, h3, h4, h5, h6, h7⟩ := removeMiddle_ok (d := d) (h := h) hfb ms st2 (af ++ (d m).as)
      (cf.append (d m).c) (gb ++ (d m).gs) (fun hh => hf (List.mem_cons_of_mem _ hh))
      (fun hh => hb (List.mem_cons_of_mem _ hh)) (List.nodup_cons.1 hnd).2 (by rw [hf2]; exact he) (by rw [hb2])
      (by
        intro l hl
        have n1 : l ≠ m := fun ee => (List.nodup_cons.1 hnd).1 (ee ▸ hl)
        have n2 : l ≠ f := fun ee => hf (ee ▸ List.mem_cons_of_mem _ hl)
        have n3 : l ≠ b := fun ee => hb (ee ▸ List.mem_cons_of_mem _ hl)
        rw [ho2 l n1 n2, ho1 l n1 n3]
        exact hS l (List.mem_cons_of_mem _ hl))
    refine ⟨st', ?_, ?_, ?_, ?_, ?_, ?_, ?_⟩
    · show (match removeEnd b m st with | none => none | some st => _) = _
      rw [e1]
      show (match removeStart f m st1 with | none => none | some st => _) = _
      rw [e2]
      exact h1
    · simpa [Clauses.append, List.append_assoc] using h2
    · rw [h3, hf2]
    · rw [h4, hb2]
    · simpa [List.append_assoc] using h5
    · intro l hl
      rcases List.mem_cons.1 hl with hx | hl'
      · subst hx
        have := h7 l (List.nodup_cons.1 hnd).1 hmf hmb
        rw [this, hm2]
        exact ⟨rfl, rfl⟩
      · exact h6 l hl'
    · intro l hl n2 n3
      have n1 : l ≠ m := fun ee => hl (ee ▸ List.mem_cons_self ..)
      rw [h7 l (fun hh => hl (List.mem_cons_of_mem _ hh)) n2 n3, ho2 l n1 n2, ho1 l n1 n3]

/-- Main property of the merge: if all loops are surrounded by their own regions then a single region starts before the
first loop, it ends after the last loop, all loops are still parallel, data directives and clauses of the region contain
exactly variables from directives of all loops. Other loops are not changed. -/
theorem merge_region {f b : Nat} {ms : List Nat} {d : Nat → Desc} {st : State} (hnd : (f :: b :: ms).Nodup)
    (hS : ∀ l ∈ f :: b :: ms, Surrounded (st l) (d l).host (d l).a (d l).c (d l).g) :
    ∃ st' a c g, mergeRegions f b ms st = some st' ∧ First (st' f) (d f).host a c ∧ Last (st' b) g ∧
      (∀ l ∈ ms, Inside (st' l)) ∧ (∀ l, l ∉ f :: b :: ms → st' l = st l) ∧
      (∀ v, v ∈ a ↔ ∃ l ∈ f :: b :: ms, v ∈ (d l).as) ∧
      (∀ v, v ∈ g ↔ ∃ l ∈ f :: b :: ms, v ∈ (d l).gs) ∧
      (∀ v, v ∈ c.ins ↔ ∃ l ∈ f :: b :: ms, v ∈ (d l).c.ins) ∧
      (∀ v, v ∈ c.outs ↔ ∃ l ∈ f :: b :: ms, v ∈ (d l).c.outs) ∧
      (∀ v, v ∈ c.priv ↔ ∃ l ∈ f :: b :: ms, v ∈ (d l).c.priv) := by
  have hfb : f ≠ b := fun e => (List.nodup_cons.1 hnd).1 (e ▸ List.mem_cons_self ..)
  have hfm : f ∉ ms := fun e => (List.nodup_cons.1 hnd).1 (List.mem_cons_of_mem _ e)
  have hnd' := (List.nodup_cons.1 hnd).2
  have hbm : b ∉ ms := (List.nodup_cons.1 hnd').1
  have hF := hS f (List.mem_cons_self ..)
  have hL := hS b (List.mem_cons_of_mem _ (List.mem_cons_self ..))
  have hM : ∀ l ∈ ms, Surrounded (st l) (d l).host (d l).a (d l).c (d l).g := fun l hl =>
    hS l (List.mem_cons_of_mem _ (List.mem_cons_of_mem _ hl))
  have hi : ((indexOf 1 (st f).entry).isNone || (indexOf 3 (st b).exit).isNone) = false := by
    rw [hF.entry, hL.exit]
    cases (d f).a <;> simp [indexOf, Item.kind, List.findIdx?_cons]
  let st1 := st.set f { st f with entry := ensure 0 (.actual []) (st f).entry }
  let st2 := st1.set b { st1 b with exit := ensure 4 (.getActual []) (st1 b).exit }
  have hb1 : st1 b = st b := set_other _ _ (Ne.symm hfb)
  have hf2 : st2 f = { st f with entry := ensure 0 (.actual []) (st f).entry } := by
    show State.set _ _ _ f = _
    rw [set_other _ _ hfb]; exact set_same ..
  have hb2 : st2 b = { st b with exit := ensure 4 (.getActual []) (st b).exit } := by
    show State.set _ _ _ b = _
    rw [set_same, hb1]
  have ho2 : ∀ l, l ≠ f → l ≠ b → st2 l = st l := by
    intro l h1 h2
    show State.set _ _ _ l = _
    rw [set_other _ _ h2]
    exact set_other _ _ h1
  have hB : Begin (st2 f).entry (d f).host (d f).as (d f).c := by
    rw [hf2]
    show Begin (ensure 0 (.actual []) (st f).entry) _ _ _
    rw [hF.entry]
    cases ha : (d f).a with
    | none => right; simp [ensure, indexOf, Item.kind, List.findIdx?_cons, Desc.as, ha]
    | some v => left; simp [ensure, indexOf, Item.kind, List.findIdx?_cons, Desc.as, ha]
  have hE : (st2 b).exit = [.marker, .getActual (d b).gs] := by
    rw [hb2]
    show ensure 4 (.getActual []) (st b).exit = _
    rw [hL.exit]
    cases hg : (d b).g with
    | none => simp [ensure, indexOf, Item.kind, List.findIdx?_cons, Desc.gs, hg]
    | some v => simp [ensure, indexOf, Item.kind, List.findIdx?_cons, Desc.gs, hg]
  have e1 := removeEnd_front (st := st2) (f := f) (b := b) (g := (d f).gs) (gb := (d b).gs) (o := (d f).g) hfb
    (by rw [hf2]; exact hF.exit) rfl hE
  let st3 := (st2.set b { st2 b with exit := [.marker, .getActual ((d b).gs ++ (d f).gs)] }).set f
    { st2 f with exit := [] }
  have hf3 : st3 f = { st2 f with exit := [] } := set_same ..
  have hb3 : st3 b = { st2 b with exit := [.marker, .getActual ((d b).gs ++ (d f).gs)] } := by
    show State.set _ _ _ b = _
    rw [set_other _ _ (Ne.symm hfb), set_same]
  have ho3 : ∀ l, l ≠ f → l ≠ b → st3 l = st l := by
    intro l h1 h2
    show State.set _ _ _ l = _
    rw [set_other _ _ h1, set_other _ _ h2, ho2 l h1 h2]
  obtain ⟨st4, h1, h2, h3, h4, h5, h6, h7⟩ := removeMiddle_ok (d := d) (h := (d f).host) hfb ms st3 (d f).as (d f).c
    ((d b).gs ++ (d f).gs) hfm hbm (List.nodup_cons.1 hnd').2 (by rw [hf3]; exact hB) (by rw [hb3])
    (by
      intro l hl
      rw [ho3 l (fun e => hfm (e ▸ hl)) (fun e => hbm (e ▸ hl))]
      exact hM l hl)
  obtain ⟨e, he, e2⟩ := removeStart_other (st := st4) (f := f) (l := b) (h' := (d b).host) (c := (d b).c) (o := (d b).a)
    (Ne.symm hfb) h2 (by rw [h4, hb3, hb2]; exact hL.entry)
  refine ⟨(st4.set f { st4 f with entry := e }).set b { st4 b with entry := [.parallel] },
    ((d f).as ++ ms.flatMap fun l => (d l).as) ++ (d b).as,
    Clauses.append ⟨(d f).c.ins ++ ms.flatMap fun l => (d l).c.ins, (d f).c.outs ++ ms.flatMap fun l => (d l).c.outs,
      (d f).c.priv ++ ms.flatMap fun l => (d l).c.priv⟩ (d b).c,
    ((d b).gs ++ (d f).gs) ++ ms.flatMap fun l => (d l).gs,
    ?_, ⟨?_, ?_⟩, ⟨?_, ?_⟩, ?_, ?_, ?_, ?_, ?_, ?_, ?_⟩
  · unfold mergeRegions
    rw [hi]
    show (match removeEnd b f st2 with | none => none | some st => _) = _
    rw [e1]
    show (match removeMiddle f b ms st3 with | none => none | some st => _) = _
    rw [h1]
    exact e2
  · rw [set_other _ _ hfb, set_same]
    exact he
  · rw [set_other _ _ hfb, set_same]
    show (st4 f).exit = []
    rw [h3, hf3]
  · rw [set_same]
  · rw [set_same]
    exact h5
  · intro l hl
    have n1 : l ≠ f := fun e => hfm (e ▸ hl)
    have n2 : l ≠ b := fun e => hbm (e ▸ hl)
    rw [set_other _ _ n2, set_other _ _ n1]
    exact h6 l hl
  · intro l hl
    have n1 : l ≠ f := fun e => hl (e ▸ List.mem_cons_self ..)
    have n2 : l ≠ b := fun e => hl (e ▸ List.mem_cons_of_mem _ (List.mem_cons_self ..))
    have n3 : l ∉ ms := fun e => hl (List.mem_cons_of_mem _ (List.mem_cons_of_mem _ e))
    rw [set_other _ _ n2, set_other _ _ n1, h7 l n3 n1 n2, ho3 l n1 n2]
  all_goals
    intro v
    simp only [Clauses.append, List.mem_append, List.mem_flatMap, List.mem_cons, exists_eq_or_imp]
    constructor
    · rintro ((hx | hx) | hx) <;> simp [hx]
    · rintro (hx | hx | hx) <;> simp [hx]

/-- Three loops with regions. -/
def loops3 : State := fun l =>
  if l = 0 then ⟨[.actual [1], .region false ⟨[1], [2], []⟩, .parallel], [.marker, .getActual [2]]⟩
  else if l = 1 then ⟨[.region false ⟨[], [3], [9]⟩, .parallel], [.marker, .getActual [3]]⟩
  else ⟨[.actual [4, 1], .region false ⟨[4, 1], [], []⟩, .parallel], [.marker]⟩

/-- Descriptions of these loops. -/
def desc3 : Nat → Desc := fun l =>
  if l = 0 then ⟨false, some [1], ⟨[1], [2], []⟩, some [2]⟩
  else if l = 1 then ⟨false, none, ⟨[], [3], [9]⟩, some [3]⟩
  else ⟨false, some [4, 1], ⟨[4, 1], [], []⟩, none⟩

/-- Hypotheses of `merge_region` are satisfied for three loops. -/
example : (0 :: 2 :: [1]).Nodup ∧ ∀ l ∈ 0 :: 2 :: [1],
    Surrounded (loops3 l) (desc3 l).host (desc3 l).a (desc3 l).c (desc3 l).g := by
  refine ⟨by decide, ?_⟩
  intro l hl
  simp only [List.mem_cons, List.not_mem_nil, or_false] at hl
  rcases hl with h | h | h <;> subst h <;> exact ⟨rfl, rfl⟩

/-- A merged region for three loops. -/
example : ((mergeRegions 0 2 [1] loops3).map fun st => [st 0, st 1, st 2]) = some
    [⟨[.actual [1, 4, 1], .region false ⟨[1, 4, 1], [2, 3], [9]⟩, .parallel], []⟩, ⟨[.parallel], []⟩,
      ⟨[.parallel], [.marker, .getActual [2, 3]]⟩] := by decide

/-! ### Selection of regions -/

/-- Regions of consecutive loops have the same kind. -/
def Uniform (cs : List Child) : Prop :=
  ∀ pre a b post, cs = pre ++ some a :: some b :: post → a.2 = b.2

theorem Uniform.tail {pre post : List Child} (h : Uniform (pre ++ post)) : Uniform post := by
  intro p a b q e
  exact h (pre ++ p) a b q (by rw [e, List.append_assoc])

/-- Loops which wait for the next statement. -/
def pending (tm : List Nat) (host : Bool) : List Child := tm.map fun l => some (l, host)

theorem pending_append (tm : List Nat) (l : Nat) (h : Bool) (cs : List Child) :
    pending tm h ++ some (l, h) :: cs = pending (tm ++ [l]) h ++ cs := by simp [pending]

theorem uniform_next {tm : List Nat} {l : Nat} {h host : Bool} {cs : List Child} (hne : tm ≠ [])
    (hU : Uniform (pending tm host ++ some (l, h) :: cs)) : h = host := by
  obtain ⟨t, x, rfl⟩ : ∃ t x, tm = t ++ [x] := ⟨tm.dropLast, tm.getLast hne, (List.dropLast_append_getLast hne).symm⟩
  have := hU (pending t host) (x, host) (l, h) cs (by simp [pending])
  exact this.symm

theorem mem_flush {g tm : List Nat} (h : g ∈ flush tm) : g = tm ∧ 2 ≤ g.length := by
  unfold flush at h
  split at h
  · rename_i hl
    have := List.mem_singleton.1 h
    subst this
    exact ⟨rfl, hl⟩
  · cases h

theorem siblings_infix : ∀ (cs : List Child) (tm : List Nat) (host : Bool), Uniform (pending tm host ++ cs) →
    ∀ g ∈ siblings cs tm host, 2 ≤ g.length ∧ ∃ pre post k, pending tm host ++ cs = pre ++ pending g k ++ post
  | [], tm, host, _, g, hg => by
    obtain ⟨e, hl⟩ := mem_flush hg
    exact ⟨hl, [], [], host, by simp [e]⟩
  | some (l, h) :: cs, tm, host, hU, g, hg => by
    by_cases he : tm = []
    · subst he
      have hg' : g ∈ siblings cs [l] h := by simpa [siblings] using hg
      have := siblings_infix cs [l] h (by simpa [pending] using hU) g hg'
      simpa [pending] using this
    · have hh := uniform_next he hU
      subst hh
      have hg' : g ∈ siblings cs (tm ++ [l]) h := by
        have : tm.isEmpty = false := by simpa using he
        simpa [siblings, this] using hg
      rw [pending_append] at hU ⊢
      exact siblings_infix cs (tm ++ [l]) h hU g hg'
  | none :: cs, tm, host, hU, g, hg => by
    rcases List.mem_append.1 (show g ∈ flush tm ++ siblings cs [] host from hg) with hx | hx
    · obtain ⟨e, hl⟩ := mem_flush hx
      exact ⟨hl, [], none :: cs, host, by simp [e]⟩
    · have hU' : Uniform (pending [] host ++ cs) := by
        have := Uniform.tail (pre := pending tm host ++ [none]) (post := cs) (by simpa using hU)
        simpa [pending] using this
      obtain ⟨hl, pre, post, k, e⟩ := siblings_infix cs [] host hU' g hx
      refine ⟨hl, pending tm host ++ none :: pre, post, k, ?_⟩
      have e' : cs = pre ++ pending g k ++ post := by simpa [pending] using e
      rw [e']
      simp

/-- **Only consecutive loops are merged and their regions have the same kind** if kinds of regions of all consecutive
loops are the same. The full statement has no such hypothesis, see `mixed_fails`. -/
theorem merged_partial {cs : List Child} {host : Bool} (hU : Uniform cs) {g : List Nat} (hg : g ∈ siblings cs [] host) :
    2 ≤ g.length ∧ ∃ pre post k, cs = pre ++ g.map (fun l => some (l, k)) ++ post := by
  obtain ⟨hl, pre, post, k, e⟩ := siblings_infix cs [] host (by simpa [pending] using hU) g hg
  exact ⟨hl, pre, post, k, by simpa [pending] using e⟩

theorem siblings_adjacent : ∀ (cs : List Child) (tm : List Nat) (host : Bool), Uniform (pending tm host ++ cs) →
    ∀ pre a b post, pending tm host ++ cs = pre ++ some a :: some b :: post →
    ∃ g ∈ siblings cs tm host, a.1 ∈ g ∧ b.1 ∈ g
  | [], tm, host, _, pre, a, b, post, e => by
    rw [List.append_nil] at e
    have ha : some a ∈ pending tm host := by rw [e]; simp
    have hb : some b ∈ pending tm host := by rw [e]; simp
    have hl : 2 ≤ tm.length := by
      have : (pending tm host).length = tm.length := by simp [pending]
      rw [← this, e]
      simp
      omega
    refine ⟨tm, ?_, ?_, ?_⟩
    · show tm ∈ flush tm
      unfold flush
      rw [if_pos (show tm.length > 1 from hl)]
      exact List.mem_singleton.2 rfl
    · obtain ⟨x, hx, ex⟩ := List.mem_map.1 ha
      rw [← Option.some.inj ex]; exact hx
    · obtain ⟨x, hx, ex⟩ := List.mem_map.1 hb
      rw [← Option.some.inj ex]; exact hx
  | some (l, h) :: cs, tm, host, hU, pre, a, b, post, e => by
    by_cases he : tm = []
    · subst he
      have := siblings_adjacent cs [l] h (by simpa [pending] using hU) pre a b post (by simpa [pending] using e)
      simpa [siblings] using this
    · have hh := uniform_next he hU
      subst hh
      have hi : tm.isEmpty = false := by simpa using he
      rw [pending_append] at hU e
      have := siblings_adjacent cs (tm ++ [l]) h hU pre a b post e
      simpa [siblings, hi] using this
  | none :: cs, tm, host, hU, pre, a, b, post, e => by
    have hU' : Uniform (pending [] host ++ cs) := by
      have := Uniform.tail (pre := pending tm host ++ [none]) (post := cs) (by simpa using hU)
      simpa [pending] using this
    rcases List.append_eq_append_iff.1 e with ⟨as, h1, h2⟩ | ⟨bs, h1, h2⟩
    · cases as with
      | nil => simp at h2
      | cons x as =>
        obtain ⟨_, h2⟩ := List.cons.inj h2
        obtain ⟨g, hg, hx⟩ := siblings_adjacent cs [] host hU' as a b post (by simpa [pending] using h2)
        exact ⟨g, List.mem_append_right _ hg, hx⟩
    · have hin : some a ∈ pending tm host ∧ some b ∈ pending tm host ∧ 2 ≤ (pending tm host).length := by
        rcases bs with _ | ⟨x, _ | ⟨y, bs⟩⟩
        · simp at h2
        · simp at h2
        · obtain ⟨e1, h2⟩ := List.cons.inj h2
          obtain ⟨e2, h2⟩ := List.cons.inj h2
          rw [h1, ← e1, ← e2]
          refine ⟨by simp, by simp, ?_⟩
          simp
          omega
      refine ⟨tm, List.mem_append_left _ ?_, ?_, ?_⟩
      · have hl : tm.length > 1 := by
          have : 2 ≤ tm.length := by simpa [pending] using hin.2.2
          exact this
        unfold flush
        rw [if_pos hl]
        exact List.mem_singleton.2 rfl
      · obtain ⟨x, hx, ex⟩ := List.mem_map.1 hin.1
        rw [← Option.some.inj ex]; exact hx
      · obtain ⟨x, hx, ex⟩ := List.mem_map.1 hin.2.1
        rw [← Option.some.inj ex]; exact hx

/-- **All consecutive loops are merged** if kinds of their regions are the same. -/
theorem adjacent_partial {cs pre post : List Child} {host : Bool} {a b : Nat × Bool} (hU : Uniform cs)
    (e : cs = pre ++ some a :: some b :: post) : ∃ g ∈ siblings cs [] host, a.1 ∈ g ∧ b.1 ∈ g :=
  siblings_adjacent cs [] host (by simpa [pending] using hU) pre a b post (by simpa [pending] using e)

theorem siblings_sublist : ∀ (cs : List Child) (tm : List Nat) (host : Bool), Uniform (pending tm host ++ cs) →
    (siblings cs tm host).flatten.Sublist (tm ++ cs.filterMap fun c => c.map Prod.fst)
  | [], tm, host, _ => by
    show (flush tm).flatten.Sublist _
    unfold flush
    split <;> simp
  | some (l, h) :: cs, tm, host, hU => by
    by_cases he : tm = []
    · subst he
      have := siblings_sublist cs [l] h (by simpa [pending] using hU)
      simpa [siblings] using this
    · have hh := uniform_next he hU
      subst hh
      have hi : tm.isEmpty = false := by simpa using he
      rw [pending_append] at hU
      have := siblings_sublist cs (tm ++ [l]) h hU
      simpa [siblings, hi] using this
  | none :: cs, tm, host, hU => by
    have hU' : Uniform (pending [] host ++ cs) := by
      have := Uniform.tail (pre := pending tm host ++ [none]) (post := cs) (by simpa using hU)
      simpa [pending] using this
    have h1 := siblings_sublist cs [] host hU'
    have h2 : (flush tm).flatten.Sublist tm := by
      unfold flush
      split <;> simp
    show (flush tm ++ siblings cs [] host).flatten.Sublist _
    rw [List.flatten_append]
    simpa using h2.append h1

theorem mergeAll_ok {d : Nat → Desc} : ∀ (gs : List (List Nat)) (st : State), gs.flatten.Nodup →
    (∀ g ∈ gs, 2 ≤ g.length) → (∀ g ∈ gs, ∀ l ∈ g, Surrounded (st l) (d l).host (d l).a (d l).c (d l).g) →
    ∃ st', mergeAll gs st = some st' ∧ (∀ l, l ∉ gs.flatten → st' l = st l) ∧
      ∀ g ∈ gs, ∃ f ms b a c x, g = f :: (ms ++ [b]) ∧ First (st' f) (d f).host a c ∧ Last (st' b) x ∧
        (∀ l ∈ ms, Inside (st' l)) ∧ (∀ v, v ∈ a ↔ ∃ l ∈ g, v ∈ (d l).as) ∧ (∀ v, v ∈ x ↔ ∃ l ∈ g, v ∈ (d l).gs)
  | [], st, _, _, _ => ⟨st, rfl, fun _ _ => rfl, fun g hg => by cases hg⟩
  | g :: gs, st, hnd, hl, hS => by
    obtain ⟨f, ms, b, rfl⟩ : ∃ f ms b, g = f :: (ms ++ [b]) := by
      have h2 := hl g (List.mem_cons_self ..)
      cases g with
      | nil => simp at h2
      | cons f t =>
        have : t ≠ [] := by rintro rfl; simp at h2
        exact ⟨f, t.dropLast, t.getLast this, by rw [List.dropLast_append_getLast]⟩
    rw [List.flatten_cons] at hnd
    obtain ⟨hn1, hn2, hdis⟩ := List.nodup_append.1 hnd
    have hmem : ∀ l, l ∈ f :: b :: ms ↔ l ∈ f :: (ms ++ [b]) := by
      intro l
      simp only [List.mem_cons, List.mem_append, List.not_mem_nil, or_false]
      constructor
      · rintro (h | h | h) <;> simp [h]
      · rintro (h | h | h) <;> simp [h]
    have hn1' : (f :: b :: ms).Nodup := by
      have hp : (f :: b :: ms).Perm (f :: (ms ++ [b])) := List.Perm.cons _ (by
        have := (List.perm_append_comm (l₁ := [b]) (l₂ := ms))
        simpa using this)
      exact hp.nodup_iff.2 hn1
    obtain ⟨st1, a, c, x, e1, hF, hLst, hI, ho, ha, hx, _⟩ := merge_region (d := d) (st := st) hn1'
      (fun l hl' => hS _ (List.mem_cons_self ..) l ((hmem l).1 hl'))
    have hS1 : ∀ g' ∈ gs, ∀ l ∈ g', Surrounded (st1 l) (d l).host (d l).a (d l).c (d l).g := by
      intro g' hg' l hl'
      rw [ho l (fun hh => hdis l ((hmem l).1 hh) l (List.mem_flatten.2 ⟨g', hg', hl'⟩) rfl)]
      exact hS g' (List.mem_cons_of_mem _ hg') l hl'
    obtain ⟨st', e2, ho2, hG⟩ := mergeAll_ok gs st1 hn2 (fun g' hg' => hl g' (List.mem_cons_of_mem _ hg')) hS1
    have hkeep : ∀ l ∈ f :: (ms ++ [b]), st' l = st1 l := fun l hl' => ho2 l (fun hh => hdis l hl' l hh rfl)
    refine ⟨st', ?_, ?_, ?_⟩
    · have : mergeAll ((f :: (ms ++ [b])) :: gs) st = (match mergeRegions f b ms st with
          | none => none
          | some st => mergeAll gs st) := by
        cases ms with
        | nil => rfl
        | cons m ms =>
          show (match mergeRegions f ((m :: (ms ++ [b])).getLast _) (m :: (ms ++ [b])).dropLast st with
            | none => none
            | some st => mergeAll gs st) = _
          have q1 : (m :: (ms ++ [b])).getLast (by simp) = b := by simp
          have q2 : (m :: (ms ++ [b])).dropLast = m :: ms := by
            rw [← List.cons_append, List.dropLast_concat]
          rw [q1, q2]
      rw [this, e1]
      exact e2
    · intro l hl'
      rw [List.flatten_cons] at hl'
      rw [ho2 l (fun hh => hl' (List.mem_append_right _ hh)), ho l (fun hh => hl' (List.mem_append_left _ ((hmem l).1 hh)))]
    · intro g' hg'
      rcases List.mem_cons.1 hg' with hq | hq
      · subst hq
        refine ⟨f, ms, b, a, c, x, rfl, ?_, ?_, ?_, ?_, ?_⟩
        · rw [hkeep f (by simp)]; exact hF
        · rw [hkeep b (by simp)]; exact hLst
        · intro l hl'
          rw [hkeep l (by simp [hl'])]
          exact hI l hl'
        · intro v
          rw [ha v]
          exact ⟨fun ⟨l, h1, h2⟩ => ⟨l, (hmem l).1 h1, h2⟩, fun ⟨l, h1, h2⟩ => ⟨l, (hmem l).2 h1, h2⟩⟩
        · intro v
          rw [hx v]
          exact ⟨fun ⟨l, h1, h2⟩ => ⟨l, (hmem l).1 h1, h2⟩, fun ⟨l, h1, h2⟩ => ⟨l, (hmem l).2 h1, h2⟩⟩
      · exact hG g' hq

/-- Loops in a scope. -/
def loopsOf (cs : List Child) : List Nat := cs.filterMap fun c => c.map Prod.fst

/-- **All regions in a scope are merged correctly** if kinds of regions of consecutive loops are the same: there is no
crash, each group of loops is placed inside a single region with all data directives, other loops are not changed. The full
statement has no hypothesis `Uniform`, see `mixed_fails` and `crash_fails`. -/
theorem scope_partial {cs : List Child} {host : Bool} {d : Nat → Desc} {st : State} (hU : Uniform cs)
    (hnd : (loopsOf cs).Nodup) (hS : ∀ l ∈ loopsOf cs, Surrounded (st l) (d l).host (d l).a (d l).c (d l).g) :
    ∃ st', mergeAll (siblings cs [] host) st = some st' ∧ (∀ l, l ∉ (siblings cs [] host).flatten → st' l = st l) ∧
      ∀ g ∈ siblings cs [] host, ∃ f ms b a c x, g = f :: (ms ++ [b]) ∧ First (st' f) (d f).host a c ∧
        Last (st' b) x ∧ (∀ l ∈ ms, Inside (st' l)) ∧ (∀ v, v ∈ a ↔ ∃ l ∈ g, v ∈ (d l).as) ∧
        (∀ v, v ∈ x ↔ ∃ l ∈ g, v ∈ (d l).gs) := by
  have hs : (siblings cs [] host).flatten.Sublist (loopsOf cs) := by
    simpa [loopsOf] using siblings_sublist cs [] host (by simpa [pending] using hU)
  exact mergeAll_ok (d := d) _ st (hs.nodup hnd) (fun g hg => (merged_partial hU hg).1)
    (fun g hg l hl => hS l (hs.subset (List.mem_flatten.2 ⟨g, hg, hl⟩)))

/-- Two loops, other statement and two loops: hypotheses are satisfied, two groups are merged. -/
example : (loopsOf [some (0, false), some (1, false), none, some (2, true), some (3, true)]).Nodup ∧
    siblings [some (0, false), some (1, false), none, some (2, true), some (3, true)] [] false = [[0, 1], [2, 3]] := by
  decide

example : Uniform [some (0, false), some (1, false), none, some (2, true)] := by
  intro pre a b post e
  rcases pre with _ | ⟨x, _ | ⟨y, _ | ⟨z, _ | ⟨w, pre⟩⟩⟩⟩ <;> simp at e
  obtain ⟨h1, h2, _⟩ := e
  rw [← h1, ← h2]

/-- A device region and a host region are merged: the second loop is placed inside a region of the first one which is not
executed on a host only. -/
theorem mixed_fails : ∃ (cs : List Child) (st st' : State), cs = [some (0, false), some (1, true)] ∧
    Surrounded (st 0) false none ⟨[1], [], []⟩ none ∧ Surrounded (st 1) true none ⟨[2], [], []⟩ none ∧
    mergeAll (siblings cs [] false) st = some st' ∧ First (st' 0) false [] ⟨[1, 2], [], []⟩ ∧ Last (st' 1) [] := by
  refine ⟨_, fun l => if l = 0 then ⟨[.region false ⟨[1], [], []⟩, .parallel], [.marker]⟩
    else ⟨[.region true ⟨[2], [], []⟩, .parallel], [.marker]⟩, _, rfl, ⟨rfl, rfl⟩, ⟨rfl, rfl⟩, rfl, ⟨Or.inr ?_, ?_⟩, ⟨?_, ?_⟩⟩
  all_goals rfl

/-- Two device regions are followed by a host region: the first two regions are merged twice, the analyzer crashes. -/
theorem crash_fails : ∃ (cs : List Child) (st : State), cs = [some (0, false), some (1, false), some (2, true)] ∧
    (∀ l, ∃ h, Surrounded (st l) h none ⟨[], [], []⟩ none) ∧ siblings cs [] false = [[0, 1], [0, 1, 2]] ∧
    mergeAll (siblings cs [] false) st = none := by
  refine ⟨_, fun l => ⟨[.region (decide (l = 2)) ⟨[], [], []⟩, .parallel], [.marker]⟩, rfl, ?_, by decide, by decide⟩
  intro l
  exact ⟨decide (l = 2), rfl, rfl⟩

/-! ### Directives which tie loops and dimensions of arrays -/

/-- A subscript of an access depends on a counter of a loop, `p` means that the subscript is known to increase together
with the counter. -/
def DependsOn (access : List (Option Sub)) (dim loop : Nat) (p : Bool) : Prop :=
  ∃ s ms m, some s ∈ access ∧ s.dim = dim ∧ s.monoms = some ms ∧ m ∈ ms ∧ m.col = loop ∧ m.coef ≠ some 0 ∧
    (p = true ↔ ∃ c, m.coef = some c ∧ 0 < c)

theorem tieMonoms_sound {loops : List Nat} {dim : Nat} : ∀ (ms : List Monom) (t : Tie) (k l : Nat) (p : Bool),
    (tieMonoms loops dim ms t)[k]? = some (some l, p) → t[k]? = some (some l, p) ∨
      (k = dim ∧ l ∈ loops ∧ ∃ m ∈ ms, m.col = l ∧ m.coef ≠ some 0 ∧ (p = true ↔ ∃ c, m.coef = some c ∧ 0 < c))
  | [], t, k, l, p, h => Or.inl h
  | m :: ms, t, k, l, p, h => by
    have lift : (t[k]? = some (some l, p) ∨ (k = dim ∧ l ∈ loops ∧ ∃ m ∈ ms, m.col = l ∧ m.coef ≠ some 0 ∧
        (p = true ↔ ∃ c, m.coef = some c ∧ 0 < c))) → t[k]? = some (some l, p) ∨
        (k = dim ∧ l ∈ loops ∧ ∃ m' ∈ m :: ms, m'.col = l ∧ m'.coef ≠ some 0 ∧
          (p = true ↔ ∃ c, m'.coef = some c ∧ 0 < c)) := by
      rintro (hx | ⟨h1, h2, m', hm, h3⟩)
      · exact Or.inl hx
      · exact Or.inr ⟨h1, h2, m', List.mem_cons_of_mem _ hm, h3⟩
    unfold tieMonoms at h
    by_cases hz : m.coef = some 0
    · rw [if_pos hz] at h
      exact lift (tieMonoms_sound ms t k l p h)
    · rw [if_neg hz] at h
      by_cases hc : m.col ∈ loops
      · rw [if_pos hc] at h
        rcases tieMonoms_sound ms _ k l p h with hx | hx
        · by_cases hk : k = dim
          · subst hk
            rw [List.getElem?_set] at hx
            simp only [if_true] at hx
            split at hx
            · obtain ⟨e1, e2⟩ := Prod.mk.inj (Option.some.inj hx)
              have e1 := Option.some.inj e1
              refine Or.inr ⟨rfl, e1 ▸ hc, m, List.mem_cons_self .., e1, hz, ?_⟩
              rw [← e2]
              cases hv : m.coef with
              | none => simp
              | some c =>
                simp only [decide_eq_true_eq]
                constructor
                · intro h0
                  refine ⟨c, rfl, ?_⟩
                  have : c ≠ 0 := by rintro rfl; exact hz hv
                  omega
                · rintro ⟨c', hc', h0⟩
                  have := Option.some.inj hc'
                  omega
            · cases hx
          · left
            rw [List.getElem?_set_ne (Ne.symm hk)] at hx
            exact hx
        · exact lift (Or.inr hx)
      · rw [if_neg hc] at h
        exact lift (tieMonoms_sound ms t k l p h)

theorem tieSubs_sound {loops : List Nat} : ∀ (ss : List (Option Sub)) (t : Tie) (k l : Nat) (p : Bool),
    (tieSubs loops ss t)[k]? = some (some l, p) → t[k]? = some (some l, p) ∨ (l ∈ loops ∧ DependsOn ss k l p)
  | [], t, k, l, p, h => Or.inl h
  | none :: ss, t, k, l, p, h => by
    rcases tieSubs_sound ss t k l p h with hx | ⟨h1, s, ms, m, h2, h3⟩
    · exact Or.inl hx
    · exact Or.inr ⟨h1, s, ms, m, List.mem_cons_of_mem _ h2, h3⟩
  | some s :: ss, t, k, l, p, h => by
    have lift : ∀ {t' : Tie}, (t'[k]? = some (some l, p) ∨ (l ∈ loops ∧ DependsOn ss k l p)) →
        t'[k]? = some (some l, p) ∨ (l ∈ loops ∧ DependsOn (some s :: ss) k l p) := by
      rintro t' (hx | ⟨h1, s', ms, m, h2, h3⟩)
      · exact Or.inl hx
      · exact Or.inr ⟨h1, s', ms, m, List.mem_cons_of_mem _ h2, h3⟩
    unfold tieSubs at h
    split at h
    · exact lift (tieSubs_sound ss t k l p h)
    · split at h
      · rename_i ms hms
        rcases lift (tieSubs_sound ss _ k l p h) with hx | hx
        · rcases tieMonoms_sound ms t k l p hx with hy | ⟨e, h1, m, h2, h3, h4, h5⟩
          · exact Or.inl hy
          · exact Or.inr ⟨h1, s, ms, m, List.mem_cons_self .., e.symm, hms, h2, h3, h4, h5⟩
        · exact Or.inr hx
      · exact lift (tieSubs_sound ss t k l p h)

theorem tieArray_last (loops : List Nat) (a : List (Option Sub)) : ∀ (as : List (List (Option Sub))) (t : Tie),
    tieArray loops (as ++ [a]) t = tieSubs loops a (List.replicate a.length (none, true))
  | [], _ => rfl
  | b :: as, t => by
    show tieArray loops (as ++ [a]) _ = _
    exact tieArray_last loops a as _

/-- **A dimension is tied with a loop only if subscripts of accesses to the array depend on the loop**: it holds for the last
access only. The full statement ranges over all accesses, see `tie_fails`. -/
theorem tie_partial {loops : List Nat} {as : List (List (Option Sub))} {a : List (Option Sub)} {t : Tie} {dim l : Nat}
    {p : Bool} (h : (tieArray loops (as ++ [a]) t)[dim]? = some (some l, p)) : l ∈ loops ∧ DependsOn a dim l p := by
  rw [tieArray_last] at h
  rcases tieSubs_sound a _ dim l p h with hx | hx
  · exfalso
    rw [List.getElem?_replicate] at hx
    split at hx
    · cases hx
    · cases hx
  · exact hx

/-- `A[-2*i][j]` is tied with both loops. -/
example : tieArray [7, 8] [[some ⟨0, some [⟨7, some (-2)⟩]⟩, some ⟨1, some [⟨8, some 1⟩]⟩]] [] =
    [(some 7, false), (some 8, true)] := by decide

/-- Accesses `A[i]` and `A[j]`: the array is tied with the second loop although the first access does not depend on it. -/
theorem tie_fails : ∃ (as : List (List (Option Sub))) (a : List (Option Sub)), a ∈ as ∧
    tieArray [7, 8] as [] = [(some 8, true)] ∧ ∀ p, ¬ DependsOn a 0 8 p := by
  refine ⟨[[some ⟨0, some [⟨7, some 1⟩]⟩], [some ⟨0, some [⟨8, some 1⟩]⟩]], [some ⟨0, some [⟨7, some 1⟩]⟩],
    by simp, by decide, ?_⟩
  rintro p ⟨s, ms, m, h1, _, h3, h4, h5, _⟩
  simp at h1
  subst h1
  simp at h3
  subst h3
  simp at h4
  subst h4
  simp at h5

/-- Accesses `A[i]` and `A[5]`: the array is not tied, if the last access does not depend on a loop. If accesses are in the
other order then the array is tied. -/
theorem tie_order_fails : ∃ a b : List (Option Sub), DependsOn a 0 7 true ∧
    tieArray [7] [b, a] [] = [(some 7, true)] ∧ tieArray [7] [a, b] [] = [(none, true)] := by
  refine ⟨[some ⟨0, some [⟨7, some 1⟩]⟩], [some ⟨0, some []⟩], ?_, by decide, by decide⟩
  exact ⟨_, _, ⟨7, some 1⟩, List.mem_singleton.2 rfl, rfl, rfl, List.mem_singleton.2 rfl, rfl, by decide, by simp⟩

theorem tieMonoms_length {loops : List Nat} {dim : Nat} : ∀ (ms : List Monom) (t : Tie),
    (tieMonoms loops dim ms t).length = t.length
  | [], _ => rfl
  | m :: ms, t => by
    unfold tieMonoms
    split
    · exact tieMonoms_length ms t
    · split
      · rw [tieMonoms_length ms]; simp
      · exact tieMonoms_length ms t

theorem tieMonoms_keep {loops : List Nat} {dim k : Nat} : ∀ (ms : List Monom) (t : Tie),
    ((t[k]?).bind Prod.fst).isSome → (((tieMonoms loops dim ms t)[k]?).bind Prod.fst).isSome
  | [], _, h => h
  | m :: ms, t, h => by
    unfold tieMonoms
    split
    · exact tieMonoms_keep ms t h
    · split
      · apply tieMonoms_keep ms
        by_cases hk : k = dim
        · subst hk
          have hl : k < t.length := by
            by_contra hge
            rw [List.getElem?_eq_none (by omega)] at h
            simp at h
          rw [List.getElem?_set_self hl]
          rfl
        · rw [List.getElem?_set_ne (Ne.symm hk)]
          exact h
      · exact tieMonoms_keep ms t h

theorem tieMonoms_some {loops : List Nat} {dim : Nat} : ∀ (ms : List Monom) (t : Tie), dim < t.length →
    (∃ m ∈ ms, m.col ∈ loops ∧ m.coef ≠ some 0) → (((tieMonoms loops dim ms t)[dim]?).bind Prod.fst).isSome
  | [], _, _, ⟨_, hm, _⟩ => by cases hm
  | m :: ms, t, hl, ⟨m', hm, hc, hz⟩ => by
    unfold tieMonoms
    rcases List.mem_cons.1 hm with hx | hx
    · subst hx
      rw [if_neg hz, if_pos hc]
      apply tieMonoms_keep
      rw [List.getElem?_set_self hl]
      rfl
    · split
      · exact tieMonoms_some ms t hl ⟨m', hx, hc, hz⟩
      · split
        · exact tieMonoms_some ms _ (by simpa using hl) ⟨m', hx, hc, hz⟩
        · exact tieMonoms_some ms t hl ⟨m', hx, hc, hz⟩

theorem tieSubs_keep {loops : List Nat} {k : Nat} : ∀ (ss : List (Option Sub)) (t : Tie),
    ((t[k]?).bind Prod.fst).isSome → (((tieSubs loops ss t)[k]?).bind Prod.fst).isSome
  | [], _, h => h
  | none :: ss, t, h => tieSubs_keep ss t h
  | some s :: ss, t, h => by
    unfold tieSubs
    split
    · exact tieSubs_keep ss t h
    · split
      · exact tieSubs_keep ss _ (tieMonoms_keep _ t h)
      · exact tieSubs_keep ss t h

theorem tieSubs_some {loops : List Nat} {s : Sub} {ms : List Monom} : ∀ (ss : List (Option Sub)) (t : Tie), some s ∈ ss →
    s.monoms = some ms → s.dim < t.length → (∃ m ∈ ms, m.col ∈ loops ∧ m.coef ≠ some 0) →
    (((tieSubs loops ss t)[s.dim]?).bind Prod.fst).isSome
  | [], _, h, _, _, _ => by cases h
  | none :: ss, t, h, hm, hl, he => by
    rcases List.mem_cons.1 h with hx | hx
    · cases hx
    · exact tieSubs_some ss t hx hm hl he
  | some s' :: ss, t, h, hm, hl, he => by
    unfold tieSubs
    rcases List.mem_cons.1 h with hx | hx
    · have hx := Option.some.inj hx
      subst hx
      split
      · rename_i hs
        exact tieSubs_keep ss t hs
      · rw [hm]
        exact tieSubs_keep ss _ (tieMonoms_some ms t hl he)
    · split
      · exact tieSubs_some ss t hx hm hl he
      · split
        · exact tieSubs_some ss _ hx hm (by rw [tieMonoms_length]; exact hl) he
        · exact tieSubs_some ss t hx hm hl he

/-- A dimension is tied if a subscript of the last access depends on a counter of some of parallel loops. -/
theorem tie_complete {loops : List Nat} {as : List (List (Option Sub))} {a : List (Option Sub)} {t : Tie} {s : Sub}
    {ms : List Monom} {m : Monom} (hs : some s ∈ a) (hd : s.dim < a.length) (hms : s.monoms = some ms) (hm : m ∈ ms)
    (hc : m.col ∈ loops) (hz : m.coef ≠ some 0) :
    ∃ l p, (tieArray loops (as ++ [a]) t)[s.dim]? = some (some l, p) := by
  rw [tieArray_last]
  have h := tieSubs_some (loops := loops) a (List.replicate a.length (none, true)) hs hms (by simpa using hd) ⟨m, hm, hc, hz⟩
  cases hv : (tieSubs loops a (List.replicate a.length (none, true)))[s.dim]? with
  | none => rw [hv] at h; simp at h
  | some q =>
    obtain ⟨o, p⟩ := q
    rw [hv] at h
    cases o with
    | none => simp at h
    | some l => exact ⟨l, p, rfl⟩

/-! ### Loops with regular dependencies -/

/-- All dimensions of an array which carry dependencies are tied with some loops. -/
def AllTied (deps : List (Nat × Widths)) (ties : Nat → Option Tie) : Prop :=
  ∀ v w, (v, w) ∈ deps → ∃ t, ties v = some t ∧
    ∀ (i : Nat) (x : Option Int × Option Int), w[i]? = some x → x ≠ (none, none) → ∃ l p, t[i]? = some (some l, p)

theorem tied_iff (w : Widths) (t : Tie) : tied w t = true ↔
    ∀ (i : Nat) (x : Option Int × Option Int), w[i]? = some x → x ≠ (none, none) → ∃ l p, t[i]? = some (some l, p) := by
  unfold tied
  rw [List.all_eq_true]
  have key : ∀ i : Nat, ((t[i]?).bind Prod.fst).isSome = true ↔ ∃ l p, t[i]? = some (some l, p) := by
    intro i
    cases hv : t[i]? with
    | none => simp
    | some q =>
      obtain ⟨o, p⟩ := q
      cases o with
      | none => simp
      | some l => simp
  constructor
  · intro h i x hx hne
    have hi : i < w.length := by
      by_contra hge
      rw [List.getElem?_eq_none (by omega)] at hx
      cases hx
    have := h i (List.mem_range.2 hi)
    rw [hx] at this
    rw [← key]
    obtain ⟨x1, x2⟩ := x
    cases x1 <;> cases x2 <;> first | exact absurd rfl hne | exact this
  · intro h i hi
    have hi := List.mem_range.1 hi
    have hx : w[i]? = some w[i] := List.getElem?_eq_getElem hi
    rw [hx]
    generalize hg : w[i] = x at *
    obtain ⟨x1, x2⟩ := x
    cases x1 <;> cases x2 <;> first | rfl | exact (key i).2 (h i _ hx (by simp))

theorem untied_iff (deps : List (Nat × Widths)) (ties : Nat → Option Tie) :
    (untied deps ties).isEmpty = true ↔ AllTied deps ties := by
  unfold untied AllTied
  rw [List.isEmpty_iff, List.map_eq_nil_iff, List.filter_eq_nil_iff]
  constructor
  · intro h v w hvw
    have := h (v, w) hvw
    cases ht : ties v with
    | none => rw [ht] at this; simp at this
    | some t =>
      rw [ht] at this
      refine ⟨t, rfl, (tied_iff w t).1 ?_⟩
      simpa using this
  · rintro h ⟨v, w⟩ hvw
    obtain ⟨t, ht, hw⟩ := h v w hvw
    rw [ht]
    have := (tied_iff w t).2 hw
    simp [this]

/-- **A loop with regular dependencies stays parallel if and only if all dimensions with dependencies are tied**, otherwise
all directives of the loop are removed. The loop is surrounded by a region. The full statement has no such hypothesis, see
`no_region_fails`. -/
theorem sanitize_partial {deps : List (Nat × Widths)} {ties : Nat → Option Tie} {b : Blk} {d : Desc}
    (hS : Surrounded b d.host d.a d.c d.g) :
    (AllTied deps ties → sanitize deps ties b = some b) ∧
      (¬ AllTied deps ties → sanitize deps ties b = some ⟨[], []⟩) := by
  constructor
  · intro h
    unfold sanitize
    rw [if_pos ((untied_iff deps ties).2 h)]
  · intro h
    unfold sanitize
    rw [if_neg (fun hh => h ((untied_iff deps ties).1 hh))]
    have h1 : dropExit b.exit = some [] := by
      rw [hS.exit]
      cases d.g <;> rfl
    have h2 : dropEntry b.entry = some [] := by
      rw [hS.entry]
      cases d.a <;> rfl
    rw [h1, h2]

/-- A loop stays parallel if its array is tied, otherwise directives are removed. -/
example : sanitize [(3, [(some 1, none), (none, none)])] (fun _ => some [(some 7, true), (none, true)]) (loops3 0) =
      some (loops3 0) ∧
    sanitize [(3, [(none, none), (some 1, none)])] (fun _ => some [(some 7, true), (none, true)]) (loops3 0) =
      some ⟨[], []⟩ ∧
    sanitize [(3, [(some 1, none)])] (fun _ => none) (loops3 2) = some ⟨[], []⟩ := by decide

/-- Directives of other kinds are not removed. -/
theorem sanitize_other {deps : List (Nat × Widths)} {ties : Nat → Option Tie} {d : Desc} {e x : List Item}
    (he : ∀ i ∈ e, i = .other) (hx : ∀ i ∈ x, i = .other) (hne : e ≠ []) (hnx : x ≠ []) (h : ¬ AllTied deps ties) :
    sanitize deps ties ⟨(d.a.map Item.actual).toList ++ .region d.host d.c :: .parallel :: e,
      .marker :: ((d.g.map Item.getActual).toList ++ x)⟩ = some ⟨e, x⟩ := by
  unfold sanitize
  rw [if_neg (fun hh => h ((untied_iff deps ties).1 hh))]
  obtain ⟨e0, e', rfl⟩ := List.exists_cons_of_ne_nil hne
  obtain ⟨x0, x', rfl⟩ := List.exists_cons_of_ne_nil hnx
  have q1 := he e0 (List.mem_cons_self ..)
  have q2 := hx x0 (List.mem_cons_self ..)
  subst q1 q2
  have r1 : ∀ (k : Nat) (l : List Item), k ≠ 5 → (∀ i ∈ l, i = .other) → l.eraseP (fun j => j.kind == k) = l := by
    intro k l hk hl
    apply List.eraseP_of_forall_not
    intro i hi
    rw [hl i hi]
    simpa [Item.kind] using fun hh => hk hh.symm
  have h1 : dropExit (.marker :: ((d.g.map Item.getActual).toList ++ .other :: x')) = some (.other :: x') := by
    cases d.g with
    | none =>
      have : dropExit (.marker :: (.other :: x')) = some ((Item.other :: x').eraseP fun i => i.kind == 4) := by
        cases x' <;> simp [dropExit, indexOf, Item.kind, List.findIdx?_cons]
      simpa [r1 4 _ (by decide) hx] using this
    | some v => simp [dropExit, indexOf, Item.kind, List.findIdx?_cons]
  have h2 : dropEntry ((d.a.map Item.actual).toList ++ .region d.host d.c :: .parallel :: .other :: e') =
      some (.other :: e') := by
    cases d.a with
    | none =>
      have : dropEntry (.region d.host d.c :: .parallel :: .other :: e') =
          some ((Item.other :: e').eraseP fun i => i.kind == 0) := by
        cases e' <;> simp [dropEntry, indexOf, Item.kind, List.findIdx?_cons]
      simpa [r1 0 _ (by decide) he] using this
    | some v => simp [dropEntry, indexOf, Item.kind, List.findIdx?_cons]
  rw [h1, h2]

/-- A parallel loop with dependencies which is not surrounded by a region: the analyzer crashes. -/
theorem no_region_fails : ∃ (deps : List (Nat × Widths)) (ties : Nat → Option Tie), ¬ AllTied deps ties ∧
    sanitize deps ties ⟨[.parallel], []⟩ = none := by
  refine ⟨[(3, [(some 1, none)])], fun _ => none, ?_, by decide⟩
  intro h
  obtain ⟨t, ht, _⟩ := h 3 _ (List.mem_singleton.2 rfl)
  cases ht

end Tsar.DvmhRegions
