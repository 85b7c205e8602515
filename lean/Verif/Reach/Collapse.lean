import Verif.Reach.Live
import Verif.Reach.Hints

/-!
# Collapse of a region (C22)
-/

namespace Tsar.Reach

open Tsar.Range Tsar.MemSet Tsar.DFValue Tsar.DataFlow

variable {N : Type} [DecidableEq N]

set_option linter.unusedSectionVars false

/-- The location is a part of some location from the set, hints are parts of hints. -/
def Sub (l : Loc) (s : MSet) : Prop :=
  ∃ l' ∈ allLocs s, l'.ptr = l.ptr ∧ l'.kind.hint = l.kind.hint ∧
    ∀ b, MemSet.Reach l b → MemSet.Reach l' b

theorem Sub.real {l : Loc} {s : MSet} (h : Sub l s) (hh : l.kind.hint = false) {b : Nat}
    (hb : MemSet.Reach l b) : RealByte s l.ptr b := by
  obtain ⟨l', h1, h2, h3, h4⟩ := h
  exact ⟨l', h1, h3.trans hh, h2, h4 b hb⟩

theorem sub_self {l : Loc} {s : MSet} (h : l ∈ allLocs s) : Sub l s := ⟨l, h, rfl, rfl, fun _ h => h⟩

theorem Sub.insertAll {ob : Option Nat → Obj} {s : MSet} {ls : List Loc} (hs : SetWf ob s)
    (hl : ∀ l ∈ ls, WfLoc (ob l.ptr) l) {l : Loc} (h : Sub l s) :
    Sub l (MemSet.insertAll s ls).1 := by
  obtain ⟨l', h1, h2, h3, h4⟩ := h
  obtain ⟨m, m1, m2, m3, m4⟩ := (insertAll_keep hs hl).1 l' (List.mem_append_right _ h1)
  exact ⟨m, m1, m2.trans h2, (by rw [m3, h3]), fun b hb => m4 b (h4 b hb)⟩

theorem sub_inserted {ob : Option Nat → Obj} {s : MSet} {ls : List Loc} (hs : SetWf ob s)
    (hl : ∀ l ∈ ls, WfLoc (ob l.ptr) l) {l : Loc} (h : l ∈ ls) :
    Sub l (MemSet.insertAll s ls).1 := by
  obtain ⟨m, m1, m2, m3, m4⟩ := (insertAll_keep hs hl).1 l (List.mem_append_left _ h)
  exact ⟨m, m1, m2, by rw [m3], m4⟩

theorem RealByte.insertAll {ob : Option Nat → Obj} {s : MSet} {ls : List Loc} (hs : SetWf ob s)
    (hl : ∀ l ∈ ls, WfLoc (ob l.ptr) l) {p : Option Nat} {b : Nat} (h : RealByte s p b) :
    RealByte (MemSet.insertAll s ls).1 p b := by
  obtain ⟨l, h1, h2, rfl, h4⟩ := h
  exact ((sub_self h1).insertAll hs hl).real h2 h4

/-- Aggregation over iterations keeps bytes of locations, so they do not depend on an iteration. -/
def Oracle.Keeps (ob : Option Nat → Obj) (o : Oracle) : Prop :=
  ∀ l, WfLoc (ob l.ptr) l → (o.aggr l).2 = true ∧ (o.aggr l).1.ptr = l.ptr ∧
    (o.aggr l).1.kind.hint = l.kind.hint ∧ WfLoc (ob l.ptr) (o.aggr l).1 ∧
    ∀ b, MemSet.Reach (o.aggr l).1 b ↔ MemSet.Reach l b

theorem Oracle.Keeps.wf {ob : Option Nat → Obj} {o : Oracle} (h : o.Keeps ob) {l : Loc}
    (hl : WfLoc (ob l.ptr) l) : WfLoc (ob (o.aggr l).1.ptr) (o.aggr l).1 := by
  obtain ⟨-, h2, -, h4, -⟩ := h l hl
  rw [h2]; exact h4

theorem Oracle.Keeps.sub {ob : Option Nat → Obj} {o : Oracle} (h : o.Keeps ob) {l : Loc}
    (hl : WfLoc (ob l.ptr) l) {s : MSet} (hs : Sub (o.aggr l).1 s) : Sub l s := by
  obtain ⟨-, h2, h3, -, h5⟩ := h l hl
  obtain ⟨m, m1, m2, m3, m4⟩ := hs
  exact ⟨m, m1, m2.trans h2, m3.trans h3, fun b hb => m4 b ((h5 b).2 hb)⟩

/-- A collection without other locations. -/
structure PartsWf (ob : Option Nat → Obj) (p : Parts) : Prop where
  own : SetWf ob p.own
  other : p.other = []

/-- The second collection contains all locations of the first one. -/
def Grows (p q : Parts) : Prop := ∀ l, Sub l p.own → Sub l q.own

theorem distribute_spec {ob : Option Nat → Obj} {o : Oracle} (ho : o.Keeps ob) {l orig : Loc}
    (hl : WfLoc (ob l.ptr) l) {p : Parts} (hp : PartsWf ob p) :
    PartsWf ob (distribute (o.aggr l) orig p) ∧ Grows p (distribute (o.aggr l) orig p) ∧
    Sub l (distribute (o.aggr l) orig p).own ∧
    (∀ q b, SetByte (distribute (o.aggr l) orig p).own q b →
      SetByte p.own q b ∨ (q = l.ptr ∧ MemSet.Reach l b)) ∧
    (NoHint p.own → l.kind.hint = false → NoHint (distribute (o.aggr l) orig p).own) := by
  obtain ⟨k1, k2, k3, k4, k5⟩ := ho l hl
  have hw : ∀ x ∈ [(o.aggr l).1], WfLoc (ob x.ptr) x := fun x hx => by
    rw [List.mem_singleton.1 hx]; exact ho.wf hl
  have he : (distribute (o.aggr l) orig p) =
      { p with own := (MemSet.insertAll p.own [(o.aggr l).1]).1 } := by
    simp only [distribute, k1, if_true, MemSet.insertAll]
  rw [he]
  obtain ⟨i1, i2, -⟩ := insertAll_spec hp.own hw
  refine ⟨⟨i1, hp.other⟩, fun x hx => hx.insertAll hp.own hw,
    ho.sub hl (sub_inserted hp.own hw (List.mem_singleton.2 rfl)), fun q b h => ?_, fun hn hh => ?_⟩
  · rcases (i2 q b).1 h with h | ⟨x, hx, hq, hr⟩
    · exact .inl h
    · rw [List.mem_singleton.1 hx] at hq hr
      exact .inr ⟨hq.symm.trans k2, (k5 b).1 hr⟩
  · exact insertAll_noHint hp.own hw hn fun x hx => by
      rw [List.mem_singleton.1 hx, k3]; exact hh

theorem distributeAll_spec {ob : Option Nat → Obj} {o : Oracle} (ho : o.Keeps ob) (orig : Loc) :
    ∀ {ls : List Loc}, (∀ l ∈ ls, WfLoc (ob l.ptr) l) → ∀ {p : Parts}, PartsWf ob p →
    PartsWf ob (distributeAll o orig ls p) ∧ Grows p (distributeAll o orig ls p) ∧
    (∀ l ∈ ls, Sub l (distributeAll o orig ls p).own) ∧
    (∀ q b, SetByte (distributeAll o orig ls p).own q b → SetByte p.own q b ∨ ListByte ls q b) ∧
    (NoHint p.own → (∀ l ∈ ls, l.kind.hint = false) → NoHint (distributeAll o orig ls p).own) := by
  intro ls
  induction ls with
  | nil =>
    intro _ p hp
    exact ⟨hp, fun _ h => h, by simp, fun _ _ h => .inl h, fun h _ => h⟩
  | cons l ls ih =>
    intro hls p hp
    obtain ⟨d1, d2, d3, d4, d5⟩ := distribute_spec ho (orig := orig) (hls l List.mem_cons_self) hp
    obtain ⟨i1, i2, i3, i4, i5⟩ := ih (fun x hx => hls x (List.mem_cons_of_mem _ hx)) d1
    refine ⟨i1, fun x hx => i2 x (d2 x hx), fun x hx => ?_, fun q b h => ?_, fun hn hh => ?_⟩
    · rcases List.mem_cons.1 hx with rfl | hx
      · exact i2 _ d3
      · exact i3 x hx
    · rcases i4 q b h with h | ⟨x, hx, h⟩
      · rcases d4 q b h with h | h
        · exact .inl h
        · exact .inr ⟨l, List.mem_cons_self, h.1.symm, h.2⟩
      · exact .inr ⟨x, List.mem_cons_of_mem _ hx, h⟩
    · exact i5 (d5 hn (hh l List.mem_cons_self)) fun x hx => hh x (List.mem_cons_of_mem _ hx)

theorem findCoveredBy_spec {ob : Option Nat → Obj} {S : Solver} (hS : SolverOK S) {v : Val}
    (hv : v.Wf ob) {loc : Loc} (hl : WfLoc (ob loc.ptr) loc) :
    (∀ m ∈ v.findCoveredBy S loc, m.ptr = loc.ptr ∧ WfLoc (ob m.ptr) m) ∧
    (∀ p b, ListByte (v.findCoveredBy S loc) p b → v.Byte p b) ∧
    (ValNoHint v → loc.kind.hint = false → ∀ m ∈ v.findCoveredBy S loc, m.kind.hint = false) := by
  cases v with
  | full =>
    refine ⟨fun m hm => ?_, fun _ _ _ => trivial, fun _ hh m hm => ?_⟩
    · rw [List.mem_singleton.1 hm]; exact ⟨rfl, hl⟩
    · rw [List.mem_singleton.1 hm]; exact hh
  | mask s =>
    obtain ⟨c1, c2⟩ := coveredBy_spec hS hv hl
    have c1' : ∀ m ∈ coveredBy S s loc, m.ptr = loc.ptr ∧ WfLoc (ob m.ptr) m := fun m hm => by
      have := c1 m hm
      rw [this.1] at *; exact ⟨rfl, this.2⟩
    refine ⟨c1', fun p b => ?_, fun hn _ => coveredBy_noHint hn⟩
    rintro ⟨m, hm, rfl, hr⟩
    have := (c1' m hm).1
    rw [this]
    exact (c2 b ⟨m, hm, hr⟩).1

/-- The result of processing of one must defined location. -/
theorem collapseDef_spec {ob : Option Nat → Obj} {S : Solver} (hS : SolverOK S) {o : Oracle}
    (ho : o.Keeps ob) {latch : Option Info} (hlatch : ∀ v, latch = some v → v.must.Wf ob)
    {exit : Info} (hexit : exit.must.Wf ob) {loc : Loc} (hl : WfLoc (ob loc.ptr) loc)
    {st : Parts × Parts} (h1 : PartsWf ob st.1) (h2 : PartsWf ob st.2) :
    PartsWf ob (collapseDef S o latch exit st loc).1 ∧
    PartsWf ob (collapseDef S o latch exit st loc).2 ∧
    Grows st.1 (collapseDef S o latch exit st loc).1 ∧
    Grows st.2 (collapseDef S o latch exit st loc).2 ∧
    (∀ q b, SetByte (collapseDef S o latch exit st loc).1.own q b →
      SetByte st.1.own q b ∨ exit.must.Byte q b ∨ ∃ v, latch = some v ∧ v.must.Byte q b) ∧
    (loc.kind.hint = false →
      (∀ m ∈ exit.must.findCoveredBy S loc, Sub m (collapseDef S o latch exit st loc).1.own) ∧
      (exit.must.findCoveredBy S loc = [] → Sub loc (collapseDef S o latch exit st loc).2.own)) ∧
    (NoHint st.1.own → ValNoHint exit.must → (∀ v, latch = some v → ValNoHint v.must) →
      NoHint (collapseDef S o latch exit st loc).1.own) := by
  unfold collapseDef
  split
  · next hh =>
    exact ⟨h1, h2, fun _ h => h, fun _ h => h, fun _ _ h => .inl h, fun h => by simp [hh] at h,
      fun h _ _ => h⟩
  · next hh =>
    have hh : loc.kind.hint = false := by simpa using hh
    -- the step for one value
    have step : ∀ (v : Info) (hv : v.must.Wf ob) (st : Parts × Parts) (h1 : PartsWf ob st.1)
        (h2 : PartsWf ob st.2) (r : Parts × Parts),
        r = (if v.must.findCoveredBy S loc ≠ [] then
            (distributeAll o loc (v.must.findCoveredBy S loc) st.1, st.2)
          else (st.1, distribute (o.aggr loc) loc st.2)) →
        PartsWf ob r.1 ∧ PartsWf ob r.2 ∧ Grows st.1 r.1 ∧ Grows st.2 r.2 ∧
        (∀ q b, SetByte r.1.own q b → SetByte st.1.own q b ∨ v.must.Byte q b) ∧
        (∀ m ∈ v.must.findCoveredBy S loc, Sub m r.1.own) ∧
        (v.must.findCoveredBy S loc = [] → Sub loc r.2.own) ∧
        (NoHint st.1.own → ValNoHint v.must → NoHint r.1.own) := by
      intro v hv st h1 h2 r hr
      obtain ⟨f1, f2, f3⟩ := findCoveredBy_spec hS hv hl
      split at hr
      · next hne =>
        subst hr
        obtain ⟨d1, d2, d3, d4, d5⟩ := distributeAll_spec ho loc (fun m hm => (f1 m hm).2) h1
        exact ⟨d1, h2, d2, fun _ h => h, fun q b h => (d4 q b h).imp_right (f2 q b), d3,
          fun h => absurd h hne, fun hn hv => d5 hn (f3 hv hh)⟩
      · next he =>
        have he : v.must.findCoveredBy S loc = [] := by simpa using he
        subst hr
        obtain ⟨d1, d2, d3, -, -⟩ := distribute_spec ho (orig := loc) hl h2
        refine ⟨h1, d1, fun _ h => h, d2, fun q b h => .inl h, ?_, fun _ => d3, fun h _ => h⟩
        rw [he]; simp
    cases latch with
    | none =>
      obtain ⟨r1, r2, r3, r4, r5, r6, r7, r8⟩ := step exit hexit st h1 h2 _ rfl
      exact ⟨r1, r2, r3, r4, fun q b h => (r5 q b h).imp_right .inl, fun _ => ⟨r6, r7⟩,
        fun hn he _ => r8 hn he⟩
    | some v =>
      obtain ⟨r1, r2, r3, r4, r5, -, -, r8⟩ := step v (hlatch v rfl) st h1 h2 _ rfl
      obtain ⟨q1, q2, q3, q4, q5, q6, q7, q8⟩ := step exit hexit _ r1 r2 _ rfl
      refine ⟨q1, q2, fun l h => q3 l (r3 l h), fun l h => q4 l (r4 l h), fun q b h => ?_,
        fun _ => ⟨q6, q7⟩, fun hn he hv => q8 (r8 hn (hv v rfl)) he⟩
      rcases q5 q b h with h | h
      · rcases r5 q b h with h | h
        · exact .inl h
        · exact .inr (.inr ⟨v, rfl, h⟩)
      · exact .inr (.inl h)

theorem collapseDefs_spec {ob : Option Nat → Obj} {S : Solver} (hS : SolverOK S) {o : Oracle}
    (ho : o.Keeps ob) {latch : Option Info} (hlatch : ∀ v, latch = some v → v.must.Wf ob)
    {exit : Info} (hexit : exit.must.Wf ob) :
    ∀ {ls : List Loc}, (∀ l ∈ ls, WfLoc (ob l.ptr) l) → ∀ {st : Parts × Parts},
    PartsWf ob st.1 → PartsWf ob st.2 →
    PartsWf ob (ls.foldl (collapseDef S o latch exit) st).1 ∧
    PartsWf ob (ls.foldl (collapseDef S o latch exit) st).2 ∧
    Grows st.1 (ls.foldl (collapseDef S o latch exit) st).1 ∧
    Grows st.2 (ls.foldl (collapseDef S o latch exit) st).2 ∧
    (∀ q b, SetByte (ls.foldl (collapseDef S o latch exit) st).1.own q b →
      SetByte st.1.own q b ∨ exit.must.Byte q b ∨ ∃ v, latch = some v ∧ v.must.Byte q b) ∧
    (∀ loc ∈ ls, loc.kind.hint = false →
      (∀ m ∈ exit.must.findCoveredBy S loc,
        Sub m (ls.foldl (collapseDef S o latch exit) st).1.own) ∧
      (exit.must.findCoveredBy S loc = [] →
        Sub loc (ls.foldl (collapseDef S o latch exit) st).2.own)) ∧
    (NoHint st.1.own → ValNoHint exit.must → (∀ v, latch = some v → ValNoHint v.must) →
      NoHint (ls.foldl (collapseDef S o latch exit) st).1.own) := by
  intro ls
  induction ls with
  | nil =>
    intro _ st h1 h2
    exact ⟨h1, h2, fun _ h => h, fun _ h => h, fun _ _ h => .inl h, by simp, fun h _ _ => h⟩
  | cons l ls ih =>
    intro hls st h1 h2
    obtain ⟨d1, d2, d3, d4, d5, d6, d7⟩ := collapseDef_spec hS ho hlatch hexit
      (hls l List.mem_cons_self) h1 h2
    obtain ⟨i1, i2, i3, i4, i5, i6, i7⟩ := ih (fun x hx => hls x (List.mem_cons_of_mem _ hx)) d1 d2
    simp only [List.foldl_cons]
    refine ⟨i1, i2, fun x h => i3 x (d3 x h), fun x h => i4 x (d4 x h), fun q b h => ?_,
      fun loc hloc hh => ?_, fun hn he hv => i7 (d7 hn he hv) he hv⟩
    · rcases i5 q b h with h | h
      · exact d5 q b h
      · exact .inr h
    · rcases List.mem_cons.1 hloc with rfl | hloc
      · exact ⟨fun m hm => i3 m ((d6 hh).1 m hm), fun he => i4 _ ((d6 hh).2 he)⟩
      · exact i6 loc hloc hh

theorem filtered_spec {ob : Option Nat → Obj} {o : Oracle} (ho : o.Keeps ob) (skip : Loc → Bool) :
    ∀ {ls : List Loc}, (∀ l ∈ ls, WfLoc (ob l.ptr) l) → ∀ {p : Parts}, PartsWf ob p →
    PartsWf ob (ls.foldl (fun p l => if skip l then p else distribute (o.aggr l) l p) p) ∧
    Grows p (ls.foldl (fun p l => if skip l then p else distribute (o.aggr l) l p) p) ∧
    (∀ l ∈ ls, skip l = false →
      Sub l (ls.foldl (fun p l => if skip l then p else distribute (o.aggr l) l p) p).own) := by
  intro ls
  induction ls with
  | nil => intro _ p hp; exact ⟨hp, fun _ h => h, by simp⟩
  | cons l ls ih =>
    intro hls p hp
    obtain ⟨d1, d2, d3, -, -⟩ := distribute_spec ho (orig := l) (hls l List.mem_cons_self) hp
    simp only [List.foldl_cons]
    have hls' := fun x hx => hls x (List.mem_cons_of_mem _ hx)
    by_cases hs : skip l = true
    · rw [if_pos hs]
      obtain ⟨i1, i2, i3⟩ := ih hls' hp
      refine ⟨i1, i2, fun x hx hxs => ?_⟩
      rcases List.mem_cons.1 hx with rfl | hx
      · simp [hs] at hxs
      · exact i3 x hx hxs
    · rw [if_neg hs]
      obtain ⟨i1, i2, i3⟩ := ih hls' d1
      refine ⟨i1, fun x h => i2 x (d2 x h), fun x hx hxs => ?_⟩
      rcases List.mem_cons.1 hx with rfl | hx
      · exact i2 _ d3
      · exact i3 x hx hxs

theorem exposedUses_spec {ob : Option Nat → Obj} {S : Solver} (hS : SolverOK S) {inn : Info}
    (hi : inn.must.Wf ob) {loc : Loc} (hl : WfLoc (ob loc.ptr) loc) :
    (∀ m ∈ exposedUses S inn loc, WfLoc (ob m.ptr) m) ∧
    ∀ b, MemSet.Reach loc b → ¬ inn.must.Byte loc.ptr b →
      ∃ m ∈ exposedUses S inn loc, m.ptr = loc.ptr ∧ m.kind.hint = loc.kind.hint ∧
        MemSet.Reach m b := by
  unfold exposedUses
  have single : (∀ m ∈ [loc], WfLoc (ob m.ptr) m) ∧
    ∀ b, MemSet.Reach loc b → ¬ inn.must.Byte loc.ptr b →
      ∃ m ∈ [loc], m.ptr = loc.ptr ∧ m.kind.hint = loc.kind.hint ∧ MemSet.Reach m b :=
    ⟨fun m hm => by rw [List.mem_singleton.1 hm]; exact hl,
      fun b hb _ => ⟨loc, List.mem_singleton.2 rfl, rfl, rfl, hb⟩⟩
  cases hv : inn.must with
  | full => rw [hv] at single; simpa [Val.subtractFrom] using single
  | mask s =>
    rw [hv] at hi single
    simp only [Val.subtractFrom, MemSet.subtractFrom]
    split
    · simp only
      split
      · simp only [Option.getD_some]
        obtain ⟨t1, t2, t3⟩ := tailsOf_spec (o := ob loc.ptr) hS (p := loc.ptr)
          (cs := locs s loc.ptr) (tails := [loc]) (fun c hc => locs_wf hi hc)
          (fun t ht => by rw [List.mem_singleton.1 ht]; exact ⟨rfl, hl⟩)
        refine ⟨fun m hm => by rw [(t1 m hm).1]; exact (t1 m hm).2, fun b hb hn => ?_⟩
        rcases t2 b ⟨loc, List.mem_singleton.2 rfl, hb⟩ with ⟨t, ht, hr⟩ | h
        · obtain ⟨x, hx, hxh⟩ := tailsOf_hint t ht
          rw [List.mem_singleton.1 hx] at hxh
          exact ⟨t, ht, (t1 t ht).1, hxh, hr⟩
        · exact absurd ((setByte_iff hi).2 h) hn
      · exact single
    · exact single

/-- The result of processing of one node. -/
theorem collapseNode_spec {ob : Option Nat → Obj} {S : Solver} (hS : SolverOK S) {o : Oracle}
    (ho : o.Keeps ob) {latch : Option Info} (hlatch : ∀ v, latch = some v → v.must.Wf ob)
    {exit : Info} (hexit : exit.must.Wf ob) {inn : Info} (hinn : inn.must.Wf ob) {du : DefUse}
    (hdu : du.Wf ob) {acc : DefUse} (hacc : acc.Wf ob) {r : DefUse}
    (hr : r = collapseNode S o latch exit inn du acc) :
    r.Wf ob ∧ (∀ l, Sub l acc.defs → Sub l r.defs) ∧ (∀ l, Sub l acc.mayDefs → Sub l r.mayDefs) ∧
    (∀ l, Sub l acc.uses → Sub l r.uses) ∧
    (∀ q b, SetByte r.defs q b →
      SetByte acc.defs q b ∨ exit.must.Byte q b ∨ ∃ v, latch = some v ∧ v.must.Byte q b) ∧
    (∀ loc ∈ allLocs du.defs, loc.kind.hint = false →
      (∀ m ∈ exit.must.findCoveredBy S loc, Sub m r.defs) ∧
      (exit.must.findCoveredBy S loc = [] → Sub loc r.mayDefs)) ∧
    (∀ loc ∈ allLocs du.mayDefs, loc.kind.hint = false → Sub loc r.mayDefs) ∧
    (∀ loc ∈ allLocs du.uses, loc.kind.hint = false → o.localUse loc = false →
      ∀ b, MemSet.Reach loc b → ¬ inn.must.Byte loc.ptr b → RealByte r.uses loc.ptr b) ∧
    (NoHint acc.defs → ValNoHint exit.must → (∀ v, latch = some v → ValNoHint v.must) →
      NoHint r.defs) := by
  subst hr
  have hnil : PartsWf ob ⟨[], []⟩ := ⟨setWf_nil ob, rfl⟩
  unfold collapseNode
  simp only
  obtain ⟨d1, d2, -, d4, d5, d6, d7⟩ := collapseDefs_spec hS ho hlatch hexit (allLocs_wf hdu.defs)
    (st := (⟨[], []⟩, ⟨[], []⟩)) hnil hnil
  generalize (allLocs du.defs).foldl (collapseDef S o latch exit) (⟨[], []⟩, ⟨[], []⟩) = st at *
  obtain ⟨m1, m2, m3⟩ := filtered_spec ho (fun l => l.kind.hint) (allLocs_wf hdu.mayDefs) d2
  generalize (allLocs du.mayDefs).foldl (fun p l =>
    if l.kind.hint then p else distribute (o.aggr l) l p) st.2 = may at *
  obtain ⟨u1, -, u3⟩ := filtered_spec ho (fun l => l.kind.hint || o.localUse l)
    (allLocs_wf hdu.uses) hnil
  have hu : collapseUses o du = (allLocs du.uses).foldl (fun p l =>
    if l.kind.hint || o.localUse l then p else distribute (o.aggr l) l p) ⟨[], []⟩ := rfl
  rw [hu]
  generalize (allLocs du.uses).foldl (fun p l =>
    if l.kind.hint || o.localUse l then p else distribute (o.aggr l) l p) ⟨[], []⟩ = uses at *
  have cl : ∀ s, MemSet.clarify S s [] = s := fun s => rfl
  rw [d1.other, m1.other, u1.other, cl, cl, cl]
  have wd := allLocs_wf d1.own
  have wm := allLocs_wf m1.own
  have wu : ∀ l ∈ (allLocs uses.own).flatMap (exposedUses S inn), WfLoc (ob l.ptr) l := by
    intro l hl
    obtain ⟨x, hx, hl⟩ := List.mem_flatMap.1 hl
    exact (exposedUses_spec hS hinn (allLocs_wf u1.own x hx)).1 l hl
  have we := allLocs_wf hdu.explicit
  refine ⟨⟨(insertAll_spec hacc.defs wd).1, (insertAll_spec hacc.mayDefs wm).1,
      (insertAll_spec hacc.uses wu).1, (insertAll_spec hacc.explicit we).1⟩,
    fun l h => h.insertAll hacc.defs wd, fun l h => h.insertAll hacc.mayDefs wm,
    fun l h => h.insertAll hacc.uses wu, fun q b h => ?_, fun loc hloc hh => ⟨fun m hm => ?_, fun he => ?_⟩,
    fun loc hloc hh => ?_, fun loc hloc hh hlu b hb hnb => ?_, fun hn he hv => ?_⟩
  · rcases ((insertAll_spec hacc.defs wd).2.1 q b).1 h with h | h
    · exact .inl h
    · rcases d5 q b (setByte_all.2 h) with h | h
      · exact absurd h setByte_nil
      · exact .inr h
  · obtain ⟨x, x1, x2, x3, x4⟩ := (d6 loc hloc hh).1 m hm
    obtain ⟨y, y1, y2, y3, y4⟩ := sub_inserted hacc.defs wd x1
    exact ⟨y, y1, y2.trans x2, y3.trans x3, fun b hb => y4 b (x4 b hb)⟩
  · obtain ⟨x, x1, x2, x3, x4⟩ := m2 _ ((d6 loc hloc hh).2 he)
    obtain ⟨y, y1, y2, y3, y4⟩ := sub_inserted hacc.mayDefs wm x1
    exact ⟨y, y1, y2.trans x2, y3.trans x3, fun b hb => y4 b (x4 b hb)⟩
  · obtain ⟨x, x1, x2, x3, x4⟩ := m3 loc hloc hh
    obtain ⟨y, y1, y2, y3, y4⟩ := sub_inserted hacc.mayDefs wm x1
    exact ⟨y, y1, y2.trans x2, y3.trans x3, fun b hb => y4 b (x4 b hb)⟩
  · obtain ⟨x, x1, x2, x3, x4⟩ := u3 loc hloc (by simp [hh, hlu])
    obtain ⟨m, e1, e2, e3, e4⟩ := (exposedUses_spec hS hinn (allLocs_wf u1.own x x1)).2 b (x4 b hb)
      (by rw [x2]; exact hnb)
    have := (sub_inserted hacc.uses wu (List.mem_flatMap.2 ⟨x, x1, e1⟩)).real
      ((e3.trans x3).trans hh) e4
    rw [e2, x2] at this
    exact this
  · exact insertAll_noHint hacc.defs wd hn (d7 noHint_nil he hv)

theorem contain_bytes {ob : Option Nat → Obj} {S : Solver} (hS : SolverOK S) {s : MSet}
    (hs : SetWf ob s) {loc : Loc} (hl : WfLoc (ob loc.ptr) loc) (h : MemSet.contain S s loc = true)
    {b : Nat} (hb : MemSet.Reach loc b) : SetByte s loc.ptr b :=
  contain_sound ob S hS s loc hs hl h b hb

theorem asHint_wf {o : Obj} {l : Loc} (h : WfLoc o l) : WfLoc o (asHint l) := h

theorem asHint_reach {l : Loc} {b : Nat} : MemSet.Reach (asHint l) b ↔ MemSet.Reach l b := Iff.rfl

/-- Hints do not add new must defined bytes and do not remove anything. -/
theorem collapseExplicit_spec {ob : Option Nat → Obj} {S : Solver} (hS : SolverOK S) {o : Oracle}
    (ho : o.Keeps ob) {acc : DefUse} (hacc : acc.Wf ob) {loc : Loc} (hl : WfLoc (ob loc.ptr) loc)
    {r : DefUse} (hr : r = collapseExplicit S o acc loc) :
    r.Wf ob ∧ (∀ l, Sub l acc.defs → Sub l r.defs) ∧ (∀ l, Sub l acc.mayDefs → Sub l r.mayDefs) ∧
    (∀ l, Sub l acc.uses → Sub l r.uses) ∧ (∀ q b, SetByte r.defs q b → SetByte acc.defs q b) ∧
    (isCollapsed (o.aggr loc).1 = false → r.defs = acc.defs) := by
  have hw : ∀ x ∈ [asHint loc], WfLoc (ob x.ptr) x := fun x hx => by
    rw [List.mem_singleton.1 hx]; exact hl
  have hins : ∀ s, (MemSet.insert s (asHint loc)).1 = (MemSet.insertAll s [asHint loc]).1 :=
    fun _ => rfl
  have grow : ∀ {s : MSet}, SetWf ob s → SetWf ob (MemSet.insert s (asHint loc)).1 ∧
      ∀ l, Sub l s → Sub l (MemSet.insert s (asHint loc)).1 := fun {s} hs => by
    rw [hins]
    exact ⟨(insertAll_spec hs hw).1, fun l h => h.insertAll hs hw⟩
  subst hr
  unfold collapseExplicit
  simp only
  have d : ∃ D, (if !MemSet.contain S acc.defs loc && (isCollapsed (o.aggr loc).1 &&
        MemSet.contain S acc.defs (o.aggr loc).1) then
      { acc with defs := (MemSet.insert acc.defs (asHint loc)).1 } else acc) =
      { acc with defs := D } ∧ SetWf ob D ∧ (∀ l, Sub l acc.defs → Sub l D) ∧
      (∀ q b, SetByte D q b → SetByte acc.defs q b) ∧
      (isCollapsed (o.aggr loc).1 = false → D = acc.defs) := by
    split
    · next hc =>
      simp only [Bool.and_eq_true] at hc
      refine ⟨_, rfl, (grow hacc.defs).1, (grow hacc.defs).2, fun q b h => ?_, fun h => ?_⟩
      · rcases ((insert_spec hacc.defs (loc := asHint loc) hl).2.1 q b).1 h with h | ⟨rfl, hb⟩
        · exact h
        · obtain ⟨-, k2, -, k4, k5⟩ := ho loc hl
          have := contain_bytes hS hacc.defs (ho.wf hl) hc.2.2 ((k5 b).2 hb)
          rw [k2] at this
          exact this
      · simp [h] at hc
    · exact ⟨acc.defs, rfl, hacc.defs, fun _ h => h, fun _ _ h => h, fun _ => rfl⟩
  obtain ⟨D, e, D1, D2, D3, D4⟩ := d
  rw [e]
  simp only
  have m : ∀ c : Bool, ∃ M, (if c = true then
      ({ acc with defs := D, mayDefs := (MemSet.insert acc.mayDefs (asHint loc)).1 } : DefUse)
      else { acc with defs := D }) = { acc with defs := D, mayDefs := M } ∧ SetWf ob M ∧
      (∀ l, Sub l acc.mayDefs → Sub l M) := by
    intro c
    split
    · exact ⟨_, rfl, grow hacc.mayDefs⟩
    · exact ⟨_, rfl, hacc.mayDefs, fun _ h => h⟩
  obtain ⟨M, e, M1, M2⟩ := m (!MemSet.overlap S acc.mayDefs loc &&
    ((isCollapsed (o.aggr loc).1 && MemSet.overlap S acc.mayDefs (o.aggr loc).1) ||
        (o.parents loc).any fun l => MemSet.overlap S acc.mayDefs l))
  rw [e]
  simp only
  split
  · exact ⟨⟨D1, M1, (grow hacc.uses).1, hacc.explicit⟩, D2, M2, (grow hacc.uses).2, D3, D4⟩
  · exact ⟨⟨D1, M1, hacc.uses, hacc.explicit⟩, D2, M2, fun _ h => h, D3, D4⟩

theorem collapseExplicits_spec {ob : Option Nat → Obj} {S : Solver} (hS : SolverOK S) {o : Oracle}
    (ho : o.Keeps ob) : ∀ {ls : List Loc}, (∀ l ∈ ls, WfLoc (ob l.ptr) l) → ∀ {acc : DefUse},
    acc.Wf ob → ∀ {r : DefUse}, r = ls.foldl (collapseExplicit S o) acc →
    r.Wf ob ∧ (∀ l, Sub l acc.defs → Sub l r.defs) ∧ (∀ l, Sub l acc.mayDefs → Sub l r.mayDefs) ∧
    (∀ l, Sub l acc.uses → Sub l r.uses) ∧ (∀ q b, SetByte r.defs q b → SetByte acc.defs q b) ∧
    ((∀ l ∈ ls, isCollapsed (o.aggr l).1 = false) → r.defs = acc.defs) := by
  intro ls
  induction ls with
  | nil =>
    intro _ acc hacc r hr
    subst hr
    exact ⟨hacc, fun _ h => h, fun _ h => h, fun _ h => h, fun _ _ h => h, fun _ => rfl⟩
  | cons l ls ih =>
    intro hls acc hacc r hr
    obtain ⟨a1, a2, a3, a4, a5, a6⟩ := collapseExplicit_spec hS ho hacc (hls l List.mem_cons_self) rfl
    obtain ⟨i1, i2, i3, i4, i5, i6⟩ := ih (fun x hx => hls x (List.mem_cons_of_mem _ hx)) a1 hr
    exact ⟨i1, fun x h => i2 x (a2 x h), fun x h => i3 x (a3 x h), fun x h => i4 x (a4 x h),
      fun q b h => a5 q b (i5 q b h), fun h => (i6 fun x hx => h x (List.mem_cons_of_mem _ hx)).trans
        (a6 (h l List.mem_cons_self))⟩

/-- The result of processing of all nodes. -/
theorem collapseNodes_spec {ob : Option Nat → Obj} {S : Solver} (hS : SolverOK S) {o : Oracle}
    (ho : o.Keeps ob) {latch : Option Info} (hlatch : ∀ v, latch = some v → v.must.Wf ob)
    {exit : Info} (hexit : exit.must.Wf ob) {inn : N → Info} {du : N → DefUse}
    (hdu : ∀ n, (du n).Wf ob) :
    ∀ {ns : List N}, (∀ n ∈ ns, (inn n).must.Wf ob) → ∀ {acc : DefUse}, acc.Wf ob →
    ∀ {r : DefUse}, r = ns.foldl (fun acc n => collapseNode S o latch exit (inn n) (du n) acc) acc →
    r.Wf ob ∧ (∀ l, Sub l acc.defs → Sub l r.defs) ∧ (∀ l, Sub l acc.mayDefs → Sub l r.mayDefs) ∧
    (∀ l, Sub l acc.uses → Sub l r.uses) ∧
    (∀ q b, SetByte r.defs q b →
      SetByte acc.defs q b ∨ exit.must.Byte q b ∨ ∃ v, latch = some v ∧ v.must.Byte q b) ∧
    (∀ n ∈ ns, ∀ loc ∈ allLocs (du n).defs, loc.kind.hint = false →
      (∀ m ∈ exit.must.findCoveredBy S loc, Sub m r.defs) ∧
      (exit.must.findCoveredBy S loc = [] → Sub loc r.mayDefs)) ∧
    (∀ n ∈ ns, ∀ loc ∈ allLocs (du n).mayDefs, loc.kind.hint = false → Sub loc r.mayDefs) ∧
    (∀ n ∈ ns, ∀ loc ∈ allLocs (du n).uses, loc.kind.hint = false → o.localUse loc = false →
      ∀ b, MemSet.Reach loc b → ¬ (inn n).must.Byte loc.ptr b → RealByte r.uses loc.ptr b) ∧
    (NoHint acc.defs → ValNoHint exit.must → (∀ v, latch = some v → ValNoHint v.must) →
      NoHint r.defs) := by
  intro ns
  induction ns with
  | nil =>
    intro _ acc hacc r hr
    subst hr
    exact ⟨hacc, fun _ h => h, fun _ h => h, fun _ h => h, fun _ _ h => .inl h, by simp, by simp,
      by simp, fun h _ _ => h⟩
  | cons n ns ih =>
    intro hinn acc hacc r hr
    obtain ⟨a1, a2, a3, a4, a5, a6, a7, a8, a9⟩ := collapseNode_spec hS ho hlatch hexit
      (hinn n List.mem_cons_self) (hdu n) hacc rfl
    obtain ⟨i1, i2, i3, i4, i5, i6, i7, i8, i9⟩ := ih
      (fun x hx => hinn x (List.mem_cons_of_mem _ hx)) a1 hr
    refine ⟨i1, fun x h => i2 x (a2 x h), fun x h => i3 x (a3 x h), fun x h => i4 x (a4 x h),
      fun q b h => ?_, fun m hm loc hloc hh => ?_, fun m hm loc hloc hh => ?_,
      fun m hm loc hloc hh hlu b hb hnb => ?_, fun hn he hv => i9 (a9 hn he hv) he hv⟩
    · rcases i5 q b h with h | h
      · exact a5 q b h
      · exact .inr h
    · rcases List.mem_cons.1 hm with rfl | hm
      · exact ⟨fun x hx => i2 x ((a6 loc hloc hh).1 x hx), fun he => i3 _ ((a6 loc hloc hh).2 he)⟩
      · exact i6 m hm loc hloc hh
    · rcases List.mem_cons.1 hm with rfl | hm
      · exact i3 _ (a7 loc hloc hh)
      · exact i7 m hm loc hloc hh
    · rcases List.mem_cons.1 hm with rfl | hm
      · obtain ⟨l, l1, l2, l3, l4⟩ := a8 loc hloc hh hlu b hb hnb
        have := (i4 l (sub_self l1)).real l2 l4
        rw [l3] at this
        exact this
      · exact i8 m hm loc hloc hh hlu b hb hnb

/-! ### Executions of a region -/

theorem exec_written {R : Region N} {T : N → Trace → Prop} {m : N} {t : Trace}
    (h : Exec R T m t) {p : Option Nat} {b : Nat} (hw : Written t p b) :
    ∃ n t1 u, ExecTo R T n t1 ∧ n ≠ R.exit ∧ T n u ∧ Written u p b := by
  induction h with
  | entry => simp [Written] at hw
  | @node m n t u hm hmn hne hu ih =>
    rcases List.mem_append.1 hw with h | h
    · exact ih h
    · exact ⟨n, t, u, ⟨m, hmn, hm⟩, hne, hu, h⟩
  | exit _ _ ih => exact ih hw

theorem exec_exposed {R : Region N} {T : N → Trace → Prop} {m : N} {t : Trace}
    (h : Exec R T m t) {p : Option Nat} {b : Nat} (hw : Exposed t p b) :
    ∃ n t1 u, ExecTo R T n t1 ∧ n ≠ R.exit ∧ T n u ∧ ¬ Written t1 p b ∧ Exposed u p b := by
  induction h with
  | entry => exact absurd hw exposed_nil
  | @node m n t u hm hmn hne hu ih =>
    rcases exposed_append hw with h | ⟨h', h⟩
    · exact ih h
    · exact ⟨n, t, u, ⟨m, hmn, hm⟩, hne, hu, h', h⟩
  | exit _ _ ih => exact ih hw

theorem whole_written {R : Region N} {T : N → Trace → Prop} {k : Nat} {t : Trace}
    (h : Whole R T k t) {p : Option Nat} {b : Nat} (hw : Written t p b) :
    ∃ m t', Exec R T m t' ∧ Written t' p b := by
  induction h with
  | leave h => exact ⟨_, _, h, hw⟩
  | iter _ h _ ih =>
    rcases List.mem_append.1 hw with hw | hw
    · exact ⟨_, _, h, hw⟩
    · exact ih hw

theorem whole_exposed {R : Region N} {T : N → Trace → Prop} {k : Nat} {t : Trace}
    (h : Whole R T k t) {p : Option Nat} {b : Nat} (hw : Exposed t p b) :
    ∃ m t', Exec R T m t' ∧ Exposed t' p b := by
  induction h with
  | leave h => exact ⟨_, _, h, hw⟩
  | iter _ h _ ih =>
    rcases exposed_append hw with hw | ⟨-, hw⟩
    · exact ⟨_, _, h, hw⟩
    · exact ih hw

theorem whole_exit {R : Region N} {T : N → Trace → Prop} {k : Nat} {t : Trace}
    (h : Whole R T k t) : ∃ t', Exec R T R.exit t' ∧ ∀ p b, Written t' p b → Written t p b := by
  induction h with
  | leave h => exact ⟨_, h, fun _ _ h => h⟩
  | iter _ _ _ ih =>
    obtain ⟨t', h1, h2⟩ := ih
    exact ⟨t', h1, fun p b h => List.mem_append_right _ (h2 p b h)⟩

theorem whole_latch {R : Region N} {T : N → Trace → Prop} {k : Nat} {t : Trace}
    (h : Whole R T k t) (hk : k ≠ 0) :
    ∃ l t', R.latch = some l ∧ Exec R T l t' ∧ ∀ p b, Written t' p b → Written t p b := by
  cases h with
  | leave h => exact absurd rfl hk
  | iter hl h _ => exact ⟨_, _, hl, h, fun p b h => List.mem_append_left _ h⟩

/-- A byte which is must defined in some node but which is not covered by locations found for this
definition at the exit although other bytes of the definition are covered. -/
def Lost (S : Solver) (R : Region N) (s : N → Info) (p : Option Nat) (b : Nat) : Prop :=
  ∃ n ∈ R.nodes, ∃ loc ∈ allLocs (R.du n).defs, loc.ptr = p ∧ MemSet.Reach loc b ∧
    (s R.exit).must.findCoveredBy S loc ≠ [] ∧
    ¬ ListByte ((s R.exit).must.findCoveredBy S loc) p b

/-- A byte of a used location which is local for a loop according to other analysis passes. -/
def LocalUse (R : Region N) (o : Oracle) (p : Option Nat) (b : Nat) : Prop :=
  ∃ n ∈ R.nodes, ∃ loc ∈ allLocs (R.du n).uses, loc.ptr = p ∧ MemSet.Reach loc b ∧
    o.localUse loc = true

/-- C22. The def-use set of a region computed by `collapse()` summarises each execution of the region:
must defined bytes are written, written bytes are must or may defined and bytes which obtain values
from the outside are used. If the trip count is known then it is the number of executions of the loop
header, i.e. the number of completed iterations plus one. Exceptions are shown explicitly: lost bytes of partially covered
definitions (see `collapse_lost_fails`) and bytes local for the loop. The trip count must not be 1 (see
`collapse_trip_fails`) and locations do not depend on an iteration. -/
theorem collapse_sound_partial (ob : Option Nat → Obj) (S : Solver) (hS : SolverOK S) (R : Region N)
    (all : List N) (ha : Acyclic R all) (hw : ∀ n, (R.du n).Wf ob)
    (hn : ∀ n, Graph.Reach R.succs R.entry n → n ≠ R.entry → n ∈ R.nodes)
    (hn' : ∀ n ∈ R.nodes, Graph.Reach R.succs R.entry n)
    (hexit : Graph.Reach R.succs R.entry R.exit)
    (hlatch : ∀ l, R.latch = some l → Graph.Reach R.succs R.entry l)
    (hh : ∀ n, NoHint (R.du n).defs)
    (T : N → Trace → Prop) (hT : ∀ n u, T n u → FitsReal (R.du n) u)
    (o : Oracle) (ho : o.Keeps ob) (ht1 : o.tripCount ≠ 1)
    (s0 : N → Info) :
    ∃ s, (reachFrame S R).solve all.length s0 = some s ∧
      (collapse S R o s).Wf ob ∧
      (∀ k t, Whole R T k t → (o.tripCount ≠ 0 → k + 1 = o.tripCount) →
        (∀ p b, SetByte (collapse S R o s).defs p b → Written t p b) ∧
        (∀ p b, Written t p b → RealByte (collapse S R o s).defs p b ∨
          RealByte (collapse S R o s).mayDefs p b ∨ Lost S R s p b) ∧
        (∀ p b, Exposed t p b → RealByte (collapse S R o s).uses p b ∨ LocalUse R o p b)) ∧
      ((∀ l, isCollapsed (o.aggr l).1 = false) → NoHint (collapse S R o s).defs) := by
  have real_set : ∀ {s : MSet} {p : Option Nat} {b : Nat}, RealByte s p b → SetByte s p b :=
    fun ⟨l, h1, _, h3, h4⟩ => setByte_all.2 ⟨l, h1, h3, h4⟩
  obtain ⟨s, h1, h2⟩ := solve_correct ob hS R all ha hw T (fun n u hu =>
    ⟨(hT n u hu).defs, fun p b h => ((hT n u hu).mayDefs p b h).imp real_set real_set,
      fun p b h => real_set ((hT n u hu).uses p b h)⟩) s0
  refine ⟨s, h1, ?_⟩
  have hlv : ∀ v, latchValue R o s = some v → ∃ l, R.latch = some l ∧ s l = v ∧ o.tripCount ≠ 0 := by
    intro v hv
    unfold latchValue at hv
    split at hv
    · next hpos =>
      obtain ⟨l, hl, rfl⟩ := Option.map_eq_some_iff.1 hv
      exact ⟨l, hl, rfl, by omega⟩
    · simp at hv
  have hinn : ∀ n ∈ R.nodes, ((reachFrame S R).before s n).must.Wf ob := fun n h =>
    (before_correct ob hS R all ha T s h2 n (hn' n h)).1.1
  have hempty : DefUse.empty.Wf ob := ⟨setWf_nil ob, setWf_nil ob, setWf_nil ob, setWf_nil ob⟩
  obtain ⟨a1, -, -, -, a5, a6, a7, a8, a9⟩ := collapseNodes_spec hS ho (latch := latchValue R o s)
    (fun v hv => by obtain ⟨l, hl, rfl, -⟩ := hlv v hv; exact (h2.wf l (hlatch l hl)).1)
    (h2.wf _ hexit).1 hw hinn hempty rfl
  have hc : collapse S R o s = (allLocs (R.nodes.foldl (fun acc n => collapseNode S o
      (latchValue R o s) (s R.exit) ((reachFrame S R).before s n) (R.du n) acc)
      .empty).explicit).foldl (collapseExplicit S o) (R.nodes.foldl (fun acc n => collapseNode S o
      (latchValue R o s) (s R.exit) ((reachFrame S R).before s n) (R.du n) acc) .empty) := rfl
  obtain ⟨e1, e2, e3, e4, e5, e6⟩ := collapseExplicits_spec hS ho (allLocs_wf a1.explicit) a1 hc
  have realSub : ∀ {x y : MSet}, (∀ l, Sub l x → Sub l y) → ∀ {p b}, RealByte x p b →
      RealByte y p b := fun h p b ⟨l, l1, l2, l3, l4⟩ => l3 ▸ (h l (sub_self l1)).real l2 l4
  refine ⟨e1, fun k t hk htc => ⟨fun p b hb => ?_, fun p b hb => ?_, fun p b hb => ?_⟩, fun hcol => ?_⟩
  · rcases a5 p b (e5 p b hb) with h | h | ⟨v, hv, h⟩
    · exact absurd h setByte_nil
    · obtain ⟨t', x1, x2⟩ := whole_exit hk
      exact x2 p b (h2.must _ _ x1 p b h)
    · obtain ⟨l, hl, rfl, htr⟩ := hlv v hv
      have := htc htr
      obtain ⟨l', t', y1, y2, y3⟩ := whole_latch hk (by omega)
      rw [hl] at y1
      obtain rfl := Option.some.inj y1
      exact y3 p b (h2.must _ _ y2 p b h)
  · obtain ⟨m, t', x1, x2⟩ := whole_written hk hb
    obtain ⟨n, t1, u, y1, y2, y3, y4⟩ := exec_written x1 x2
    have hnr : n ∈ R.nodes := by
      obtain ⟨m', hm', hm''⟩ := y1
      refine hn n ((hm''.reach ha).tail ((ha.inverse _ _).2 hm')) ?_
      rintro rfl; rw [ha.entry] at hm'; simp at hm'
    rcases (hT n u y3).mayDefs p b y4 with ⟨l, l1, l2, l3, l4⟩ | ⟨l, l1, l2, l3, l4⟩
    · obtain ⟨c1, c2⟩ := a6 n hnr l l1 l2
      by_cases hcov : (s R.exit).must.findCoveredBy S l = []
      · exact .inr (.inl (l3 ▸ (e3 l (c2 hcov)).real l2 l4))
      · by_cases hin : ListByte ((s R.exit).must.findCoveredBy S l) p b
        · obtain ⟨x, hx, hxp, hxr⟩ := hin
          have hxh := (findCoveredBy_spec hS (h2.wf _ hexit).1
            (allLocs_wf (hw n).defs l l1)).2.2 (h2.noHint hh _ hexit) l2 x hx
          exact .inl (hxp ▸ (e2 x (c1 x hx)).real hxh hxr)
        · exact .inr (.inr ⟨n, hnr, l, l1, l3, l4, hcov, hin⟩)
    · exact .inr (.inl (l3 ▸ (e3 l (a7 n hnr l l1 l2)).real l2 l4))
  · obtain ⟨m, t', x1, x2⟩ := whole_exposed hk hb
    obtain ⟨n, t1, u, y1, y2, y3, y4, y5⟩ := exec_exposed x1 x2
    have hre : Graph.Reach R.succs R.entry n := by
      obtain ⟨m', hm', hm''⟩ := y1
      exact (hm''.reach ha).tail ((ha.inverse _ _).2 hm')
    have hnr : n ∈ R.nodes := by
      obtain ⟨m', hm', hm''⟩ := y1
      refine hn n hre ?_
      rintro rfl; rw [ha.entry] at hm'; simp at hm'
    obtain ⟨l, l1, l2, l3, l4⟩ := (hT n u y3).uses p b y5
    by_cases hlu : o.localUse l = true
    · exact .inr ⟨n, hnr, l, l1, l3, l4, hlu⟩
    · have hnb : ¬ ((reachFrame S R).before s n).must.Byte l.ptr b := fun h =>
        y4 (l3 ▸ ((before_correct ob hS R all ha T s h2 n hre).2 t1 y1).1 l.ptr b h)
      have := a8 n hnr l l1 l2 (by simpa using hlu) b l4 hnb
      exact .inl (l3 ▸ realSub e4 this)
  · rw [e6 fun l _ => hcol l]
    refine a9 noHint_nil (h2.noHint hh _ hexit) fun v hv => ?_
    obtain ⟨l, hl, rfl, -⟩ := hlv v hv
    exact h2.noHint hh _ (hlatch l hl)

end Tsar.Reach
