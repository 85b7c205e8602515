import Verif.Extern.File

/-!
# Export of analysis results
-/
namespace Tsar.Extern

open BitTrait (UnitTrait DepTrait setDep)

/-! ### Specification -/

/-- A variable is privatizable in some way, except last private variables. -/
def Traits.privatizable (t : Traits) : Bool :=
  t.dep .priv || t.dep .dynamicPrivate || t.dep .secondToLastPrivate || t.dep .firstPrivate

/-- No trait except a last private one (or no trait at all). -/
def Traits.lone (t : Traits) : Bool :=
  !t.fixed && !t.privatizable && !t.dep .shared && !t.dep .flow && !t.dep .anti && !t.dep .output

/-- What a file states about a variable with given traits. Distances of anti dependences are distances
of flow dependences (see `export_anti_fails`). -/
def exported (t : Traits) : Ext :=
  { useAfter := t.unit .useAfterLoop
    read := true
    write := !t.dep .readonly
    reduction := if t.dep .reduction then some (t.reduction.getD 7) else none
    priv := t.privatizable
    output := t.dep .output || t.lone
    flow := if t.dep .flow then some (storeRange t.flow (none, none))
      else if t.lone then some (none, none) else none
    anti := if t.dep .anti then some (storeRange t.flow (none, none))
      else if t.lone then some (none, none) else none }

/-- A loop of a file states `e` about a variable with an index `i`. -/
def At (l : LoopJ) (i : Nat) (e : Ext) : Prop :=
  (i ∈ l.priv ↔ e.priv = true) ∧ (i ∈ l.useAfter ↔ e.useAfter = true) ∧
  (i ∈ l.write ↔ e.write = true) ∧ (i ∈ l.read ↔ e.read = true) ∧
  (i ∈ l.output ↔ e.output = true) ∧ (∀ k, (i, k) ∈ l.reduction ↔ e.reduction = some k) ∧
  (∀ r, (i, r) ∈ l.anti ↔ e.anti = some r) ∧ (∀ r, (i, r) ∈ l.flow ↔ e.flow = some r)

/-! ### A variable -/

theorem mem_insert (i j : Nat) (l : List Nat) : j ∈ insert i l ↔ j = i ∨ j ∈ l := by
  unfold insert
  split
  · next h =>
    constructor
    · exact Or.inr
    · rintro (rfl | h')
      · exact h
      · exact h'
  · simp [or_comm]

theorem mem_emplace_ne {α : Type} {i j : Nat} (h : j ≠ i) (a r : α) (l : List (Nat × α)) :
    (j, r) ∈ emplace i a l ↔ (j, r) ∈ l := by
  unfold emplace
  split
  · rfl
  · simp [h]

theorem mem_emplaceWith_ne {α : Type} {i j : Nat} (h : j ≠ i) (a r : α) (f : α → α)
    (l : List (Nat × α)) : (j, r) ∈ emplaceWith i a f l ↔ (j, r) ∈ l := by
  unfold emplaceWith
  split
  · simp only [List.mem_map, Prod.exists]
    constructor
    · rintro ⟨k, b, hm, he⟩
      split at he
      · next hk =>
        simp only [Prod.mk.injEq] at he
        exact absurd (he.1.symm.trans hk) h
      · rw [← he]; exact hm
    · intro hm
      exact ⟨j, r, hm, by simp [h]⟩
  · simp [h]

theorem mem_emplace {α : Type} {i : Nat} {l : List (Nat × α)} (h : ∀ r, (i, r) ∉ l) (a r : α) :
    (i, r) ∈ emplace i a l ↔ r = a := by
  have : i ∉ l.map Prod.fst := by
    intro hm
    obtain ⟨⟨k, b⟩, hb, rfl⟩ := List.mem_map.1 hm
    exact h b hb
  simp [emplace, this, h]

theorem mem_emplaceWith {α : Type} {i : Nat} {l : List (Nat × α)} (h : ∀ r, (i, r) ∉ l) (a r : α)
    (f : α → α) : (i, r) ∈ emplaceWith i a f l ↔ r = f a := by
  have : i ∉ l.map Prod.fst := by
    intro hm
    obtain ⟨⟨k, b⟩, hb, rfl⟩ := List.mem_map.1 hm
    exact h b hb
  simp [emplaceWith, this, h]

/-- Two loops of a file state the same about a variable. -/
def Same (j : Nat) (l l' : LoopJ) : Prop :=
  (j ∈ l'.priv ↔ j ∈ l.priv) ∧ (j ∈ l'.useAfter ↔ j ∈ l.useAfter) ∧
  (j ∈ l'.write ↔ j ∈ l.write) ∧ (j ∈ l'.read ↔ j ∈ l.read) ∧
  (j ∈ l'.output ↔ j ∈ l.output) ∧ (∀ k, (j, k) ∈ l'.reduction ↔ (j, k) ∈ l.reduction) ∧
  (∀ r, (j, r) ∈ l'.anti ↔ (j, r) ∈ l.anti) ∧ (∀ r, (j, r) ∈ l'.flow ↔ (j, r) ∈ l.flow)

theorem Same.refl (j : Nat) (l : LoopJ) : Same j l l :=
  ⟨Iff.rfl, Iff.rfl, Iff.rfl, Iff.rfl, Iff.rfl, fun _ => Iff.rfl, fun _ => Iff.rfl, fun _ => Iff.rfl⟩

theorem Same.trans {j : Nat} {a b c : LoopJ} (h : Same j a b) (g : Same j b c) : Same j a c := by
  obtain ⟨h1, h2, h3, h4, h5, h6, h7, h8⟩ := h
  obtain ⟨g1, g2, g3, g4, g5, g6, g7, g8⟩ := g
  exact ⟨g1.trans h1, g2.trans h2, g3.trans h3, g4.trans h4, g5.trans h5,
    fun k => (g6 k).trans (h6 k), fun k => (g7 k).trans (h7 k), fun k => (g8 k).trans (h8 k)⟩

theorem Same.ite {j : Nat} {a b c : LoopJ} {p : Prop} [Decidable p] (h : Same j a b)
    (g : Same j a c) : Same j a (if p then b else c) := by
  split
  · exact h
  · exact g

theorem Same.write {i j : Nat} (hj : j ≠ i) (t : Traits) (l : LoopJ) :
    Same j l (writeTraits i t l) := by
  unfold writeTraits
  extract_lets l1 l2 l3 l4 l5
  have s0 : Same j l l1 := by
    apply Same.ite
    · unfold Same; simp [mem_insert, hj]
    · exact Same.refl j l
  have s1 : Same j l1 l2 := by
    unfold Same; simp [l2, mem_insert, hj]
  have s2 : Same j l2 l3 := by
    apply Same.ite
    · unfold Same; simp
    · exact Same.refl j l2
  have s3 : Same j l3 l4 := by
    apply Same.ite
    · unfold Same; simp [mem_insert, hj]
    · exact Same.refl j l3
  have s4 : Same j l4 l5 := by
    apply Same.ite
    · unfold Same; simp [mem_emplaceWith_ne hj]
    · exact Same.refl j l4
  clear_value l1 l2 l3 l4 l5
  apply s0.trans
  apply Same.ite
  · exact Same.refl j l1
  apply Same.ite
  · unfold Same; simp [mem_insert, hj]
  apply s1.trans
  apply Same.ite
  · unfold Same; simp [mem_emplace_ne hj]
  apply Same.ite
  · unfold Same; simp
  apply Same.ite
  · unfold Same; simp [mem_insert, hj]
  apply Same.ite
  · unfold Same; simp [mem_insert, hj]
  apply Same.ite
  · apply s2.trans
    apply Same.ite
    · apply s3.trans
      apply s4.trans
      apply Same.ite
      · unfold Same; simp [mem_emplaceWith_ne hj]
      · exact Same.refl j l5
    · unfold Same; simp [mem_insert, mem_emplace_ne hj, hj]
  · exact Same.refl j l2

/-- Export of a variable does not affect other variables. -/
theorem At.other {l : LoopJ} {i j : Nat} {e : Ext} (t : Traits) (hj : j ≠ i) (h : At l j e) :
    At (writeTraits i t l) j e := by
  obtain ⟨h1, h2, h3, h4, h5, h6, h7, h8⟩ := h
  obtain ⟨a1, a2, a3, a4, a5, a6, a7, a8⟩ := Same.write hj t l
  unfold At
  simp only [a1, a2, a3, a4, a5, a6, a7, a8]
  exact ⟨h1, h2, h3, h4, h5, h6, h7, h8⟩

/-- Alternatives of a trait which is set are not set. -/
theorem Valid.excl {t : Traits} (v : Valid t) {x : DepTrait} (h : t.dep x = true) (y : DepTrait)
    (hc : DepTrait.compatible x y = false) : t.dep y = false := by
  cases hy : t.dep y with
  | false => rfl
  | true =>
    rw [v.compat x y h hy] at hc
    cases hc

/-- Export of a variable which has not been mentioned in a loop. -/
theorem At.write {l : LoopJ} {i : Nat} {t : Traits} (h : At l i {}) (v : Valid t)
    (hn : t.dep .noAccess = false) : At (writeTraits i t l) i (exported t) := by
  obtain ⟨h1, h2, h3, h4, h5, h6, h7, h8⟩ := h
  simp only [Bool.false_eq_true, iff_false, reduceCtorEq] at h1 h2 h3 h4 h5 h6 h7 h8
  unfold At
  by_cases c1 : t.dep .readonly = true
  · have e1 := v.excl c1 .reduction (by decide)
    have e2 := v.excl c1 .priv (by decide)
    have e3 := v.excl c1 .dynamicPrivate (by decide)
    have e4 := v.excl c1 .secondToLastPrivate (by decide)
    have e5 := v.excl c1 .firstPrivate (by decide)
    have e6 := v.excl c1 .flow (by decide)
    have e7 := v.excl c1 .anti (by decide)
    have e8 := v.excl c1 .output (by decide)
    unfold writeTraits exported Traits.lone Traits.fixed Traits.privatizable
    cases t.unit .useAfterLoop <;>
      simp [hn, c1, e1, e2, e3, e4, e5, e6, e7, e8, mem_insert, h1, h2, h3, h4, h5, h6, h7, h8]
  by_cases c2 : t.dep .reduction = true
  · have e2 := v.excl c2 .priv (by decide)
    have e3 := v.excl c2 .dynamicPrivate (by decide)
    have e4 := v.excl c2 .secondToLastPrivate (by decide)
    have e5 := v.excl c2 .firstPrivate (by decide)
    have e6 := v.excl c2 .flow (by decide)
    have e7 := v.excl c2 .anti (by decide)
    have e8 := v.excl c2 .output (by decide)
    unfold writeTraits exported Traits.lone Traits.fixed Traits.privatizable
    cases t.unit .useAfterLoop <;>
      simp [hn, c1, c2, e2, e3, e4, e5, e6, e7, e8, mem_insert, h1, h2, h3, h4, h5, h7, h8,
        mem_emplace h6, eq_comm]
  by_cases c3 : t.dep .induction = true
  · have e2 := v.excl c3 .priv (by decide)
    have e3 := v.excl c3 .dynamicPrivate (by decide)
    have e4 := v.excl c3 .secondToLastPrivate (by decide)
    have e5 := v.excl c3 .firstPrivate (by decide)
    have e6 := v.excl c3 .flow (by decide)
    have e7 := v.excl c3 .anti (by decide)
    have e8 := v.excl c3 .output (by decide)
    unfold writeTraits exported Traits.lone Traits.fixed Traits.privatizable
    cases t.unit .useAfterLoop <;>
      simp [hn, c1, c2, c3, e2, e3, e4, e5, e6, e7, e8, mem_insert, h1, h2, h3, h4, h5, h6, h7, h8]
  by_cases c4 : t.privatizable = true
  · have e6 : t.dep .flow = false ∧ t.dep .anti = false ∧ t.dep .output = false := by
      simp only [Traits.privatizable, Bool.or_eq_true] at c4
      rcases c4 with ((c | c) | c) | c <;>
        exact ⟨v.excl c _ (by decide), v.excl c _ (by decide), v.excl c _ (by decide)⟩
    obtain ⟨e6, e7, e8⟩ := e6
    have c5 : (t.dep .priv || t.dep .dynamicPrivate || t.dep .secondToLastPrivate) = true ∨
        ((t.dep .priv || t.dep .dynamicPrivate || t.dep .secondToLastPrivate) = false ∧
          t.dep .firstPrivate = true) := by
      unfold Traits.privatizable at c4
      revert c4
      cases (t.dep .priv || t.dep .dynamicPrivate || t.dep .secondToLastPrivate) <;>
        cases t.dep .firstPrivate <;> simp
    unfold writeTraits exported Traits.lone
    rcases c5 with c5 | ⟨c5, c6⟩
    · cases t.unit .useAfterLoop <;>
        simp only [hn, c1, c2, c3, c4, c5, e6, e7, e8] <;>
        simp [mem_insert, h1, h2, h3, h4, h5, h6, h7, h8]
    · cases t.unit .useAfterLoop <;>
        simp only [hn, c1, c2, c3, c4, c5, c6, e6, e7, e8] <;>
        simp [mem_insert, h1, h2, h3, h4, h5, h6, h7, h8]
  · have c5 : t.dep .priv = false ∧ t.dep .dynamicPrivate = false ∧
        t.dep .secondToLastPrivate = false ∧ t.dep .firstPrivate = false := by
      simp only [Traits.privatizable, Bool.not_eq_true, Bool.or_eq_false_iff] at c4
      tauto
    obtain ⟨d1, d2, d3, d4⟩ := c5
    simp only [Bool.not_eq_true] at c1 c2 c3 c4
    by_cases c6 : t.dep .shared = true
    · have e6 := v.excl c6 .flow (by decide)
      have e7 := v.excl c6 .anti (by decide)
      have e8 := v.excl c6 .output (by decide)
      unfold writeTraits exported Traits.lone Traits.fixed
      cases t.unit .useAfterLoop <;>
        simp [hn, c1, c2, c3, c4, c6, d1, d2, d3, d4, e6, e7, e8, mem_insert, h1, h2, h3, h4, h5, h6,
          h7, h8]
    · unfold writeTraits exported Traits.lone Traits.fixed
      simp only [Bool.not_eq_true] at c6
      cases t.unit .useAfterLoop <;> cases k1 : t.dep .flow <;> cases k2 : t.dep .anti <;>
        cases k3 : t.dep .output <;>
        simp [hn, c1, c2, c3, c4, c6, d1, d2, d3, d4, mem_insert, h1, h2, h3, h4, h5, h6, h7, h8,
          mem_emplace h7, mem_emplace h8, mem_emplaceWith h7, mem_emplaceWith h8, eq_comm]

/-! ### A loop -/

/-- Variables a loop of a file mentions. -/
def keys (pool : List (Memory × Traits)) : List VarLoc :=
  pool.filterMap (fun m => if m.2.dep .noAccess then none else
    match m.1 with
    | .estimate v => v
    | _ => none)

/-- A path of a variable is a path to its file, and a name is not empty. -/
def Good (uid : String → Option Nat) (path : VarLoc → String) (v : VarLoc) : Prop :=
  v.name ≠ "" ∧ uid (path v) = some v.file

/-- The description of a variable in a file. -/
def toVar (path : VarLoc → String) (v : VarLoc) : VarJ := ⟨path v, v.line, v.column, v.name⟩

/-- Indices of variables are positions of their descriptions. -/
structure Inv (uid : String → Option Nat) (path : VarLoc → String) (s : WSt) : Prop where
  fwd : ∀ v i, s.index v = some i → s.vars[i]? = some (toVar path v) ∧ Good uid path v
  bwd : ∀ i, i < s.vars.length → ∃ v, s.index v = some i

section
variable {uid : String → Option Nat} {path : VarLoc → String}

theorem toVar_inj {v w : VarLoc} (hv : Good uid path v) (hw : Good uid path w)
    (h : toVar path v = toVar path w) : v = w := by
  simp only [toVar, VarJ.mk.injEq] at h
  have := hv.2
  rw [h.1, hw.2] at this
  injection this with this
  cases v
  cases w
  simp_all

theorem Inv.inj {s : WSt} (h : Inv uid path s) {v w : VarLoc} {i : Nat} (hv : s.index v = some i)
    (hw : s.index w = some i) : v = w := by
  obtain ⟨h1, h2⟩ := h.fwd v i hv
  obtain ⟨h3, h4⟩ := h.fwd w i hw
  rw [h1] at h3
  injection h3 with h3
  exact toVar_inj h2 h4 h3

theorem Inv.lt {s : WSt} (h : Inv uid path s) {v : VarLoc} {i : Nat} (hv : s.index v = some i) :
    i < s.vars.length := by
  by_contra hc
  have := (h.fwd v i hv).1
  rw [List.getElem?_eq_none (by omega)] at this
  cases this

/-- A state of export is extended. -/
def Ext' (s s' : WSt) : Prop :=
  (∀ v i, s.index v = some i → s'.index v = some i) ∧ ∃ r, s'.vars = s.vars ++ r

theorem Ext'.refl (s : WSt) : Ext' s s := ⟨fun _ _ h => h, [], by simp⟩

theorem Ext'.trans {a b c : WSt} (h : Ext' a b) (g : Ext' b c) : Ext' a c := by
  obtain ⟨h1, r1, h2⟩ := h
  obtain ⟨g1, r2, g2⟩ := g
  exact ⟨fun v i h => g1 v i (h1 v i h), r1 ++ r2, by rw [g2, h2, List.append_assoc]⟩

/-- A new variable. -/
theorem Inv.add {s : WSt} (h : Inv uid path s) {v : VarLoc} (hv : Good uid path v)
    (hn : s.index v = none) :
    Inv uid path ⟨fun x => if x = v then some s.vars.length else s.index x,
      s.vars ++ [⟨path v, v.line, v.column, v.name⟩]⟩ := by
  constructor
  · intro w i hw
    simp only at hw ⊢
    by_cases hwv : w = v
    · subst hwv
      simp only [if_true, Option.some.injEq] at hw
      subst hw
      refine ⟨?_, hv⟩
      simp [toVar]
    · simp only [hwv, if_false] at hw
      have := h.lt hw
      refine ⟨?_, (h.fwd w i hw).2⟩
      rw [List.getElem?_append_left this]
      exact (h.fwd w i hw).1
  · intro i hi
    simp only [List.length_append, List.length_cons, List.length_nil] at hi
    by_cases hc : i < s.vars.length
    · obtain ⟨w, hw⟩ := h.bwd i hc
      refine ⟨w, ?_⟩
      simp only
      by_cases hwv : w = v
      · subst hwv
        rw [hn] at hw
        cases hw
      · simp [hwv, hw]
    · refine ⟨v, ?_⟩
      simp only [if_true, Option.some.injEq]
      omega

/-- Export of locations of a loop. -/
theorem write_fold (pool : List (Memory × Traits)) (s : WSt) (l : LoopJ) (hs : Inv uid path s)
    (hg : ∀ v ∈ keys pool, Good uid path v) (hd : (keys pool).Nodup)
    (hv : ∀ x ∈ pool, Valid x.2)
    (h1 : ∀ v ∈ keys pool, ∀ i, s.index v = some i → At l i {})
    (h2 : ∀ i, s.vars.length ≤ i → At l i {}) :
    let r := pool.foldl (writeMemory path) (s, l)
    Inv uid path r.1 ∧ Ext' s r.1 ∧
      (∀ v t, (Memory.estimate (some v), t) ∈ pool → t.dep .noAccess = false →
        ∃ i, r.1.index v = some i ∧ At r.2 i (exported t)) ∧
      (∀ v, v ∉ keys pool → r.1.index v = s.index v) ∧
      (∀ v, v ∉ keys pool → ∀ i e, s.index v = some i → At l i e → At r.2 i e) ∧
      (∀ i, r.1.vars.length ≤ i → At r.2 i {}) ∧
      (r.2.file, r.2.line, r.2.column) = (l.file, l.line, l.column) := by
  induction pool generalizing s l with
  | nil =>
    refine ⟨hs, Ext'.refl s, ?_, fun _ _ => rfl, fun _ _ _ _ _ h => h, h2, rfl⟩
    intro v t h
    simp at h
  | cons a pool ih =>
    obtain ⟨m, t⟩ := a
    simp only [List.foldl_cons]
    -- the location is skipped
    have skip : keys ((m, t) :: pool) = keys pool → writeMemory path (s, l) (m, t) = (s, l) →
        (∀ v, m = .estimate (some v) → t.dep .noAccess = true) →
        let r := pool.foldl (writeMemory path) (writeMemory path (s, l) (m, t))
        Inv uid path r.1 ∧ Ext' s r.1 ∧
          (∀ v t', (Memory.estimate (some v), t') ∈ (m, t) :: pool → t'.dep .noAccess = false →
            ∃ i, r.1.index v = some i ∧ At r.2 i (exported t')) ∧
          (∀ v, v ∉ keys ((m, t) :: pool) → r.1.index v = s.index v) ∧
          (∀ v, v ∉ keys ((m, t) :: pool) → ∀ i e, s.index v = some i → At l i e → At r.2 i e) ∧
          (∀ i, r.1.vars.length ≤ i → At r.2 i {}) ∧
          (r.2.file, r.2.line, r.2.column) = (l.file, l.line, l.column) := by
      intro hk hw hm
      rw [hk] at hg hd h1
      rw [hk, hw]
      obtain ⟨a1, a2, a3, a4, a5, a6, a7⟩ := ih s l hs hg hd (fun x hx => hv x (by simp [hx])) h1 h2
      refine ⟨a1, a2, ?_, a4, a5, a6, a7⟩
      intro v t' hmem hna
      rcases List.mem_cons.1 hmem with he | hmem
      · simp only [Prod.mk.injEq] at he
        rw [he.2, hm v he.1.symm] at hna
        cases hna
      · exact a3 v t' hmem hna
    cases hna : t.dep .noAccess with
    | true =>
      exact skip (by simp [keys, hna]) (by simp [writeMemory, hna]) (fun _ _ => hna)
    | false =>
    cases m with
    | unknown =>
      exact skip (by simp [keys]) (by simp [writeMemory]) (fun _ h => by cases h)
    | exec c =>
      exact skip (by simp [keys]) (by simp [writeMemory]) (fun _ h => by cases h)
    | estimate o =>
    cases o with
    | none =>
      exact skip (by simp [keys]) (by simp [writeMemory]) (fun _ h => by cases h)
    | some v =>
      clear skip
      have hk : keys ((Memory.estimate (some v), t) :: pool) = v :: keys pool := by
        simp [keys, hna]
      rw [hk] at hg hd h1 ⊢
      have hvt : Valid t := hv _ (List.mem_cons_self ..)
      have hnv : v ∉ keys pool := (List.nodup_cons.1 hd).1
      -- the state after the first location
      have step : ∃ s1 i, writeMemory path (s, l) (Memory.estimate (some v), t) =
          (s1, writeTraits i t l) ∧ Inv uid path s1 ∧ Ext' s s1 ∧ s1.index v = some i ∧
          At l i {} ∧ (∀ w, w ≠ v → s1.index w = s.index w) ∧
          (∀ j, s1.vars.length ≤ j → s.vars.length ≤ j) := by
        cases hi : s.index v with
        | some i =>
          exact ⟨s, i, by simp [writeMemory, hna, hi], hs, Ext'.refl s, hi,
            h1 v (by simp) i hi, fun _ _ => rfl, fun _ h => h⟩
        | none =>
          refine ⟨_, s.vars.length, by simp only [writeMemory, hna, hi, Bool.false_eq_true, if_false],
            hs.add (hg v (by simp)) hi, ?_, by simp, h2 _ (Nat.le_refl _), ?_, ?_⟩
          · refine ⟨?_, _, rfl⟩
            intro w j hw
            have : w ≠ v := by
              rintro rfl
              rw [hi] at hw
              cases hw
            simp [this, hw]
          · intro w hw
            simp [hw]
          · intro j hj
            simp only [List.length_append, List.length_cons, List.length_nil] at hj
            omega
      obtain ⟨s1, i, hw, hs1, hx, hi, hat, hoth, hlen⟩ := step
      rw [hw]
      have hwi : ∀ w, w ≠ v → ∀ j, s1.index w = some j → j ≠ i := by
        rintro w hwv j hj rfl
        exact hwv (hs1.inj hj hi)
      have hil := hs1.lt hi
      obtain ⟨a1, a2, a3, a4, a5, a6, a7⟩ := ih s1 (writeTraits i t l) hs1
        (fun w hw => hg w (by simp [hw])) (List.nodup_cons.1 hd).2
        (fun x hx => hv x (by simp [hx]))
        (by
          intro w hwk j hj
          have hwv : w ≠ v := by
            rintro rfl
            exact hnv hwk
          refine At.other t (hwi w hwv j hj) ?_
          rw [hoth w hwv] at hj
          exact h1 w (by simp [hwk]) j hj)
        (by
          intro j hj
          exact At.other t (by omega) (h2 j (hlen j hj)))
      refine ⟨a1, hx.trans a2, ?_, ?_, ?_, a6, ?_⟩
      · intro w t' hmem hn
        rcases List.mem_cons.1 hmem with he | hmem
        · simp only [Prod.mk.injEq, Memory.estimate.injEq, Option.some.injEq] at he
          obtain ⟨rfl, rfl⟩ := he
          refine ⟨i, ?_, ?_⟩
          · rw [a4 w hnv]; exact hi
          · exact a5 w hnv i _ hi (At.write hat hvt hna)
        · exact a3 w t' hmem hn
      · intro w hw
        simp only [List.mem_cons, not_or] at hw
        rw [a4 w hw.2, hoth w hw.1]
      · intro w hw j e hj hat'
        simp only [List.mem_cons, not_or] at hw
        have hj1 : s1.index w = some j := by rw [hoth w hw.1]; exact hj
        exact a5 w hw.2 j e hj1 (At.other t (hwi w hw.1 j hj1) hat')
      · rw [a7]
        unfold writeTraits
        extract_lets l1 l2 l3 l4 l5
        have b1 : (l1.file, l1.line, l1.column) = (l.file, l.line, l.column) := by
          simp only [l1]; split <;> rfl
        have b2 : (l2.file, l2.line, l2.column) = (l.file, l.line, l.column) := b1
        have b3 : (l3.file, l3.line, l3.column) = (l.file, l.line, l.column) := by
          rw [← b2]; simp only [l3]; split <;> rfl
        have b4 : (l4.file, l4.line, l4.column) = (l.file, l.line, l.column) := by
          rw [← b3]; simp only [l4]; split <;> rfl
        have b5 : (l5.file, l5.line, l5.column) = (l.file, l.line, l.column) := by
          rw [← b4]; simp only [l5]; split <;> rfl
        clear_value l1 l2 l3 l4 l5
        split_ifs <;> assumption

/-! ### A file -/

/-- A loop which is written. -/
theorem writeLoop_spec (pool : List (Memory × Traits)) (s : WSt) (loc : SrcLoc)
    (hs : Inv uid path s) (hg : ∀ v ∈ keys pool, Good uid path v) (hd : (keys pool).Nodup)
    (hv : ∀ x ∈ pool, Valid x.2) :
    let r := writeLoop path s loc pool
    Inv uid path r.1 ∧ Ext' s r.1 ∧
      (∀ v t, (Memory.estimate (some v), t) ∈ pool → t.dep .noAccess = false →
        ∃ i, r.1.index v = some i ∧ At r.2 i (exported t)) ∧
      (∀ i, (∀ v ∈ keys pool, r.1.index v ≠ some i) → At r.2 i {}) ∧
      (r.2.file, r.2.line, r.2.column) = loc := by
  have h0 : ∀ i, At { file := loc.1, line := loc.2.1, column := loc.2.2 } i {} := by
    intro i
    simp [At]
  obtain ⟨a1, a2, a3, a4, a5, a6, a7⟩ := write_fold pool s
    { file := loc.1, line := loc.2.1, column := loc.2.2 } hs hg hd hv (fun _ _ i _ => h0 i)
    (fun i _ => h0 i)
  refine ⟨a1, a2, a3, ?_, a7⟩
  intro i hi
  by_cases hc : i < (writeLoop path s loc pool).1.vars.length
  · obtain ⟨v, hv⟩ := a1.bwd i hc
    have hnk : v ∉ keys pool := fun hk => hi v hk hv
    have := a4 v hnk
    exact a5 v hnk i {} (this ▸ hv) (h0 i)
  · exact a6 i (by unfold writeLoop at hc; omega)

/-- Loops which are written. -/
theorem writeLoops_spec (ls : List (SrcLoc × List (Memory × Traits))) (s : WSt)
    (hs : Inv uid path s) (hg : ∀ x ∈ ls, ∀ v ∈ keys x.2, Good uid path v)
    (hd : ∀ x ∈ ls, (keys x.2).Nodup) (hv : ∀ x ∈ ls, ∀ y ∈ x.2, Valid y.2) :
    let r := writeLoops path ls s
    Inv uid path r.1 ∧ Ext' s r.1 ∧
      List.Forall₂ (fun x l => (l.file, l.line, l.column) = x.1 ∧
        (∀ v t, (Memory.estimate (some v), t) ∈ x.2 → t.dep .noAccess = false →
          ∃ i, r.1.index v = some i ∧ At l i (exported t)) ∧
        (∀ i, (∀ v ∈ keys x.2, r.1.index v ≠ some i) → At l i {})) ls r.2 := by
  induction ls generalizing s with
  | nil => exact ⟨hs, Ext'.refl s, .nil⟩
  | cons x ls ih =>
    obtain ⟨loc, pool⟩ := x
    obtain ⟨a1, a2, a3, a4, a5⟩ := writeLoop_spec pool s loc hs (hg _ (List.mem_cons_self ..))
      (hd _ (List.mem_cons_self ..)) (hv _ (List.mem_cons_self ..))
    obtain ⟨b1, b2, b3⟩ := ih (writeLoop path s loc pool).1 a1
      (fun x hx => hg x (List.mem_cons_of_mem _ hx)) (fun x hx => hd x (List.mem_cons_of_mem _ hx))
      (fun x hx => hv x (List.mem_cons_of_mem _ hx))
    refine ⟨b1, a2.trans b2, .cons ⟨a5, ?_, ?_⟩ b3⟩
    · intro v t hm hn
      obtain ⟨i, h1, h2⟩ := a3 v t hm hn
      exact ⟨i, b2.1 v i h1, h2⟩
    · intro i hi
      refine a4 i ?_
      intro v hv hc
      exact hi v hv (b2.1 v i hc)

/-- An index denotes a variable in a file which is written. -/
theorem Inv.denotes {s : WSt} (h : Inv uid path s) {info : Info} (hi : info.vars = s.vars) (i : Nat)
    (v : VarLoc) : Denotes uid info i v ↔ s.index v = some i := by
  constructor
  · rintro ⟨x, h1, h2, h3, h4, h5, h6⟩
    rw [hi] at h1
    have hlt : i < s.vars.length := by
      by_contra hc
      rw [List.getElem?_eq_none (by omega)] at h1
      cases h1
    obtain ⟨w, hw⟩ := h.bwd i hlt
    obtain ⟨h7, h8⟩ := h.fwd w i hw
    rw [h1] at h7
    injection h7 with h7
    subst h7
    simp only [toVar] at h2 h3 h4 h5 h6
    rw [h8.2] at h3
    injection h3 with h3
    have : v = w := by
      cases v
      cases w
      simp_all
    rw [this]
    exact hw
  · intro hv
    obtain ⟨h1, h2⟩ := h.fwd v i hv
    exact ⟨toVar path v, by rw [hi]; exact h1, h2.1, h2.2, rfl, rfl, rfl⟩

theorem At.nil_iff {l : LoopJ} {i : Nat} (h : At l i {}) : i ∉ l.indices := by
  obtain ⟨h1, h2, h3, h4, h5, h6, h7, h8⟩ := h
  simp only [Bool.false_eq_true, iff_false, reduceCtorEq] at h1 h2 h3 h4 h5 h6 h7 h8
  simp only [LoopJ.indices, List.mem_append, List.mem_map, Prod.exists, exists_and_right,
    exists_eq_right]
  rintro (((((((⟨x, h⟩ | h) | h) | h) | h) | h) | ⟨x, y, h⟩) | ⟨x, y, h⟩)
  · exact h6 x h
  · exact h1 h
  · exact h2 h
  · exact h3 h
  · exact h4 h
  · exact h5 h
  · exact h7 (x, y) h
  · exact h8 (x, y) h

theorem bool_eq {p q : Bool} (h : p = true ↔ q = true) : p = q := by
  cases p <;> cases q <;> simp_all

/-- **C130.** A file which is written contains a loop for each loop of the program, at the same
position and in the same order, and for each variable of the loop it states exactly what the analyzer
knows about it. What is read from the file for a variable is what has been written for it, and nothing
is read for other variables. -/
theorem export_exact_partial (fs : List FuncJ) (ls : List (SrcLoc × List (Memory × Traits)))
    (hg : ∀ x ∈ ls, ∀ v ∈ keys x.2, Good uid path v)
    (hd : ∀ x ∈ ls, (keys x.2).Nodup) (hv : ∀ x ∈ ls, ∀ y ∈ x.2, Valid y.2) :
    List.Forall₂ (fun x l => (l.file, l.line, l.column) = x.1 ∧
      ∃ c, buildTraitCache uid (write path fs ls) l = some c ∧
        (∀ v t, (Memory.estimate (some v), t) ∈ x.2 → t.dep .noAccess = false →
          c v = some (exported t)) ∧
        (∀ v, v ∉ keys x.2 → c v = none)) ls (write path fs ls).loops := by
  have h0 : Inv uid path {} := by
    constructor
    · intro v i h
      cases h
    · intro i h
      simp at h
  obtain ⟨a1, _, a3⟩ := writeLoops_spec ls {} h0 hg hd hv
  have hvars : (write path fs ls).vars = (writeLoops path ls {}).1.vars := rfl
  have hden := fun i v => a1.denotes (info := write path fs ls) hvars i v
  have hl : (write path fs ls).loops = (writeLoops path ls {}).2 := rfl
  rw [hl]
  refine a3.imp ?_
  rintro x l ⟨h1, h2, h3⟩
  refine ⟨h1, ?_⟩
  have hc : ∃ c, buildTraitCache uid (write path fs ls) l = some c := by
    cases hc : buildTraitCache uid (write path fs ls) l with
    | some c => exact ⟨c, rfl⟩
    | none =>
      obtain ⟨i, h4, h5⟩ := buildTraitCache_none.1 hc
      exfalso
      refine At.nil_iff (h3 i ?_) h4
      intro v _ hi
      have := a1.lt hi
      rw [hvars] at h5
      omega
  obtain ⟨c, hc⟩ := hc
  refine ⟨c, hc, ?_, ?_⟩
  · intro v t hm hn
    obtain ⟨i, h4, h5⟩ := h2 v t hm hn
    obtain ⟨h6, h7⟩ := traits_exact hc v
    obtain ⟨e1, e2, e3, e4, e5, e6, e7, e8⟩ := h5
    have only : ∀ j, Denotes uid (write path fs ls) j v ↔ j = i := by
      intro j
      rw [hden, h4, Option.some.injEq, eq_comm]
    cases hx : c v with
    | none =>
      exfalso
      refine h6.1 hx i ?_ ((only i).2 rfl)
      simp only [LoopJ.indices, List.mem_append]
      have : i ∈ l.read := e4.2 rfl
      tauto
    | some e =>
      obtain ⟨f1, f2, f3, f4, f5, f6, f7, f8, f9, f10, f11⟩ := h7 e hx
      congr 1
      simp only [only, exists_eq_right] at f1 f2 f3 f4 f5
      rw [e1] at f1
      rw [e2] at f2
      rw [e3] at f3
      rw [e4] at f4
      rw [e5] at f5
      have gen : ∀ {α : Type} {L : List (Nat × α)} {x y : Option α},
          (x = none ↔ ∀ p ∈ L, ¬ Denotes uid (write path fs ls) p.1 v) →
          (∀ k, x = some k → ∃ i, (i, k) ∈ L ∧ Denotes uid (write path fs ls) i v) →
          (∀ k, (i, k) ∈ L ↔ y = some k) → x = y := by
        intro α L x y g1 g2 g3
        cases x with
        | some k =>
          obtain ⟨j, g4, g5⟩ := g2 k rfl
          rw [only] at g5
          subst g5
          exact ((g3 k).1 g4).symm
        | none =>
          cases y with
          | none => rfl
          | some k => exact absurd ((only i).2 rfl) (g1.1 rfl _ ((g3 k).2 rfl))
      have r1 := gen f6 f7 e6
      have r2 := gen f8 f9 e7
      have r3 := gen f10 f11 e8
      cases e
      simp only at f1 f2 f3 f4 f5 r1 r2 r3
      rw [r1, r2, r3, bool_eq f1, bool_eq f2, bool_eq f3, bool_eq f4, bool_eq f5]
  · intro v hnk
    obtain ⟨h6, _⟩ := traits_exact hc v
    refine h6.2 ?_
    intro i hi hdn
    rw [hden] at hdn
    refine At.nil_iff (h3 i ?_) hi
    intro w hw hwi
    exact hnk (a1.inj hwi hdn ▸ hw)

end

/-! ### Export and import -/

/-- Traits of a variable which is not privatizable, and their update. -/
theorem roundtrip_dep {t t' : Traits} (v : Valid t) (hf : t.fixed = false)
    (hp : t.privatizable = false) (h : update (exported t) t = some t') :
    t'.dep = t.dep ∧ t'.unit = t.unit := by
  obtain ⟨f1, f2, f3, f4⟩ := not_fixed hf
  have hp' : t.dep .priv = false ∧ t.dep .dynamicPrivate = false ∧
      t.dep .secondToLastPrivate = false ∧ t.dep .firstPrivate = false := by
    simp only [Traits.privatizable, Bool.or_eq_false_iff] at hp
    tauto
  have eu : (exported t).useAfter = t.unit .useAfterLoop := rfl
  have ep : (exported t).priv = false := hp
  have er : (exported t).reduction = none := by simp [exported, f3]
  have ew : (exported t).write = true := by simp [exported, f2]
  -- the last step
  have last : ∀ t1 : Traits, t1.dep = t.dep → t1.unit = t.unit →
      (fin (exported t) t1).dep = t.dep ∧ (fin (exported t) t1).unit = t.unit := by
    intro t1 h1 h2
    unfold fin
    rw [eu]
    split
    · next hu =>
      refine ⟨h1, ?_⟩
      funext x
      simp only [Traits.unsetUnit, h2]
      by_cases hx : x = .useAfterLoop
      · subst hx; simp [hu]
      · simp [hx]
    · exact ⟨h1, h2⟩
  have fall : ∀ t1, Step (exported t) t t1 → t1.dep = t.dep → t1.unit = t.unit →
      t'.dep = t.dep ∧ t'.unit = t.unit := by
    intro t1 hs h1 h2
    rw [step_update hf hs] at h
    injection h with h
    rw [← h]
    exact last t1 h1 h2
  by_cases hsh : t.dep .shared = true
  · have hnd : (exported t).noDeps = true := by
      simp [Ext.noDeps, exported, f3, hp, v.excl hsh .flow (by decide),
        v.excl hsh .anti (by decide), v.excl hsh .output (by decide), Traits.lone, hsh]
    refine fall _ (Step.shared hnd ew) ?_ ?_
    · rw [v.set_self hsh]
    · rfl
  · simp only [Bool.not_eq_true] at hsh
    have hdd : ∀ x, IsDep x → t.dep x = true → ∀ y, ¬ IsDep y → t.dep y = false := by
      rintro x hx hd y hy
      apply v.excl hd
      rcases hx with rfl | rfl | rfl <;> cases y <;> first | rfl | exact absurd (by simp [IsDep]) hy
    rcases update_step h with ⟨hc, _⟩ | ⟨_, t1, hs, _⟩
    · rw [hf] at hc; cases hc
    have hnd : (exported t).noDeps = false := by
      by_cases h1 : t.dep .flow = true
      · simp [Ext.noDeps, exported, h1]
      by_cases h2 : t.dep .anti = true
      · simp [Ext.noDeps, exported, h2]
      by_cases h3 : t.dep .output = true
      · simp [Ext.noDeps, exported, h3]
      simp [Ext.noDeps, exported, Traits.lone, hf, hp, hsh, h1, h2, h3]
    cases hs with
    | shared a _ => rw [hnd] at a; cases a
    | readonly a _ => rw [hnd] at a; cases a
    | priv a => rw [ep] at a; cases a
    | privShared a => rw [ep] at a; cases a
    | dynamic a => rw [ep] at a; cases a
    | dynamicShared a => rw [ep] at a; cases a
    | same a => rw [ep] at a; cases a
    | sameShared a => rw [ep] at a; cases a
    | first _ _ a => rw [hp'.2.2.2] at a; cases a
    | firstDrop _ _ a => rw [hp'.2.2.2] at a; cases a
    | reduction _ _ a => rw [er] at a; cases a
    | @deps t1 t2 t3 a b c d h1 h2 h3 =>
      obtain ⟨k1, k2, k3, k4, k5⟩ := deps_dep h1 h2 h3
      refine fall _ (Step.deps a b c d h1 h2 h3) ?_ k5
      by_cases hany : ∃ x, IsDep x ∧ t.dep x = true
      · obtain ⟨x, hx, hd⟩ := hany
        funext y
        by_cases hy : IsDep y
        · rcases hy with rfl | rfl | rfl
          · rw [k1]; cases ht : t.dep .flow <;> simp [exported, ht]
          · rw [k2]; cases ht : t.dep .anti <;> simp [exported, ht]
          · rw [k3]; cases ht : t.dep .output <;> simp [exported, ht]
        · rw [hdd x hx hd y hy, ← Bool.not_eq_true]
          intro hc
          have := k4 y hc
          rw [hdd x hx hd y hy] at this
          cases this
      · have n1 : t.dep .flow = false := by
          rw [← Bool.not_eq_true]; exact fun hc => hany ⟨_, Or.inl rfl, hc⟩
        have n2 : t.dep .anti = false := by
          rw [← Bool.not_eq_true]; exact fun hc => hany ⟨_, Or.inr (Or.inl rfl), hc⟩
        have n3 : t.dep .output = false := by
          rw [← Bool.not_eq_true]; exact fun hc => hany ⟨_, Or.inr (Or.inr rfl), hc⟩
        have e1 : t1 = t := by
          rcases updateAnti_dep h1 with rfl | ⟨hd, _⟩
          · rfl
          · rw [n2] at hd; cases hd
        subst e1
        have e2 : t2 = t1 := by
          rcases updateFlow_dep h2 with rfl | ⟨hd, _⟩
          · rfl
          · rw [n1] at hd; cases hd
        subst e2
        have e3 : t3 = t2 := by
          rcases updateOutput_dep h3 with rfl | ⟨hd, _⟩
          · rfl
          · rw [n3] at hd; cases hd
        subst e3
        simp only [v.unset_self n1, ite_self, v.unset_self n2, v.unset_self n3]

/-- **C132.** Traits which are written to a file and are read for the same location. Traits of a
variable which is not privatizable are the same, and distances of flow dependences in the loop are
distances which have been written. Privatizable variables which are used after the loop keep all
traits. Missing: privatizable variables which are not used after the loop, distances of anti
dependences, see `roundtrip_first_fails`, `roundtrip_private_fails` and `export_anti_fails`. -/
theorem roundtrip_partial {t t' : Traits} (v : Valid t) (hf : t.fixed = false)
    (h : update (exported t) t = some t') :
    (t.privatizable = false → t'.dep = t.dep ∧ t'.unit = t.unit ∧
      (∀ d, t.flow = some d → ∃ d', t'.flow = some d' ∧
        d'.dist = storeRange (some d) (none, none) :: d.dist.drop 1) ∧
      (∀ d, t.output = some d → ∃ d', t'.output = some d' ∧ d'.dist = d.dist)) ∧
    (t.privatizable = true → t.unit .useAfterLoop = true → t'.unit = t.unit ∧
      ∀ x, x ≠ .shared → t'.dep x = t.dep x) := by
  obtain ⟨f1, f2, f3, f4⟩ := not_fixed hf
  constructor
  · intro hp
    obtain ⟨h1, h2⟩ := roundtrip_dep v hf hp h
    have hfp : t.dep .firstPrivate = false := by
      simp only [Traits.privatizable, Bool.or_eq_false_iff] at hp
      tauto
    obtain ⟨d1, _, d3⟩ := import_distance_partial h hf hp hfp (by simp [exported, f3])
    have hfl : ∀ d, t.flow = some d → t.dep .flow = true := by
      intro d hd
      cases hc : t.dep .flow with
      | true => rfl
      | false =>
        have := congrArg Traits.flow v.clean
        simp [Traits.clean, hc, hd] at this
    have hou : ∀ d, t.output = some d → t.dep .output = true := by
      intro d hd
      cases hc : t.dep .output with
      | true => rfl
      | false =>
        have := congrArg Traits.output v.clean
        simp [Traits.clean, hc, hd] at this
    refine ⟨h1, h2, ?_, ?_⟩
    · intro d hd
      obtain ⟨d', e1, e2, _⟩ := d1 (storeRange (some d) (none, none)) d
        (by simp [exported, hfl d hd, hd]) (hfl d hd) hd
      exact ⟨d', e1, e2⟩
    · intro d hd
      exact d3 d (by simp [exported, hou d hd]) (hou d hd) hd
  · intro hp hu
    have ep : (exported t).priv = true := hp
    have eu : (exported t).useAfter = true := hu
    have hd : t.dep .flow = false ∧ t.dep .anti = false ∧ t.dep .output = false := by
      simp only [Traits.privatizable, Bool.or_eq_true] at hp
      rcases hp with ((c | c) | c) | c <;>
        exact ⟨v.excl c _ (by decide), v.excl c _ (by decide), v.excl c _ (by decide)⟩
    have hl : t.lone = false := by simp [Traits.lone, hp]
    have hs : Step (exported t) t (t.set .shared) :=
      Step.sameShared ep eu hd.1 hd.2.1 hd.2.2 (by simp [exported, hd.1, hl])
        (by simp [exported, hd.2.1, hl]) (by simp [exported, hd.2.2, hl])
    rw [step_update hf hs] at h
    injection h with h
    have ht : t' = t.set .shared := by
      rw [← h]
      unfold fin
      simp [eu]
    rw [ht]
    refine ⟨rfl, ?_⟩
    intro x hx
    rw [set_dep]
    cases hc : t.dep x with
    | false => simp [hx]
    | true =>
      simp only [Traits.privatizable, Bool.or_eq_true] at hp
      simp only [hx, decide_false, Bool.false_or, Bool.true_and]
      rcases hp with ((c | c) | c) | c <;> have := v.compat _ _ c hc <;> revert this hx <;>
        cases x <;> decide

/-- A description of traits with given alternatives. -/
def example1 (deps : List DepTrait) (units : List UnitTrait) : Traits :=
  { unit := fun u => decide (u ∈ units)
    dep := fun d => decide (d ∈ deps) }

/-- A first private variable which is not used after the loop is not a first private variable after
export and import: it becomes a private one. -/
theorem roundtrip_first_fails : ∃ t t', Valid t ∧ t.fixed = false ∧
    update (exported t) t = some t' ∧ t.dep .firstPrivate = true ∧ t'.dep .firstPrivate = false ∧
    t'.dep .priv = true := by
  refine ⟨example1 [.firstPrivate] [], _, ⟨by rfl, ?_⟩, by decide, rfl, by decide, by decide, by decide⟩
  intro x y
  cases x <;> cases y <;> decide

/-- A private variable which is not used after the loop becomes a shared one: dependences caused by it
disappear. -/
theorem roundtrip_private_fails : ∃ t t', Valid t ∧ t.fixed = false ∧
    update (exported t) t = some t' ∧ t.dep .priv = true ∧ t.dep .shared = false ∧
    t'.dep .shared = true := by
  refine ⟨example1 [.priv] [], _, ⟨by rfl, ?_⟩, by decide, rfl, by decide, by decide, by decide⟩
  intro x y
  cases x <;> cases y <;> decide

/-- The distance of an anti dependence is not written if there is no flow dependence. -/
theorem export_anti_fails : ∃ (t : Traits) (d : Dep), Valid t ∧ t.anti = some d ∧
    d.dist = [(some 1, some 1)] ∧ (exported t).anti = some (none, none) := by
  refine ⟨{ example1 [.anti] [] with anti := some (mkDep {} [(some 1, some 1)]) }, _,
    ⟨by rfl, ?_⟩, rfl, rfl, by rfl⟩
  intro x y
  cases x <;> cases y <;> decide

/-- A distance which does not fit 32 bits is written with a wrong value. -/
theorem export_distance_fails : ∃ (t : Traits) (d : Dep), Valid t ∧ t.flow = some d ∧
    d.dist = [(some (2 ^ 32), some (2 ^ 32 + 1))] ∧ (exported t).flow = some (some 0, some 1) := by
  refine ⟨{ example1 [.flow] [] with
    flow := some (mkDep {} [(some (2 ^ 32), some (2 ^ 32 + 1))]) }, _,
    ⟨by rfl, ?_⟩, rfl, rfl, by decide⟩
  intro x y
  cases x <;> cases y <;> decide

/-- A distance which fits 32 bits is written as is. -/
theorem toFile_exact {n : Int} (h : -(2 ^ 31) ≤ n ∧ n < 2 ^ 31) (old : Option Int) :
    toFile (some n) old = some n := by
  have h1 : -(2 ^ 63) ≤ n ∧ n < 2 ^ 63 := by omega
  simp only [toFile, h1, and_self, if_true, Option.some.injEq]
  rw [Int.bmod_eq_of_le] <;> omega

/-- A distance of a flow dependence which fits 32 bits is written and is read. -/
theorem storeRange_exact {d : Dep} {a b : Int} {r : List Range} (h : d.dist = (some a, some b) :: r)
    (ha : -(2 ^ 31) ≤ a ∧ a < 2 ^ 31) (hb : -(2 ^ 31) ≤ b ∧ b < 2 ^ 31) :
    storeRange (some d) (none, none) :: d.dist.drop 1 = d.dist := by
  simp only [storeRange, h, toFile_exact ha, toFile_exact hb, List.drop_succ_cons, List.drop_zero]

end Tsar.Extern
