import Verif.AstDep.Model

/-!
# Variables which are found by the source-level dependence analysis

Specification of a result of the analysis and lemmas about separate steps.
-/

set_option linter.unusedSectionVars false

namespace Tsar
namespace AstDep

open BitTrait Parallel

variable {M N V W : Type} [DecidableEq M] [DecidableEq N] [DecidableEq V] [DecidableEq W]

/-! ## Specification -/

/-- A location is a variable or it is accessed with the help of this variable. -/
def VarOf (c : Ctx M N W) (m : M) (w : W) : Prop :=
  ∃ v e s t, c.desc m = .est (some v) e s t ∧ v.ast = some w

/-- A location is the whole variable. -/
def Whole (c : Ctx M N W) (m : M) (w : W) : Prop :=
  ∃ v e s t, c.desc m = .est (some v) e s t ∧ v.ast = some w ∧
    (e = [] ∨ (s = false ∧ ∃ o z, e = [.fragment o z]))

/-- A location is accessed with the help of a global variable. -/
def IsGlobal (c : Ctx M N W) (m : M) : Prop :=
  ∃ v e s t, c.desc m = .est (some v) e s t ∧ v.loc = false

/-- It is not known whether a variable in a source code corresponds to the location. -/
def Hidden (c : Ctx M N W) (m : M) : Prop :=
  (∃ x, c.desc m = .unknown true x) ∨ (∃ e s t, c.desc m = .est none e s t) ∨
  ∃ v e s t, c.desc m = .est (some v) e s t ∧ v.ast = none ∧ v.stub = true

/-- The name of the variable is in the list. -/
def Named (c : Ctx M N W) (l : List (W × M)) (w : W) : Prop := ∃ p ∈ l, c.name p.1 = c.name w

/-- Each thread has a copy of a location from a node `n`: the variable is in the list `d` or it is declared in the
loop. -/
def Copied (c : Ctx M N W) (s : St M N V W) (d : Dest) (n : N) (m : M) : Prop :=
  Hidden c m ∨ (∃ w, VarOf c m w ∧ w ∈ s.locals) ∨
  ∃ w, Whole c m w ∧ w ∉ s.locals ∧ w ∈ s.refs.map Prod.fst ∧ Named c (s.lists d) w ∧
    (IsGlobal c m → ∃ p ∈ s.globals, p.1 = n)

/-! ## Search for a declaration -/

theorem elements_cons (o : Op) (e : List Op) : elements (o :: e) = o.raw ++ elements e := rfl

theorem fragment_only {e : List Op} (h : isFragment e = true) (hl : (elements e).length = 3) :
    ∃ o z, e = [.fragment o z] := by
  have hpos : ∀ o : Op, 1 ≤ o.raw.length := fun o => by cases o <;> simp [Op.raw]
  have hlast : ∃ l o z, e = l ++ [.fragment o z] := by
    unfold isFragment at h
    cases hg : e.getLast? with
    | none => rw [hg] at h; cases h
    | some x =>
      rw [hg] at h
      obtain ⟨l, hl'⟩ := List.getLast?_eq_some_iff.1 hg
      cases x with
      | fragment o z => exact ⟨l, o, z, hl'⟩
      | _ => cases h
  obtain ⟨l, o, z, rfl⟩ := hlast
  cases l with
  | nil => exact ⟨o, z, rfl⟩
  | cons y l =>
    simp only [elements, List.cons_append, List.flatMap_cons, List.flatMap_append, List.flatMap_nil,
      List.append_nil, List.length_append, Op.raw, List.length_cons, List.length_nil] at hl
    have := hpos y
    simp only [Op.raw] at this
    cases y <;> simp at hl <;> omega

theorem findDecl_var {c : Ctx M N W} {refs : List (W × List (Derived M))} {m : M} {w : W}
    (h : (findDecl c refs m).1 = some w) : VarOf c m w := by
  unfold findDecl at h
  cases hd : c.desc m with
  | unknown x y => rw [hd] at h; cases h
  | est cl e s t =>
    rw [hd] at h
    cases cl with
    | none => cases h
    | some v =>
      cases hv : v.ast with
      | none => simp only [hv] at h; cases h
      | some u =>
        simp only [hv] at h
        have hu : u = w := by
          split at h
          · exact Option.some.inj h
          · split at h
            · split at h <;> exact Option.some.inj h
            · exact Option.some.inj h
        subst hu
        exact ⟨v, e, s, t, hd, hv⟩

theorem lookup_mem {refs : List (W × List (Derived M))} {w : W} {ds : List (Derived M)}
    (h : refs.lookup w = some ds) : w ∈ refs.map Prod.fst := by
  induction refs with
  | nil => cases h
  | cons p refs ih =>
    rw [List.lookup_cons] at h
    split at h
    · rename_i hb
      have : w = p.1 := by simpa using hb
      simp [this]
    · exact List.mem_cons_of_mem _ (ih h)

theorem setDerived_keys (refs : List (W × List (Derived M))) (w : W) (i : Nat) (f : Derived M → Derived M) :
    (setDerived refs w i f).map Prod.fst = refs.map Prod.fst := by
  unfold setDerived
  rw [List.map_map]
  apply List.map_congr_left
  intro p _
  simp only [Function.comp]
  split
  · rename_i h; exact h.symm
  · rfl

theorem findDecl_keys (c : Ctx M N W) (refs : List (W × List (Derived M))) (m : M) :
    (findDecl c refs m).2.2.map Prod.fst = refs.map Prod.fst := by
  unfold findDecl
  split
  · rfl
  · rfl
  · split
    · rfl
    · split
      · rfl
      · split
        · split
          · exact setDerived_keys _ _ _ _
          · unfold noteDerived
            split
            · split
              · split
                · exact setDerived_keys _ _ _ _
                · rfl
              · split <;> exact setDerived_keys _ _ _ _
            · rfl
        · exact setDerived_keys _ _ _ _

theorem findDecl_coincide {c : Ctx M N W} {refs : List (W × List (Derived M))} {m : M}
    (h : (findDecl c refs m).2.1 = .coincideLocal ∨ (findDecl c refs m).2.1 = .coincideGlobal) :
    ∃ w, (findDecl c refs m).1 = some w ∧ Whole c m w ∧ w ∈ refs.map Prod.fst ∧
      ((findDecl c refs m).2.1 = .coincideLocal → ¬ IsGlobal c m) := by
  unfold findDecl at h ⊢
  cases hd : c.desc m with
  | unknown x y =>
    rw [hd] at h
    cases x <;> rcases h with h | h <;> cases h
  | est cl e s t =>
    rw [hd] at h
    cases cl with
    | none => rcases h with h | h <;> cases h
    | some v =>
      have hg : v.coincide = .coincideLocal → ¬ IsGlobal c m := by
        rintro hv ⟨v', e', s', t', hd', hl'⟩
        rw [hd] at hd'
        cases hd'
        unfold VarInfo.coincide at hv
        rw [hl'] at hv
        cases hv
      cases hv : v.ast with
      | none =>
        simp only [hv] at h
        cases hs : v.stub <;> rw [hs] at h <;> rcases h with h | h <;> cases h
      | some u =>
        simp only [hv] at h ⊢
        split at h
        · rcases h with h | h <;> cases h
        · split at h
          · split at h
            · rename_i ds hr he hw
              simp only [wholeUnsized, Bool.and_eq_true, decide_eq_true_eq, Bool.not_eq_true',
                Bool.not_eq_eq_eq_not, Bool.not_true] at hw
              rw [if_pos he, if_pos (by
                simp only [wholeUnsized, Bool.and_eq_true, decide_eq_true_eq, Bool.not_eq_eq_eq_not, Bool.not_true]
                exact hw)]
              exact ⟨u, rfl, ⟨v, e, s, t, hd, hv, Or.inr ⟨hw.2, fragment_only hw.1.1.2 hw.1.2⟩⟩,
                lookup_mem hr, hg⟩
            · rcases h with h | h <;> cases h
          · rename_i ds hr he
            rw [if_neg he]
            refine ⟨u, rfl, ⟨v, e, s, t, hd, hv, Or.inl ?_⟩, lookup_mem hr, hg⟩
            cases e with
            | nil => rfl
            | cons x e => exact (he rfl).elim

theorem coincide_ne_unknown (v : VarInfo W) : v.coincide ≠ .unknown := by
  unfold VarInfo.coincide; split <;> intro e <;> cases e

theorem findDecl_unknown {c : Ctx M N W} {refs : List (W × List (Derived M))} {m : M}
    (h : (findDecl c refs m).2.1 = .unknown) : Hidden c m := by
  unfold findDecl at h
  cases hd : c.desc m with
  | unknown x y =>
    rw [hd] at h
    cases x with
    | false => cases h
    | true => exact Or.inl ⟨y, hd⟩
  | est cl e s t =>
    rw [hd] at h
    cases cl with
    | none => exact Or.inr (Or.inl ⟨e, s, t, hd⟩)
    | some v =>
      cases hv : v.ast with
      | none =>
        simp only [hv] at h
        cases hs : v.stub with
        | false => rw [hs] at h; cases h
        | true => exact Or.inr (Or.inr ⟨v, e, s, t, hd, hv, hs⟩)
      | some u =>
        simp only [hv] at h
        split at h
        · cases h
        · split at h
          · split at h
            · exact (coincide_ne_unknown v h).elim
            · cases h
          · exact (coincide_ne_unknown v h).elim

/-! ## Growth of a result -/

/-- A result of the analysis grows: nothing is removed from it. -/
structure Le (s s' : St M N V W) : Prop where
  locals : s'.locals = s.locals
  diags : s'.diags = [] → s.diags = []
  lists : ∀ d, ∀ p ∈ s.lists d, p ∈ s'.lists d
  deps : ∀ p ∈ s.deps, p ∈ s'.deps
  globals : ∀ p ∈ s.globals, p ∈ s'.globals
  refs : s'.refs.map Prod.fst = s.refs.map Prod.fst

theorem Le.refl (s : St M N V W) : Le s s := ⟨rfl, id, fun _ _ h => h, fun _ h => h, fun _ h => h, rfl⟩

theorem Le.trans {s t u : St M N V W} (h : Le s t) (h' : Le t u) : Le s u :=
  ⟨h'.locals.trans h.locals, fun e => h.diags (h'.diags e), fun d p hp => h'.lists d p (h.lists d p hp),
    fun p hp => h'.deps p (h.deps p hp), fun p hp => h'.globals p (h.globals p hp),
    h'.refs.trans h.refs⟩

theorem Copied.mono {c : Ctx M N W} {s s' : St M N V W} {d : Dest} {n : N} {m : M} (h : Copied c s d n m)
    (hl : Le s s') : Copied c s' d n m := by
  rcases h with h | ⟨w, h1, h2⟩ | ⟨w, h1, h2, h3, ⟨p, hp, hn⟩, h4⟩
  · exact Or.inl h
  · exact Or.inr (Or.inl ⟨w, h1, by rw [hl.locals]; exact h2⟩)
  · refine Or.inr (Or.inr ⟨w, h1, by rw [hl.locals]; exact h2, by rw [hl.refs]; exact h3, ⟨p, hl.lists d p hp, hn⟩,
      fun hg => ?_⟩)
    obtain ⟨q, hq, e⟩ := h4 hg
    exact ⟨q, hl.globals q hq, e⟩

/-- Each variable in a list is there for a reason `Q`. -/
def Org (c : Ctx M N W) (Q : Dest → M → N → Prop) (s : St M N V W) : Prop :=
  ∀ d, d ≠ .loc → ∀ p ∈ s.lists d, Whole c p.2 p.1 ∧ p.1 ∉ s.locals ∧ p.1 ∈ s.refs.map Prod.fst ∧
    ∃ n, Q d p.2 n ∧ (IsGlobal c p.2 → ∃ q ∈ s.globals, q.1 = n)

theorem Org.same {c : Ctx M N W} {Q : Dest → M → N → Prop} {s s' : St M N V W} (h : Org c Q s) (hl : Le s s')
    (he : s'.lists = s.lists) : Org c Q s' := by
  intro d hd p hp
  rw [he] at hp
  obtain ⟨h1, h2, h0, n, h3, h4⟩ := h d hd p hp
  refine ⟨h1, by rw [hl.locals]; exact h2, by rw [hl.refs]; exact h0, n, h3, fun hg => ?_⟩
  obtain ⟨q, hq, e⟩ := h4 hg
  exact ⟨q, hl.globals q hq, e⟩

theorem diag_le (s : St M N V W) (d : Diag) : Le s (s.diag d) :=
  ⟨rfl, fun h => by simp [St.diag] at h, fun _ _ h => h, fun _ h => h, fun _ h => h, rfl⟩

theorem diagIf_le (s : St M N V W) (b : Bool) (d : Diag) : Le s (s.diagIf b d) := by
  unfold St.diagIf; split
  · exact diag_le s d
  · exact Le.refl s

theorem diagIf_empty {s : St M N V W} {b : Bool} {d : Diag} (h : (s.diagIf b d).diags = []) : b = false := by
  unfold St.diagIf at h
  cases b with
  | false => rfl
  | true => simp [St.diag] at h

theorem diagIf_lists (s : St M N V W) (b : Bool) (d : Diag) : (s.diagIf b d).lists = s.lists := by
  unfold St.diagIf; split <;> rfl

theorem note_le (c : Ctx M N W) (s : St M N V W) (m : M) : Le s (note c s m) :=
  ⟨rfl, id, fun _ _ h => h, fun _ h => h, fun _ h => h, findDecl_keys c s.refs m⟩

theorem localize_spec (c : Ctx M N W) (s : St M N V W) (n : N) (m : M) :
    Le s (localize c s n m).2 ∧ (localize c s n m).2.lists = s.lists ∧ (localize c s n m).2.diags = s.diags ∧
    ((localize c s n m).1.ok = true →
      ((localize c s n m).1.var = none ∧ Hidden c m) ∨
      (∃ w, (localize c s n m).1.var = some w ∧ VarOf c m w ∧ w ∈ s.locals ∧ (localize c s n m).1.isLocal = true) ∨
      ∃ w, (localize c s n m).1.var = some w ∧ VarOf c m w ∧ Whole c m w ∧ w ∉ s.locals ∧
        w ∈ s.refs.map Prod.fst ∧ (localize c s n m).1.isLocal = false ∧ (IsGlobal c m → ∃ p ∈ (localize c s n m).2.globals, p.1 = n)) := by
  have hbase : Le s { s with refs := (findDecl c s.refs m).2.2 } :=
    ⟨rfl, id, fun _ _ h => h, fun _ h => h, fun _ h => h, findDecl_keys c s.refs m⟩
  unfold localize
  simp only []
  split
  · rename_i hany
    obtain ⟨w, hw, hl⟩ : ∃ w, (findDecl c s.refs m).1 = some w ∧ s.locals.contains w = true := by
      cases hf : (findDecl c s.refs m).1 with
      | none => rw [hf] at hany; cases hany
      | some w => rw [hf] at hany; exact ⟨w, rfl, hany⟩
    refine ⟨hbase, rfl, rfl, fun _ => Or.inr (Or.inl ⟨w, hw, findDecl_var hw, ?_, rfl⟩)⟩
    simpa using hl
  · rename_i hany
    have hnl : ∀ w, (findDecl c s.refs m).1 = some w → w ∉ s.locals := fun w hw hm => by
      apply hany; rw [hw]; simpa using hm
    split
    · rename_i hk
      refine ⟨hbase, rfl, rfl, fun _ => ?_⟩
      obtain ⟨w, hw, hwh, hre, hg⟩ := findDecl_coincide (Or.inl hk)
      exact Or.inr (Or.inr ⟨w, hw, findDecl_var hw, hwh, hnl w hw, hre, rfl, fun h => (hg hk h).elim⟩)
    · rename_i w hk hw
      refine ⟨⟨rfl, id, fun _ _ h => h, fun _ h => h, fun p hp => ?_, findDecl_keys c s.refs m⟩, rfl, rfl,
        fun _ => ?_⟩
      · show p ∈ if _ then _ else _
        split
        · exact hp
        · exact List.mem_append_left _ hp
      · obtain ⟨w', hw', hwh, hre, _⟩ := findDecl_coincide (Or.inr hk)
        rw [hw] at hw'
        cases hw'
        refine Or.inr (Or.inr ⟨w, rfl, findDecl_var hw, hwh, hnl w hw, hre, rfl, fun _ => ?_⟩)
        show ∃ p ∈ (if (s.globals.any fun p => decide (p.1 = n)) = true then s.globals else s.globals ++ [(n, w)]),
          p.1 = n
        split
        · rename_i ha
          obtain ⟨p, hp, e⟩ := List.any_eq_true.1 ha
          exact ⟨p, hp, by simpa using e⟩
        · exact ⟨(n, w), by simp, rfl⟩
    · rename_i hk hw
      obtain ⟨w', hw', _⟩ := findDecl_coincide (Or.inr hk)
      rw [hw] at hw'; cases hw'
    · rename_i hk
      exact ⟨hbase, rfl, rfl, fun _ => Or.inl ⟨rfl, findDecl_unknown hk⟩⟩
    · exact ⟨hbase, rfl, rfl, fun h => by cases h⟩

theorem insertVar_mem {c : Ctx M N W} {l : List (W × M)} {w : W} {m : M} :
    (∀ p ∈ l, p ∈ insertVar c l w m) ∧ Named c (insertVar c l w m) w ∧
    ∀ p ∈ insertVar c l w m, p ∈ l ∨ p = (w, m) := by
  unfold insertVar
  split
  · rename_i h
    obtain ⟨p, hp, e⟩ := List.any_eq_true.1 h
    exact ⟨fun _ h => h, ⟨p, hp, by simpa using e⟩, fun _ h => Or.inl h⟩
  · exact ⟨fun _ h => List.mem_append_left _ h, ⟨(w, m), by simp, rfl⟩, fun p hp => by simpa using hp⟩

theorem insert_le (c : Ctx M N W) (s : St M N V W) (d : Dest) (w : W) (m : M) : Le s (s.insert c d w m) := by
  refine ⟨rfl, id, fun x p hp => ?_, fun _ h => h, fun _ h => h, rfl⟩
  show p ∈ if _ then _ else _
  split
  · rename_i e; subst e; exact insertVar_mem.1 p hp
  · exact hp

theorem insert_named (c : Ctx M N W) (s : St M N V W) (d : Dest) (w : W) (m : M) :
    Named c ((s.insert c d w m).lists d) w := by
  show Named c (if d = d then _ else _) w
  rw [if_pos rfl]; exact insertVar_mem.2.1

theorem insert_org {c : Ctx M N W} {Q : Dest → M → N → Prop} {s : St M N V W} (h : Org c Q s) {d : Dest} {w : W}
    {m : M} (hq : d ≠ .loc → Whole c m w ∧ w ∉ s.locals ∧ w ∈ s.refs.map Prod.fst ∧
      ∃ n, Q d m n ∧ (IsGlobal c m → ∃ q ∈ s.globals, q.1 = n)) :
    Org c Q (s.insert c d w m) := by
  intro x hx p hp
  replace hp : p ∈ if x = d then insertVar c (s.lists d) w m else s.lists x := hp
  split at hp
  · rename_i e
    subst e
    rcases insertVar_mem.2.2 p hp with hp | rfl
    · exact h x hx p hp
    · exact hq hx
  · exact h x hx p hp

theorem localizeTo_spec (c : Ctx M N W) {d : Dest} (n : N) (m : M) (s : St M N V W) :
    Le s (localizeTo c d n m s).2 ∧ ((localizeTo c d n m s).2.diags = s.diags) ∧
    ((localizeTo c d n m s).1 = true → Copied c (localizeTo c d n m s).2 d n m) ∧
    ∀ Q, Org c Q s → Q d m n → Org c Q (localizeTo c d n m s).2 := by
  obtain ⟨h1, h2, h3, h4⟩ := localize_spec c s n m
  unfold localizeTo
  simp only []
  split
  · exact ⟨h1, h3, (fun h => by cases h), fun Q hQ _ => hQ.same h1 h2⟩
  · rename_i hok
    have hok : (localize c s n m).1.ok = true := by simpa using hok
    rcases h4 hok with ⟨hv, hh⟩ | ⟨w, hv, hvo, hl, hi⟩ | ⟨w, hv, hvo, hw, hl, hre, hi, hg⟩
    · rw [hv]
      exact ⟨h1, h3, fun _ => Or.inl hh, fun Q hQ _ => hQ.same h1 h2⟩
    · rw [hv, hi]
      have hle := h1.trans (insert_le c (localize c s n m).2 .loc w m)
      refine ⟨hle, h3, fun _ => Or.inr (Or.inl ⟨w, hvo, ?_⟩), fun Q hQ _ => ?_⟩
      · have := hle.locals
        show w ∈ (St.insert c _ _ _ _).locals
        rw [show (St.insert c (localize c s n m).2 (if true = true then Dest.loc else d) w m).locals = s.locals
          from this]
        exact hl
      · exact insert_org (hQ.same h1 h2) fun e => (e rfl).elim
    · rw [hv, hi]
      have hle := h1.trans (insert_le c (localize c s n m).2 d w m)
      refine ⟨hle, h3, fun _ => Or.inr (Or.inr ⟨w, hw, ?_, ?_, ?_, hg⟩), fun Q hQ hq => ?_⟩
      · show w ∉ (St.insert c _ _ _ _).locals
        rw [show (St.insert c (localize c s n m).2 (if false = true then Dest.loc else d) w m).locals = s.locals
          from hle.locals]
        exact hl
      · show w ∈ (St.insert c _ _ _ _).refs.map Prod.fst
        rw [show (St.insert c (localize c s n m).2 (if false = true then Dest.loc else d) w m).refs.map Prod.fst
          = s.refs.map Prod.fst from hle.refs]
        exact hre
      · exact insert_named c _ d w m
      · exact insert_org (hQ.same h1 h2) fun _ => ⟨hw, by rw [h1.locals]; exact hl,
          by rw [h1.refs]; exact hre, n, hq, hg⟩

theorem localizeAll_spec (c : Ctx M N W) {d : Dest} (n : N) (l : List (Elem M N V)) : ∀ s : St M N V W,
    Le s (localizeAll c d n l s).2 ∧ (localizeAll c d n l s).2.diags = s.diags ∧
    ((localizeAll c d n l s).1 = true → ∀ e ∈ l, Copied c (localizeAll c d n l s).2 d n e.mem) ∧
    ∀ Q, Org c Q s → (∀ e ∈ l, Q d e.mem n) → Org c Q (localizeAll c d n l s).2 := by
  induction l with
  | nil => exact fun s => ⟨Le.refl s, rfl, (fun _ e he => by cases he), fun Q hQ _ => hQ⟩
  | cons x l ih =>
    intro s
    obtain ⟨a1, a2, a3, a4⟩ := localizeTo_spec (d := d) c n x.mem s
    obtain ⟨b1, b2, b3, b4⟩ := ih (localizeTo c d n x.mem s).2
    unfold localizeAll
    refine ⟨a1.trans b1, b2.trans a2, fun h e he => ?_, fun Q hQ hq => ?_⟩
    · simp only [Bool.and_eq_true] at h
      rcases List.mem_cons.1 he with rfl | he
      · exact (a3 h.1).mono b1
      · exact b3 h.2 e he
    · exact b4 Q (a4 Q hQ (hq x List.mem_cons_self)) fun e he => hq e (List.mem_cons_of_mem _ he)

/-! ## Nodes -/

/-- Whether the traits allow all threads to use the same memory. -/
def Shares (d : Dptr) : Prop := d.dep .shared = true ∨ d.dep .readonly = true

/-- The trait which is a reason to insert a variable to a list. -/
def TraitFor (d : Dptr) (e : Elem M N V) : Dest → Prop
  | .priv => d.dep .priv = true
  | .first => d.dep .firstPrivate = true
  | .last => d.dep .secondToLastPrivate = true
  | .red k => d.dep .reduction = true ∧ e.reduction = some k ∧ k ≠ .noReduction
  | .stub => True
  | _ => False

/-- What is known about locations of an analyzed node, the loop variable is `ind`. -/
structure Handled (c : Ctx M N W) (ind : W) (s : St M N V W) (d : Dptr) (E : Entry M N V) : Prop where
  induction : ¬ Shares d → d.dep .induction = true → ∀ e ∈ E.elems,
    VarOf c e.mem ind ∧ (ind ∈ s.locals ∨ Whole c e.mem ind)
  priv : ¬ Shares d → d.dep .induction = false → d.dep .priv = true → ∀ e ∈ E.elems, Copied c s .priv E.node e.mem
  reduction : ¬ Shares d → d.dep .induction = false → d.dep .priv = false → d.dep .reduction = true →
    E.elems = [] ∨ ∃ k, k ≠ .noReduction ∧ ∀ e ∈ E.elems, e.reduction = some k ∧ Copied c s (.red k) E.node e.mem
  dependence : ¬ Shares d → d.dep .induction = false → d.dep .priv = false → d.dep .reduction = false →
    (d.dep .anti = true ∨ d.dep .flow = true) → d.dep .output = false → ∀ e ∈ E.elems,
      e.flow = some false ∨ e.anti = some false ∨
      ∃ x l w, E.elems = x :: l ∧ VarOf c x.mem w ∧ ∃ p ∈ s.deps, c.name p.1 = c.name w
  last : ¬ Shares d → d.dep .induction = false → d.dep .priv = false → d.dep .reduction = false →
    (d.dep .output = true ∨ (d.dep .anti = false ∧ d.dep .flow = false)) →
    d.dep .secondToLastPrivate = true → ∀ e ∈ E.elems, Copied c s .last E.node e.mem
  first : ¬ Shares d → d.dep .induction = false → d.dep .priv = false → d.dep .reduction = false →
    (d.dep .output = true ∨ (d.dep .anti = false ∧ d.dep .flow = false)) →
    d.dep .firstPrivate = true → ∀ e ∈ E.elems, Copied c s .first E.node e.mem

theorem Handled.mono {c : Ctx M N W} {ind : W} {s s' : St M N V W} {d : Dptr} {E : Entry M N V}
    (h : Handled c ind s d E) (hl : Le s s') : Handled c ind s' d E where
  induction h1 h2 e he := by
    obtain ⟨a, b⟩ := h.induction h1 h2 e he
    exact ⟨a, b.imp (fun b => by rw [hl.locals]; exact b) id⟩
  priv h1 h2 h3 e he := (h.priv h1 h2 h3 e he).mono hl
  reduction h1 h2 h3 h4 := by
    rcases h.reduction h1 h2 h3 h4 with h0 | ⟨k, hk, h⟩
    · exact Or.inl h0
    · exact Or.inr ⟨k, hk, fun e he => ⟨(h e he).1, (h e he).2.mono hl⟩⟩
  dependence h1 h2 h3 h4 h5 h6 e he := by
    rcases h.dependence h1 h2 h3 h4 h5 h6 e he with h | h | ⟨x, l, w, hx, hv, p, hp, hn⟩
    · exact Or.inl h
    · exact Or.inr (Or.inl h)
    · exact Or.inr (Or.inr ⟨x, l, w, hx, hv, p, hl.deps p hp, hn⟩)
  last h1 h2 h3 h4 h5 h6 e he := (h.last h1 h2 h3 h4 h5 h6 e he).mono hl
  first h1 h2 h3 h4 h5 h6 e he := (h.first h1 h2 h3 h4 h5 h6 e he).mono hl

/-- A fold of steps which only add results. -/
theorem foldl_le {β : Type} {f : St M N V W → β → St M N V W} (hf : ∀ s x, Le s (f s x)) (l : List β) :
    ∀ s, Le s (l.foldl f s) := by
  induction l with
  | nil => exact Le.refl
  | cons x l ih => exact fun s => (hf s x).trans (ih _)

/-- A property of an element holds after a fold if it is established by a step and is preserved. -/
theorem foldl_post {β : Type} {f : St M N V W → β → St M N V W} (hf : ∀ s x, Le s (f s x))
    {R : β → St M N V W → Prop} (hm : ∀ x s s', R x s → Le s s' → R x s') (l : List β)
    (hp : ∀ s, ∀ x ∈ l, (f s x).diags = [] → R x (f s x)) :
    ∀ s, (l.foldl f s).diags = [] → ∀ x ∈ l, R x (l.foldl f s) := by
  induction l with
  | nil => intro s _ x hx; cases hx
  | cons y l ih =>
    intro s hd x hx
    rcases List.mem_cons.1 hx with rfl | hx
    · have hle := foldl_le hf l (f s x)
      exact hm x _ _ (hp s x List.mem_cons_self (hle.diags hd)) hle
    · exact ih (fun s z hz => hp s z (List.mem_cons_of_mem _ hz)) (f s y) hd x hx

theorem foldl_org {c : Ctx M N W} {Q : Dest → M → N → Prop} {β : Type} {f : St M N V W → β → St M N V W}
    (l : List β) (hf : ∀ s, ∀ x ∈ l, Org c Q s → Org c Q (f s x)) : ∀ s, Org c Q s → Org c Q (l.foldl f s) := by
  induction l with
  | nil => exact fun s h => h
  | cons y l ih =>
    exact fun s h => ih (fun s z hz => hf s z (List.mem_cons_of_mem _ hz)) _ (hf s y List.mem_cons_self h)

theorem addInduction_le (c : Ctx M N W) (E : Entry M N V) (w : W) (m : M) (b : Bool) (s : St M N V W) :
    Le s (addInduction c E w m b s) ∧ (addInduction c E w m b s).lists = s.lists := by
  unfold addInduction
  simp only []
  split <;> exact ⟨⟨rfl, id, fun _ _ h => h, fun _ h => h, fun _ h => h, rfl⟩, rfl⟩

theorem inductionStep_spec (c : Ctx M N W) (ind : W) (ig : Bool) (E : Entry M N V) (s : St M N V W)
    (e : Elem M N V) : Le s (inductionStep c ind ig E s e) ∧ (inductionStep c ind ig E s e).lists = s.lists ∧
    (ig = false → (inductionStep c ind ig E s e).diags = [] →
      VarOf c e.mem ind ∧ (ind ∈ (inductionStep c ind ig E s e).locals ∨ Whole c e.mem ind)) := by
  obtain ⟨h1, h2, h3, h4⟩ := localize_spec c s E.node e.mem
  unfold inductionStep
  simp only []
  split
  · rename_i w hv
    split
    · rename_i hok
      simp only [Bool.and_eq_true, decide_eq_true_eq] at hok
      obtain ⟨hok, rfl⟩ := hok
      have ha := addInduction_le c E ind e.mem (localize c s E.node e.mem).1.isLocal (localize c s E.node e.mem).2
      refine ⟨h1.trans ha.1, ha.2.trans h2, fun _ _ => ?_⟩
      rw [(h1.trans ha.1).locals]
      rcases h4 hok with ⟨hn, _⟩ | ⟨u, hu, hvo, hl, _⟩ | ⟨u, hu, hvo, hw, _⟩
      · rw [hv] at hn; cases hn
      · rw [hv] at hu; cases hu; exact ⟨hvo, Or.inl hl⟩
      · rw [hv] at hu; cases hu; exact ⟨hvo, Or.inr hw⟩
    · split
      · rename_i hig
        exact ⟨h1, h2, fun h => by rw [hig] at h; cases h⟩
      · split
        · exact ⟨h1.trans (diag_le _ _), h2, fun _ h => by simp [St.diag] at h⟩
        · have ha := addInduction_le c E w e.mem (localize c s E.node e.mem).1.isLocal
            ((localize c s E.node e.mem).2.diag .multipleInduction)
          refine ⟨(h1.trans (diag_le _ _)).trans ha.1, ha.2.trans h2, fun _ h => ?_⟩
          have := ha.1.diags h
          simp [St.diag] at this
  · split
    · rename_i hig
      exact ⟨h1, h2, fun h => by rw [hig] at h; cases h⟩
    · split
      · exact ⟨h1.trans (diag_le _ _), h2, fun _ h => by simp [St.diag] at h⟩
      · exact ⟨h1.trans (diag_le _ _), h2, fun _ h => by simp [St.diag] at h⟩

theorem privateStep_spec (c : Ctx M N W) (d : Dest) (ig : Bool) (E : Entry M N V) (s : St M N V W) :
    Le s (privateStep c d ig E s) ∧
    (ig = false → (privateStep c d ig E s).diags = [] → ∀ e ∈ E.elems, Copied c (privateStep c d ig E s) d E.node e.mem) ∧
    ∀ Q, Org c Q s → (∀ e ∈ E.elems, Q d e.mem E.node) → Org c Q (privateStep c d ig E s) := by
  obtain ⟨h1, h2, h3, h4⟩ := localizeAll_spec (d := d) c E.node E.elems s
  unfold privateStep
  refine ⟨h1.trans (diagIf_le _ _ _), fun hig hd e he => ?_, fun Q hQ hq => ?_⟩
  · have := diagIf_empty hd
    rw [hig] at this
    simp only [Bool.not_false, Bool.and_true, Bool.not_eq_false'] at this
    exact (h3 this e he).mono (diagIf_le _ _ _)
  · exact (h4 Q hQ hq).same (diagIf_le _ _ _) (diagIf_lists _ _ _)

theorem reductionHead_spec (c : Ctx M N W) (ig : Bool) (n : N) (e : Elem M N V) (s : St M N V W) :
    Le s (reductionHead c ig n e s).2 ∧
    (ig = false → (reductionHead c ig n e s).2.diags = [] → e.reduction = some (reductionHead c ig n e s).1 ∧
      (reductionHead c ig n e s).1 ≠ .noReduction ∧
      Copied c (reductionHead c ig n e s).2 (.red (reductionHead c ig n e s).1) n e.mem) ∧
    ∀ Q, Org c Q s → (∀ k, e.reduction = some k → k ≠ .noReduction → Q (.red k) e.mem n) → Q .stub e.mem n →
      Org c Q (reductionHead c ig n e s).2 := by
  unfold reductionHead
  simp only []
  generalize hk : e.reduction.getD RedKind.noReduction = k
  have hle1 : Le s (if (decide (k = .noReduction) && !ig) = true then (note c s e.mem).diag .reductionUnknown else s) := by
    split
    · exact (note_le c s e.mem).trans (diag_le _ _)
    · exact Le.refl s
  have hls1 : (if (decide (k = .noReduction) && !ig) = true then (note c s e.mem).diag .reductionUnknown else s).lists
      = s.lists := by
    split <;> rfl
  have hds1 : ig = false → (if (decide (k = .noReduction) && !ig) = true then
      (note c s e.mem).diag .reductionUnknown else s).diags = [] → k ≠ .noReduction := by
    intro hig hd hk
    rw [if_pos (by simp [hig, hk])] at hd
    simp [St.diag] at hd
  generalize (if (decide (k = .noReduction) && !ig) = true then (note c s e.mem).diag .reductionUnknown else s) = s1
    at hle1 hls1 hds1 ⊢
  obtain ⟨h1, h2, h3, h4⟩ := localizeTo_spec (d := redDest k) c n e.mem s1
  have hsome : k ≠ .noReduction → e.reduction = some k := by
    intro hne
    cases hr : e.reduction with
    | none => rw [hr] at hk; exact (hne hk.symm).elim
    | some k' => rw [hr] at hk; exact congrArg some hk
  refine ⟨(hle1.trans h1).trans (diagIf_le _ _ _), fun hig hd => ?_, fun Q hQ hq hq' => ?_⟩
  · have hb := diagIf_empty hd
    rw [hig] at hb
    simp only [Bool.not_false, Bool.and_true, Bool.not_eq_false'] at hb
    have hd1 : s1.diags = [] := by
      rw [← h2]; exact (diagIf_le _ _ _).diags hd
    have hne := hds1 hig hd1
    have hdest : redDest k = .red k := if_neg hne
    refine ⟨hsome hne, hne, ?_⟩
    have := (h3 hb).mono (diagIf_le _ (!(localizeTo c (redDest k) n e.mem s1).1 && !ig) .reductionUnable)
    rw [hdest] at this ⊢
    exact this
  · refine (h4 Q (hQ.same hle1 hls1) ?_).same (diagIf_le _ _ _) (diagIf_lists _ _ _)
    unfold redDest
    split
    · exact hq'
    · rename_i hne; exact hq k (hsome hne) hne

theorem reductionTail_spec (c : Ctx M N W) (ig : Bool) (n : N) (k : RedKind) (s : St M N V W) (e : Elem M N V) :
    Le s (reductionTail c ig n k s e) ∧
    (ig = false → k ≠ .noReduction → (reductionTail c ig n k s e).diags = [] → e.reduction = some k ∧
      Copied c (reductionTail c ig n k s e) (.red k) n e.mem) ∧
    ∀ Q, Org c Q s → (∀ k, e.reduction = some k → k ≠ .noReduction → Q (.red k) e.mem n) → Q .stub e.mem n →
      Org c Q (reductionTail c ig n k s e) := by
  unfold reductionTail
  split
  · split
    · exact ⟨(note_le c s e.mem).trans (diag_le _ _), fun _ _ h => by simp [St.diag] at h,
        fun Q hQ _ _ => hQ.same ((note_le c s e.mem).trans (diag_le _ _)) rfl⟩
    · rename_i hig
      exact ⟨Le.refl s, fun h => by rw [h] at hig; exact (hig rfl).elim, fun Q hQ _ _ => hQ⟩
  · rename_i hr
    have hr : e.reduction = some k := by
      by_cases h : e.reduction = some k
      · exact h
      · exact (hr h).elim
    obtain ⟨h1, h2, h3, h4⟩ := localizeTo_spec (d := redDest k) c n e.mem s
    refine ⟨h1.trans (diagIf_le _ _ _), fun hig hne hd => ⟨hr, ?_⟩, fun Q hQ hq hq' => ?_⟩
    · have hb := diagIf_empty hd
      rw [hig] at hb
      simp only [Bool.not_false, Bool.and_true, Bool.not_eq_false'] at hb
      have hdest : redDest k = .red k := if_neg hne
      have := (h3 hb).mono (diagIf_le _ (!(localizeTo c (redDest k) n e.mem s).1 && !ig) .reductionUnable)
      rw [hdest] at this ⊢
      exact this
    · refine (h4 Q hQ ?_).same (diagIf_le _ _ _) (diagIf_lists _ _ _)
      unfold redDest
      split
      · exact hq'
      · rename_i hne; exact hq k hr hne

theorem dependenceStep_spec (c : Ctx M N W) (ig : Bool) (E : Entry M N V) (x : Elem M N V) (s : St M N V W)
    (e : Elem M N V) : Le s (dependenceStep c ig E x s e) ∧ (dependenceStep c ig E x s e).lists = s.lists ∧
    (ig = false → (dependenceStep c ig E x s e).diags = [] → e.flow = some false ∨ e.anti = some false ∨
      ∃ w, VarOf c x.mem w ∧ ∃ p ∈ (dependenceStep c ig E x s e).deps, c.name p.1 = c.name w) := by
  unfold dependenceStep
  split
  · simp only []
    split
    · rename_i w hw
      refine ⟨⟨rfl, id, fun _ _ h => h, fun p hp => ?_, fun _ h => h, findDecl_keys _ _ _⟩, rfl, fun _ _ =>
        Or.inr (Or.inr ⟨w, findDecl_var hw, ?_⟩)⟩
      · show p ∈ if _ then _ else _
        split
        · exact hp
        · exact List.mem_append_left _ hp
      · show ∃ p ∈ (if (s.deps.any fun p => decide (c.name p.1 = c.name w)) = true then s.deps else _),
          c.name p.1 = c.name w
        split
        · rename_i ha
          obtain ⟨p, hp, he⟩ := List.any_eq_true.1 ha
          exact ⟨p, hp, by simpa using he⟩
        · exact ⟨_, List.mem_append_right _ (List.mem_singleton.2 rfl), rfl⟩
    · have hb : Le s { s with refs := (findDecl c s.refs x.mem).2.2 } :=
        ⟨rfl, id, fun _ _ h => h, fun _ h => h, fun _ h => h, findDecl_keys _ _ _⟩
      refine ⟨hb.trans (diagIf_le _ _ _), diagIf_lists _ _ _, fun hig hd => ?_⟩
      have := diagIf_empty hd
      rw [hig] at this; cases this
  · rename_i hc
    refine ⟨Le.refl s, rfl, fun _ _ => ?_⟩
    cases hf : e.flow with
    | none =>
      cases ha : e.anti with
      | none => simp [hf, ha] at hc
      | some b => cases b <;> simp_all
    | some b =>
      cases b with
      | false => exact Or.inl rfl
      | true =>
        cases ha : e.anti with
        | none => simp [hf, ha] at hc
        | some b => cases b <;> simp_all

theorem nodeStep_le (c : Ctx M N W) (ind : W) (d : Dptr) (ig : Bool) (E : Entry M N V) (s : St M N V W) :
    Le s (nodeStep c ind d ig E s) := by
  unfold nodeStep
  split
  · have := foldl_le (f := fun s (e : Elem M N V) => note c s e.mem) (fun s e => note_le c s e.mem) E.elems s
    simp only []
    split
    · exact this.trans ⟨rfl, id, fun _ _ h => h, fun _ h => h, fun _ h => h, rfl⟩
    · exact this.trans ⟨rfl, id, fun _ _ h => h, fun _ h => h, fun _ h => h, rfl⟩
  · split
    · exact foldl_le (fun s e => (inductionStep_spec c ind ig E s e).1) E.elems s
    · split
      · exact (privateStep_spec c .priv ig E s).1
      · split
        · split
          · exact Le.refl s
          · exact (reductionHead_spec c ig E.node _ s).1.trans
              (foldl_le (fun s e => (reductionTail_spec c ig E.node _ s e).1) _ _)
        · split
          · split
            · exact Le.refl s
            · exact foldl_le (fun s e => (dependenceStep_spec c ig E _ s e).1) _ _
          · have h1 : Le s (if d.dep .secondToLastPrivate = true then privateStep c .last ig E s else s) := by
              split
              · exact (privateStep_spec c .last ig E s).1
              · exact Le.refl s
            simp only []
            split
            · exact h1.trans (privateStep_spec c .first ig E _).1
            · exact h1

theorem nodeStep_handled (c : Ctx M N W) (ind : W) (d : Dptr) (E : Entry M N V) (s : St M N V W)
    (hd : (nodeStep c ind d false E s).diags = []) : Handled c ind (nodeStep c ind d false E s) d E := by
  by_cases hsh : (d.dep .shared || d.dep .readonly) = true
  · have : Shares d := by simpa [Shares] using hsh
    exact ⟨fun h => (h this).elim, fun h => (h this).elim, fun h => (h this).elim, fun h => (h this).elim,
      fun h => (h this).elim, fun h => (h this).elim⟩
  unfold nodeStep at hd ⊢
  rw [if_neg hsh] at hd ⊢
  by_cases hin : d.dep .induction = true
  · rw [if_pos hin] at hd ⊢
    refine ⟨fun _ _ => ?_, fun _ h => ?_, fun _ h => ?_, fun _ h => ?_, fun _ h => ?_, fun _ h => ?_⟩
    · exact foldl_post (fun s e => (inductionStep_spec c ind false E s e).1)
        (R := fun e s => VarOf c e.mem ind ∧ (ind ∈ s.locals ∨ Whole c e.mem ind))
        (fun e s s' h hl => ⟨h.1, h.2.imp (fun b => by rw [hl.locals]; exact b) id⟩) E.elems
        (fun s e _ h => (inductionStep_spec c ind false E s e).2.2 rfl h) s hd
    all_goals rw [hin] at h; cases h
  rw [if_neg hin] at hd ⊢
  by_cases hp : d.dep .priv = true
  · rw [if_pos hp] at hd ⊢
    refine ⟨fun _ h => (hin h).elim, fun _ _ _ => (privateStep_spec c .priv false E s).2.1 rfl hd, fun _ _ h => ?_,
      fun _ _ h => ?_, fun _ _ h => ?_, fun _ _ h => ?_⟩
    all_goals rw [hp] at h; cases h
  rw [if_neg hp] at hd ⊢
  by_cases hr : d.dep .reduction = true
  · rw [if_pos hr] at hd ⊢
    refine ⟨fun _ h => (hin h).elim, fun _ _ h => (hp h).elim, fun _ _ _ _ => ?_, fun _ _ _ h => ?_,
      fun _ _ _ h => ?_, fun _ _ _ h => ?_⟩
    · cases hE : E.elems with
      | nil => exact Or.inl rfl
      | cons x l =>
        right
        rw [hE] at hd
        have hle := foldl_le (fun s e => (reductionTail_spec c false E.node (reductionHead c false E.node x s).1 s e).1) l
          (reductionHead c false E.node x s).2
        obtain ⟨hk, hne, hc⟩ := (reductionHead_spec c false E.node x s).2.1 rfl (hle.diags hd)
        refine ⟨_, hne, fun e he => ?_⟩
        rcases List.mem_cons.1 he with rfl | he
        · exact ⟨hk, hc.mono hle⟩
        · exact foldl_post (fun s e => (reductionTail_spec c false E.node (reductionHead c false E.node x _).1 s e).1)
            (R := fun e s' => e.reduction = some (reductionHead c false E.node x s).1 ∧
              Copied c s' (.red (reductionHead c false E.node x s).1) E.node e.mem)
            (fun e s s' h hl => ⟨h.1, h.2.mono hl⟩) l
            (fun s' e _ h => (reductionTail_spec c false E.node _ s' e).2.1 rfl hne h) _ hd e he
    all_goals rw [hr] at h; cases h
  rw [if_neg hr] at hd ⊢
  by_cases hdep : ((d.dep .anti || d.dep .flow) && !d.dep .output) = true
  · rw [if_pos hdep] at hd ⊢
    have hout : ¬ (d.dep .output = true ∨ (d.dep .anti = false ∧ d.dep .flow = false)) := by
      simp only [Bool.and_eq_true, Bool.or_eq_true, Bool.not_eq_eq_eq_not, Bool.not_true] at hdep
      rintro (h | ⟨h1, h2⟩)
      · rw [hdep.2] at h; cases h
      · rcases hdep.1 with h | h
        · rw [h1] at h; cases h
        · rw [h2] at h; cases h
    refine ⟨fun _ h => (hin h).elim, fun _ _ h => (hp h).elim, fun _ _ _ h => (hr h).elim, fun _ _ _ _ _ _ => ?_,
      fun _ _ _ _ h => (hout h).elim, fun _ _ _ _ h => (hout h).elim⟩
    cases hE : E.elems with
    | nil => intro e he; cases he
    | cons x l =>
      rw [hE] at hd
      intro e he
      have := foldl_post (fun s e => (dependenceStep_spec c false E x s e).1)
        (R := fun e s => e.flow = some false ∨ e.anti = some false ∨
          ∃ w, VarOf c x.mem w ∧ ∃ p ∈ s.deps, c.name p.1 = c.name w)
        (fun e s s' h hl => by
          rcases h with h | h | ⟨w, hv, p, hp, hn⟩
          · exact Or.inl h
          · exact Or.inr (Or.inl h)
          · exact Or.inr (Or.inr ⟨w, hv, p, hl.deps p hp, hn⟩)) (x :: l)
        (fun s e _ h => (dependenceStep_spec c false E x s e).2.2 rfl h) s hd e he
      rcases this with h | h | ⟨w, hv, hw⟩
      · exact Or.inl h
      · exact Or.inr (Or.inl h)
      · exact Or.inr (Or.inr ⟨x, l, w, rfl, hv, hw⟩)
  rw [if_neg hdep] at hd ⊢
  have hnd : ¬ ((d.dep .anti = true ∨ d.dep .flow = true) ∧ d.dep .output = false) := by
    simpa using hdep
  refine ⟨fun _ h => (hin h).elim, fun _ _ h => (hp h).elim, fun _ _ _ h => (hr h).elim,
    fun _ _ _ _ h5 h6 => (hnd ⟨h5, h6⟩).elim, fun _ _ _ _ _ h6 e he => ?_, fun _ _ _ _ _ h6 e he => ?_⟩
  · simp only [h6, if_true] at hd ⊢
    by_cases hf : d.dep .firstPrivate = true
    · rw [if_pos hf] at hd ⊢
      have hle := (privateStep_spec c .first false E (privateStep c .last false E s)).1
      exact ((privateStep_spec c .last false E s).2.1 rfl (hle.diags hd) e he).mono hle
    · rw [if_neg hf] at hd ⊢
      exact (privateStep_spec c .last false E s).2.1 rfl hd e he
  · simp only [h6, if_true] at hd ⊢
    exact (privateStep_spec c .first false E _).2.1 rfl hd e he

theorem nodeStep_org {c : Ctx M N W} {ind : W} {d : Dptr} {ig : Bool} {E : Entry M N V} {s : St M N V W}
    {Q : Dest → M → N → Prop} (hQ : Org c Q s)
    (hq : ¬ Shares d → ∀ e ∈ E.elems, ∀ x, TraitFor d e x → Q x e.mem E.node) : Org c Q (nodeStep c ind d ig E s) := by
  by_cases hsh : (d.dep .shared || d.dep .readonly) = true
  · refine hQ.same (nodeStep_le c ind d ig E s) ?_
    unfold nodeStep
    rw [if_pos hsh]
    have : ∀ (l : List (Elem M N V)) (s : St M N V W), (l.foldl (fun s e => note c s e.mem) s).lists = s.lists := by
      intro l
      induction l with
      | nil => exact fun _ => rfl
      | cons x l ih => exact fun s => ih _
    simp only []
    split <;> exact this _ _
  have hns : ¬ Shares d := by simpa [Shares] using hsh
  replace hq := hq hns
  unfold nodeStep
  rw [if_neg hsh]
  split
  · exact foldl_org E.elems (fun s e _ h => h.same (inductionStep_spec c ind ig E s e).1
      (inductionStep_spec c ind ig E s e).2.1) s hQ
  · split
    · rename_i hp
      exact (privateStep_spec c .priv ig E s).2.2 Q hQ fun e he => hq e he .priv hp
    · split
      · rename_i hr
        split
        · exact hQ
        · rename_i x l hE
          rw [hE] at hq
          have hred : ∀ e ∈ x :: l, ∀ k, e.reduction = some k → k ≠ .noReduction → Q (.red k) e.mem E.node :=
            fun e he k h1 h2 => hq e he (.red k) ⟨hr, h1, h2⟩
          have hst : ∀ e ∈ x :: l, Q .stub e.mem E.node := fun e he => hq e he .stub trivial
          refine foldl_org l (fun s e he h => ?_) _ ?_
          · exact (reductionTail_spec c ig E.node _ s e).2.2 Q h (hred e (List.mem_cons_of_mem _ he))
              (hst e (List.mem_cons_of_mem _ he))
          · exact (reductionHead_spec c ig E.node x s).2.2 Q hQ (hred x List.mem_cons_self) (hst x List.mem_cons_self)
      · split
        · split
          · exact hQ
          · rename_i x l hE
            exact foldl_org _ (fun s e _ h => h.same (dependenceStep_spec c ig E x s e).1
              (dependenceStep_spec c ig E x s e).2.1) s hQ
        · have h1 : Org c Q (if d.dep .secondToLastPrivate = true then privateStep c .last ig E s else s) := by
            split
            · rename_i hp
              exact (privateStep_spec c .last ig E s).2.2 Q hQ fun e he => hq e he .last hp
            · exact hQ
          simp only []
          split
          · rename_i hp
            exact (privateStep_spec c .first ig E _).2.2 Q h1 fun e he => hq e he .first hp
          · exact h1

end AstDep
end Tsar
