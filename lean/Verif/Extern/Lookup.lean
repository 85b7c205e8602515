import Verif.Extern.Model
import Mathlib.Data.List.Basic
import Mathlib.Tactic.Common

/-!
# Search for external results
-/
namespace Tsar.Extern

/-! ### Specification -/

/-- An index in a file denotes a variable: the file is the same (maybe with a different path), and the
line, the column and the name are the same. -/
def Denotes (uid : String → Option Nat) (info : Info) (i : Nat) (v : VarLoc) : Prop :=
  ∃ x, info.vars[i]? = some x ∧ x.name ≠ "" ∧ uid x.file = some v.file ∧ x.line = v.line ∧
    x.column = v.column ∧ x.name = v.name

/-- A loop of a file is at a given position. -/
def LoopAt (uid : String → Option Nat) (p : SrcLoc) (l : LoopJ) : Prop :=
  uid l.file = uid p.1 ∧ l.line = p.2.1 ∧ l.column = p.2.2

/-- All indices of variables a loop mentions (except induction variables and definitions before a
loop, which are not used). -/
def LoopJ.indices (l : LoopJ) : List Nat :=
  l.reduction.map Prod.fst ++ l.priv ++ l.useAfter ++ l.write ++ l.read ++ l.output ++
    l.anti.map Prod.fst ++ l.flow.map Prod.fst

section
variable {uid : String → Option Nat} {info : Info}

theorem createVar_none {i : Nat} : createVar uid info i = none ↔ info.vars.length ≤ i := by
  unfold createVar
  cases h : info.vars[i]? with
  | none => simpa using h
  | some v =>
    have : i < info.vars.length := by
      by_contra hc
      rw [List.getElem?_eq_none (by omega)] at h
      cases h
    constructor
    · intro h'
      cases hf : uid v.file with
      | none => simp [hf] at h'
      | some f =>
        simp only [hf] at h'
        split at h' <;> cases h'
    · intro h'
      omega

theorem createVar_some {i : Nat} {v : VarLoc} :
    createVar uid info i = some (some v) ↔ Denotes uid info i v := by
  unfold createVar Denotes
  cases h : info.vars[i]? with
  | none => simp
  | some x =>
    cases hf : uid x.file with
    | none => simp [hf]
    | some f =>
      by_cases hn : x.name = ""
      · simp [hn, hf]
      · simp only [hn, hf, if_false, Option.some.injEq]
        constructor
        · rintro rfl
          exact ⟨x, rfl, hn, hf, rfl, rfl, rfl⟩
        · rintro ⟨y, rfl, _, h1, h2, h3, h4⟩
          rw [hf] at h1
          injection h1 with h1
          cases v
          simp_all

section
variable {α : Type} {idx : α → Nat} {put : α → Ext → Ext}

theorem addOne_spec {c c' : Cache} {a : α} (h : addOne uid info idx put c a = some c') (v : VarLoc) :
    (Denotes uid info (idx a) v ∧ c' v = some (put a ((c v).getD {}))) ∨
      (¬ Denotes uid info (idx a) v ∧ c' v = c v) := by
  unfold addOne at h
  cases hc : createVar uid info (idx a) with
  | none => rw [hc] at h; cases h
  | some o =>
    cases o with
    | none =>
      rw [hc] at h
      injection h with h
      subst h
      right
      refine ⟨fun hd => ?_, rfl⟩
      rw [createVar_some.2 hd] at hc
      cases hc
    | some w =>
      rw [hc] at h
      injection h with h
      subst h
      by_cases hv : v = w
      · subst hv
        left
        exact ⟨createVar_some.1 hc, by simp⟩
      · right
        refine ⟨fun hd => ?_, by simp [hv]⟩
        rw [createVar_some.2 hd] at hc
        simp only [Option.some.injEq] at hc
        exact hv hc

theorem add_some {as : List α} {c c' : Cache} (h : addToCache uid info idx put as c = some c')
    (v : VarLoc) :
    (c' v).isSome = true ↔ (c v).isSome = true ∨ ∃ a ∈ as, Denotes uid info (idx a) v := by
  induction as generalizing c with
  | nil =>
    simp only [addToCache, Option.some.injEq] at h
    subst h
    simp
  | cons a as ih =>
    simp only [addToCache] at h
    cases h1 : addOne uid info idx put c a with
    | none => rw [h1] at h; cases h
    | some c1 =>
      rw [h1] at h
      rw [ih h]
      rcases addOne_spec h1 v with ⟨hd, he⟩ | ⟨hd, he⟩
      · simp [he, hd]
      · simp [he, hd]

theorem add_keep {β : Type} (π : Ext → β) {as : List α} {c c' : Cache}
    (h : addToCache uid info idx put as c = some c') (v : VarLoc)
    (hπ : ∀ a e, π (put a e) = π e) :
    π ((c' v).getD {}) = π ((c v).getD {}) := by
  induction as generalizing c with
  | nil =>
    simp only [addToCache, Option.some.injEq] at h
    subst h
    rfl
  | cons a as ih =>
    simp only [addToCache] at h
    cases h1 : addOne uid info idx put c a with
    | none => rw [h1] at h; cases h
    | some c1 =>
      rw [h1] at h
      rw [ih h]
      rcases addOne_spec h1 v with ⟨_, he⟩ | ⟨_, he⟩
      · rw [he, Option.getD_some, hπ]
      · rw [he]

theorem add_set {β : Type} (π : Ext → β) (val : α → β) {as : List α} {c c' : Cache}
    (h : addToCache uid info idx put as c = some c') (v : VarLoc)
    (hπ : ∀ a e, π (put a e) = val a) :
    (∃ a ∈ as, Denotes uid info (idx a) v ∧ π ((c' v).getD {}) = val a) ∨
      ((¬ ∃ a ∈ as, Denotes uid info (idx a) v) ∧ π ((c' v).getD {}) = π ((c v).getD {})) := by
  induction as generalizing c with
  | nil =>
    simp only [addToCache, Option.some.injEq] at h
    subst h
    right
    simp
  | cons a as ih =>
    simp only [addToCache] at h
    cases h1 : addOne uid info idx put c a with
    | none => rw [h1] at h; cases h
    | some c1 =>
      rw [h1] at h
      rcases ih h with ⟨b, hb, hd, he⟩ | ⟨hn, he⟩
      · exact Or.inl ⟨b, by simp [hb], hd, he⟩
      · rcases addOne_spec h1 v with ⟨hd, h2⟩ | ⟨hd, h2⟩
        · left
          exact ⟨a, by simp, hd, by rw [he, h2, Option.getD_some, hπ]⟩
        · right
          refine ⟨?_, by rw [he, h2]⟩
          rintro ⟨b, hb, hbd⟩
          rcases List.mem_cons.1 hb with rfl | hb
          · exact hd hbd
          · exact hn ⟨b, hb, hbd⟩

theorem add_none {as : List α} {c : Cache} :
    addToCache uid info idx put as c = none ↔ ∃ a ∈ as, info.vars.length ≤ idx a := by
  induction as generalizing c with
  | nil => simp [addToCache]
  | cons a as ih =>
    simp only [addToCache, List.mem_cons, exists_eq_or_imp]
    rw [← createVar_none (uid := uid)]
    unfold addOne
    cases hc : createVar uid info (idx a) with
    | none => simp
    | some o =>
      cases o with
      | none => simp [ih]
      | some v => simp [ih]

end

/-- Search for traits uses an index which is out of range if and only if there is one. -/
theorem buildTraitCache_none {l : LoopJ} :
    buildTraitCache uid info l = none ↔ ∃ i ∈ l.indices, info.vars.length ≤ i := by
  have key : ∀ {o : Option Cache} {f : Cache → Option Cache} {P Q : Prop}, (o = none ↔ P) →
      (∀ c, f c = none ↔ Q) → (o.bind f = none ↔ P ∨ Q) := by
    intro o f P Q h1 h2
    cases o with
    | none => simp [← h1]
    | some c =>
      simp only [Option.bind_some, h2]
      have : ¬ P := by rw [← h1]; simp
      tauto
  have h := key (add_none (uid := uid) (info := info) (idx := Prod.fst)
    (put := fun a e => { e with reduction := some a.2 }) (as := l.reduction) (c := fun _ => none))
    (fun c => key (add_none (uid := uid) (info := info) (idx := id)
      (put := fun _ e => { e with priv := true }) (as := l.priv) (c := c))
    (fun c => key (add_none (uid := uid) (info := info) (idx := id)
      (put := fun _ e => { e with useAfter := true }) (as := l.useAfter) (c := c))
    (fun c => key (add_none (uid := uid) (info := info) (idx := id)
      (put := fun _ e => { e with write := true }) (as := l.write) (c := c))
    (fun c => key (add_none (uid := uid) (info := info) (idx := id)
      (put := fun _ e => { e with read := true }) (as := l.read) (c := c))
    (fun c => key (add_none (uid := uid) (info := info) (idx := id)
      (put := fun _ e => { e with output := true }) (as := l.output) (c := c))
    (fun c => key (add_none (uid := uid) (info := info) (idx := Prod.fst)
      (put := fun a e => { e with anti := some a.2 }) (as := l.anti) (c := c))
    (fun c => (add_none (uid := uid) (info := info) (idx := Prod.fst)
      (put := fun a e => { e with flow := some a.2 }) (as := l.flow) (c := c)))))))))
  unfold buildTraitCache
  refine h.trans ?_
  simp only [LoopJ.indices, List.mem_append, List.mem_map, id, or_and_right, exists_or,
    exists_exists_and_eq_and, or_assoc]

/-- **C126.** Traits which are found for a variable are exactly the traits which a loop of the file
lists for indices that denote this variable. -/
theorem traits_exact {l : LoopJ} {c : Cache} (h : buildTraitCache uid info l = some c) (v : VarLoc) :
    (c v = none ↔ ∀ i ∈ l.indices, ¬ Denotes uid info i v) ∧
    ∀ e, c v = some e →
      (e.priv = true ↔ ∃ i ∈ l.priv, Denotes uid info i v) ∧
      (e.useAfter = true ↔ ∃ i ∈ l.useAfter, Denotes uid info i v) ∧
      (e.write = true ↔ ∃ i ∈ l.write, Denotes uid info i v) ∧
      (e.read = true ↔ ∃ i ∈ l.read, Denotes uid info i v) ∧
      (e.output = true ↔ ∃ i ∈ l.output, Denotes uid info i v) ∧
      (e.reduction = none ↔ ∀ p ∈ l.reduction, ¬ Denotes uid info p.1 v) ∧
      (∀ k, e.reduction = some k → ∃ i, (i, k) ∈ l.reduction ∧ Denotes uid info i v) ∧
      (e.anti = none ↔ ∀ p ∈ l.anti, ¬ Denotes uid info p.1 v) ∧
      (∀ r, e.anti = some r → ∃ i, (i, r) ∈ l.anti ∧ Denotes uid info i v) ∧
      (e.flow = none ↔ ∀ p ∈ l.flow, ¬ Denotes uid info p.1 v) ∧
      (∀ r, e.flow = some r → ∃ i, (i, r) ∈ l.flow ∧ Denotes uid info i v) := by
  unfold buildTraitCache at h
  simp only [Option.bind_eq_bind, Option.bind_eq_some_iff] at h
  obtain ⟨c1, h1, c2, h2, c3, h3, c4, h4, c5, h5, c6, h6, c7, h7, h8⟩ := h
  have hopt : ∀ {β : Type} {L : List (Nat × β)} {x : Option β},
      ((∃ a ∈ L, Denotes uid info a.1 v ∧ x = some a.2) ∨
        ((¬ ∃ a ∈ L, Denotes uid info a.1 v) ∧ x = none)) →
      (x = none ↔ ∀ p ∈ L, ¬ Denotes uid info p.1 v) ∧
      (∀ k, x = some k → ∃ i, (i, k) ∈ L ∧ Denotes uid info i v) := by
    intro β L x hx
    rcases hx with ⟨a, ha, hd, rfl⟩ | ⟨hn, rfl⟩
    · refine ⟨⟨fun h => (by cases h), fun h => absurd hd (h a ha)⟩, ?_⟩
      intro k hk
      injection hk with hk
      subst hk
      exact ⟨a.1, ha, hd⟩
    · refine ⟨⟨fun _ p hp hd => hn ⟨p, hp, hd⟩, fun _ => rfl⟩, fun k hk => by cases hk⟩
  have hbool : ∀ {L : List Nat} {x : Bool},
      ((∃ a ∈ L, Denotes uid info a v ∧ x = true) ∨
        ((¬ ∃ a ∈ L, Denotes uid info a v) ∧ x = false)) →
      (x = true ↔ ∃ i ∈ L, Denotes uid info i v) := by
    intro L x hx
    rcases hx with ⟨a, ha, hd, rfl⟩ | ⟨hn, rfl⟩
    · exact ⟨fun _ => ⟨a, ha, hd⟩, fun _ => rfl⟩
    · exact ⟨fun h => (by cases h), fun h => absurd h hn⟩
  constructor
  · rw [← Option.not_isSome_iff_eq_none, add_some h8, add_some h7, add_some h6, add_some h5,
      add_some h4, add_some h3, add_some h2, add_some h1]
    simp only [LoopJ.indices, List.mem_append, List.mem_map, id, Option.isSome_none,
      Bool.false_eq_true, false_or, not_or, not_exists, not_and, or_imp, forall_and, and_assoc]
    constructor
    · rintro ⟨a1, a2, a3, a4, a5, a6, a7, a8⟩
      refine ⟨?_, a2, a3, a4, a5, a6, ?_, ?_⟩
      · rintro i ⟨p, hp, rfl⟩
        exact a1 p hp
      · rintro i ⟨p, hp, rfl⟩
        exact a7 p hp
      · rintro i ⟨p, hp, rfl⟩
        exact a8 p hp
    · rintro ⟨a1, a2, a3, a4, a5, a6, a7, a8⟩
      exact ⟨fun p hp => a1 p.1 ⟨p, hp, rfl⟩, a2, a3, a4, a5, a6, fun p hp => a7 p.1 ⟨p, hp, rfl⟩,
        fun p hp => a8 p.1 ⟨p, hp, rfl⟩⟩
  · intro e he
    have hee : e = (c v).getD {} := by rw [he]; rfl
    rw [hee]
    refine ⟨hbool ?_, hbool ?_, hbool ?_, hbool ?_, hbool ?_, ?_⟩
    · rw [add_keep Ext.priv h8 v (fun _ _ => rfl), add_keep Ext.priv h7 v (fun _ _ => rfl),
        add_keep Ext.priv h6 v (fun _ _ => rfl), add_keep Ext.priv h5 v (fun _ _ => rfl),
        add_keep Ext.priv h4 v (fun _ _ => rfl), add_keep Ext.priv h3 v (fun _ _ => rfl)]
      have := add_set Ext.priv (fun _ => true) h2 v (fun _ _ => rfl)
      rwa [add_keep Ext.priv h1 v (fun _ _ => rfl)] at this
    · rw [add_keep Ext.useAfter h8 v (fun _ _ => rfl), add_keep Ext.useAfter h7 v (fun _ _ => rfl),
        add_keep Ext.useAfter h6 v (fun _ _ => rfl), add_keep Ext.useAfter h5 v (fun _ _ => rfl),
        add_keep Ext.useAfter h4 v (fun _ _ => rfl)]
      have := add_set Ext.useAfter (fun _ => true) h3 v (fun _ _ => rfl)
      rwa [add_keep Ext.useAfter h2 v (fun _ _ => rfl), add_keep Ext.useAfter h1 v (fun _ _ => rfl)]
        at this
    · rw [add_keep Ext.write h8 v (fun _ _ => rfl), add_keep Ext.write h7 v (fun _ _ => rfl),
        add_keep Ext.write h6 v (fun _ _ => rfl), add_keep Ext.write h5 v (fun _ _ => rfl)]
      have := add_set Ext.write (fun _ => true) h4 v (fun _ _ => rfl)
      rwa [add_keep Ext.write h3 v (fun _ _ => rfl), add_keep Ext.write h2 v (fun _ _ => rfl),
        add_keep Ext.write h1 v (fun _ _ => rfl)] at this
    · rw [add_keep Ext.read h8 v (fun _ _ => rfl), add_keep Ext.read h7 v (fun _ _ => rfl),
        add_keep Ext.read h6 v (fun _ _ => rfl)]
      have := add_set Ext.read (fun _ => true) h5 v (fun _ _ => rfl)
      rwa [add_keep Ext.read h4 v (fun _ _ => rfl), add_keep Ext.read h3 v (fun _ _ => rfl),
        add_keep Ext.read h2 v (fun _ _ => rfl), add_keep Ext.read h1 v (fun _ _ => rfl)] at this
    · rw [add_keep Ext.output h8 v (fun _ _ => rfl), add_keep Ext.output h7 v (fun _ _ => rfl)]
      have := add_set Ext.output (fun _ => true) h6 v (fun _ _ => rfl)
      rwa [add_keep Ext.output h5 v (fun _ _ => rfl), add_keep Ext.output h4 v (fun _ _ => rfl),
        add_keep Ext.output h3 v (fun _ _ => rfl), add_keep Ext.output h2 v (fun _ _ => rfl),
        add_keep Ext.output h1 v (fun _ _ => rfl)] at this
    · have r1 := hopt (x := ((c v).getD {}).reduction) (L := l.reduction) (by
        rw [add_keep Ext.reduction h8 v (fun _ _ => rfl), add_keep Ext.reduction h7 v (fun _ _ => rfl),
          add_keep Ext.reduction h6 v (fun _ _ => rfl), add_keep Ext.reduction h5 v (fun _ _ => rfl),
          add_keep Ext.reduction h4 v (fun _ _ => rfl), add_keep Ext.reduction h3 v (fun _ _ => rfl),
          add_keep Ext.reduction h2 v (fun _ _ => rfl)]
        exact add_set Ext.reduction (fun a => some a.2) h1 v (fun _ _ => rfl))
      have r2 := hopt (x := ((c v).getD {}).anti) (L := l.anti) (by
        rw [add_keep Ext.anti h8 v (fun _ _ => rfl)]
        have := add_set Ext.anti (fun a => some a.2) h7 v (fun _ _ => rfl)
        rwa [add_keep Ext.anti h6 v (fun _ _ => rfl), add_keep Ext.anti h5 v (fun _ _ => rfl),
          add_keep Ext.anti h4 v (fun _ _ => rfl), add_keep Ext.anti h3 v (fun _ _ => rfl),
          add_keep Ext.anti h2 v (fun _ _ => rfl), add_keep Ext.anti h1 v (fun _ _ => rfl)] at this)
      have r3 := hopt (x := ((c v).getD {}).flow) (L := l.flow) (by
        have := add_set Ext.flow (fun a => some a.2) h8 v (fun _ _ => rfl)
        rwa [add_keep Ext.flow h7 v (fun _ _ => rfl),
          add_keep Ext.flow h6 v (fun _ _ => rfl), add_keep Ext.flow h5 v (fun _ _ => rfl),
          add_keep Ext.flow h4 v (fun _ _ => rfl), add_keep Ext.flow h3 v (fun _ _ => rfl),
          add_keep Ext.flow h2 v (fun _ _ => rfl), add_keep Ext.flow h1 v (fun _ _ => rfl)] at this)
      exact ⟨r1.1, r1.2, r2.1, r2.2, r3.1, r3.2⟩

/-! ### Loops and functions -/

/-- The first element with a given key. -/
theorem fold_first {α κ : Type} [DecidableEq κ] (key : α → Option κ)
    (f : (κ → Option Nat) → α × Nat → κ → Option Nat)
    (hf : ∀ c p k, f c p k = if key p.1 = some k then some ((c k).getD p.2) else c k)
    (l : List α) (n : Nat) (c : κ → Option Nat) (k : κ) :
    (l.zipIdx n).foldl f c k =
    ((c k).orElse fun _ => (l.findIdx? (fun a => decide (key a = some k))).map (· + n)) := by
  induction l generalizing n c with
  | nil =>
    show c k = _
    cases hc : c k <;> rfl
  | cons a l ih =>
    rw [List.zipIdx_cons, List.foldl_cons, ih, List.findIdx?_cons, hf]
    by_cases hk : key a = some k
    · cases hc : c k <;> simp [hk]
    · simp only [hk, if_false, decide_false, Bool.false_eq_true]
      cases c k with
      | some _ => rfl
      | none =>
        simp only [Option.orElse_none, Option.map_map]
        congr 1
        funext x
        simp [Nat.add_assoc, Nat.add_comm 1]

theorem getElem_findIdx {α : Type} (l : List α) (p : α → Bool) :
    (l.findIdx? p).bind (fun i => l[i]?) = l.find? p := by
  induction l with
  | nil => rfl
  | cons a l ih =>
    rw [List.findIdx?_cons, List.find?_cons]
    cases p a with
    | true => rfl
    | false =>
      simp only [Bool.false_eq_true, if_false]
      rw [← ih]
      cases l.findIdx? p <;> rfl

theorem buildLoopCache_eq (k : Pos) :
    (buildLoopCache uid info k).bind (fun i => info.loops[i]?) =
    info.loops.find? (fun l => decide (uid l.file = some k.file ∧ l.line = k.line ∧
      l.column = k.column)) := by
  have h1 : buildLoopCache uid info k =
      info.loops.findIdx? (fun l => decide (uid l.file = some k.file ∧ l.line = k.line ∧
        l.column = k.column)) := by
    unfold buildLoopCache
    rw [fold_first (fun l : LoopJ => (uid l.file).map (fun f => (⟨f, l.line, l.column⟩ : Pos)))]
    · simp only [Option.orElse_none, Nat.add_zero, Option.map_id']
      congr 1
      funext l
      cases uid l.file with
      | none => simp
      | some f => cases k; simp
    · rintro c ⟨l, i⟩ k
      cases hu : uid l.file with
      | none => simp [hu]
      | some f => simp [hu, eq_comm]
  rw [h1]
  exact getElem_findIdx _ _

theorem buildFunctionCache_eq (k : FuncKey) :
    buildFunctionCache uid info k =
    info.functions.findIdx? (fun g => decide (uid g.file = some k.file ∧ g.line = k.line ∧
      g.name = k.name)) := by
  unfold buildFunctionCache
  rw [fold_first (fun g : FuncJ => (uid g.file).map (fun f => (⟨f, g.line, g.name⟩ : FuncKey)))]
  · simp only [Option.orElse_none, Nat.add_zero, Option.map_id']
    congr 1
    funext g
    cases uid g.file with
    | none => simp
    | some f => cases k; simp
  · rintro c ⟨g, i⟩ k
    cases hu : uid g.file with
    | none => simp [hu]
    | some f => simp [hu, eq_comm]

/-- **C126.** Results for a loop are the first results of the file at the position of the loop: the
first location in its identifier. -/
theorem loop_exact {ops : List (Option SrcLoc)} {l : LoopJ} :
    findLoop uid info ops = some l ↔
      ∃ p, (ops.drop 1).findSome? id = some p ∧ (uid p.1).isSome = true ∧
        ∃ l1 l2, info.loops = l1 ++ l :: l2 ∧ LoopAt uid p l ∧ ∀ x ∈ l1, ¬ LoopAt uid p x := by
  unfold findLoop
  cases hp : (ops.drop 1).findSome? id with
  | none => simp
  | some p =>
    obtain ⟨file, line, column⟩ := p
    simp only
    cases hf : uid file with
    | none =>
      constructor
      · intro h; cases h
      · rintro ⟨p, h1, h2, _⟩
        injection h1 with h1
        subst h1
        simp [hf] at h2
    | some f =>
      simp only [buildLoopCache_eq, List.find?_eq_some_iff_append, decide_eq_true_eq,
        Bool.not_eq_true', decide_eq_false_iff_not]
      constructor
      · rintro ⟨h1, l1, l2, h2, h3⟩
        refine ⟨_, rfl, by simp [hf], l1, l2, h2, ?_, ?_⟩
        · simpa [LoopAt, hf] using h1
        · intro x hx
          simpa [LoopAt, hf] using h3 x hx
      · rintro ⟨p, h1, _, l1, l2, h2, h3, h4⟩
        injection h1 with h1
        subst h1
        refine ⟨?_, l1, l2, h2, ?_⟩
        · simpa [LoopAt, hf] using h3
        · intro x hx
          simpa [LoopAt, hf] using h4 x hx

/-- **C131.** Results for a function are found by the file, the line and the name; the linkage name is
used only if there are no results for the name. -/
theorem function_exact {s : SubProg} :
    findFunction uid info s =
      if (uid s.file).isSome then
        (info.functions.find? (fun g => decide (uid g.file = uid s.file ∧ g.line = s.line ∧
          g.name = s.name))).or
        (info.functions.find? (fun g => decide (uid g.file = uid s.file ∧ g.line = s.line ∧
          g.name = s.linkage)))
      else none := by
  unfold findFunction
  cases hf : uid s.file with
  | none => simp
  | some f =>
    simp only [Option.isSome_some, if_true, buildFunctionCache_eq, ← getElem_findIdx]
    cases h1 : info.functions.findIdx? (fun g => decide (uid g.file = some f ∧ g.line = s.line ∧
      g.name = s.name)) with
    | some i =>
      simp only
      have hi : i < info.functions.length := by
        have := List.findIdx?_eq_some_iff_getElem.1 h1
        exact this.1
      simp only [Option.bind_some]
      rw [List.getElem?_eq_getElem hi]
      rfl
    | none =>
      simp only [Option.bind_none, Option.none_or]

end

end Tsar.Extern
