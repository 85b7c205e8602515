import Verif.DeadDecls.Spec

/-
Lemmas about the traversal.
-/

namespace Tsar
namespace DeadDecls

variable {all : List Decl}

/-- Names of a declaration and its number. -/
def Decl.owns (d : Decl) : List Name := .var d.id :: d.provides

/-- Declarations and names are unique. -/
structure Uniq (all : List Decl) : Prop where
  ids : ∀ d ∈ all, ∀ d' ∈ all, d.id = d'.id → d = d'
  names : ∀ d ∈ all, ∀ d' ∈ all, ∀ n ∈ d.owns, n ∈ d'.owns → d = d'

/-- Invariant of the visitor, `seen` are visited declarations. -/
structure Inv (all : List Decl) (seen : List Nat) (v : VState) : Prop where
  sub : ∀ e ∈ v.dead, e.decl ∈ all ∧ e.decl.id ∈ seen
  typ : ∀ e ∈ v.dead, ∀ t f en, e.decl.kind = .tag t f en → lookup t v.types = some e.decl.id
  key : ∀ p ∈ v.types, ∃ d ∈ all, d.id ∈ seen ∧ Name.type p.1 ∈ d.provides

/-- Names in scope are provided by visited declarations (or by declarations outside of the function). -/
def Sc (all : List Decl) (G : List Name) (seen : List Nat) : Prop :=
  ∀ n ∈ G, ∀ d ∈ all, n ∈ d.owns → d.id ∈ seen

/-- Results of a visit. -/
structure Res (all : List Decl) (seen new : List Nat) (v v' : VState) (ns : List Name) : Prop where
  inv : Inv all (seen ++ new) v'
  mono : ∀ e ∈ v'.dead, e ∈ v.dead ∨ e.decl.id ∈ new
  clean : ∀ n ∈ ns, (∀ k, n ≠ .consts k) → ∀ d ∈ all, n ∈ d.owns →
    d.id ∈ seen ++ new ∧ ∀ e ∈ v'.dead, e.decl.id ≠ d.id

theorem Res.comp {seen new₁ new₂ : List Nat} {v v₁ v₂ : VState} {ns₁ ns₂ : List Name}
    (h₁ : Res all seen new₁ v v₁ ns₁) (h₂ : Res all (seen ++ new₁) new₂ v₁ v₂ ns₂)
    (hd : ∀ x ∈ new₂, x ∉ seen ++ new₁) : Res all seen (new₁ ++ new₂) v v₂ (ns₁ ++ ns₂) where
  inv := by rw [← List.append_assoc]; exact h₂.inv
  mono := by
    intro e he
    rcases h₂.mono e he with h | h
    · rcases h₁.mono e h with h | h
      · exact .inl h
      · exact .inr (List.mem_append_left _ h)
    · exact .inr (List.mem_append_right _ h)
  clean := by
    intro n hn hk d hda hnd
    rw [← List.append_assoc]
    rcases List.mem_append.1 hn with hn | hn
    · obtain ⟨h3, h4⟩ := h₁.clean n hn hk d hda hnd
      refine ⟨List.mem_append_left _ h3, fun e he => ?_⟩
      rcases h₂.mono e he with h | h
      · exact h4 e h
      · intro heq
        exact hd _ h (heq ▸ h3)
    · exact h₂.clean n hn hk d hda hnd

theorem Res.refl {seen : List Nat} {v : VState} (h : Inv all seen v) : Res all seen [] v v [] where
  inv := by simpa using h
  mono := fun _ he => .inl he
  clean := by intro n hn; cases hn

theorem lookup_mem {t d : Nat} {l : List (Nat × Nat)} (h : lookup t l = some d) : (t, d) ∈ l := by
  induction l with
  | nil => cases h
  | cons p l ih =>
    rw [lookup] at h
    split at h
    · rename_i hp
      cases h
      rw [← hp]
      exact List.mem_cons_self
    · exact List.mem_cons_of_mem _ (ih h)

theorem lookup_filter {t t' : Nat} (h : t' ≠ t) (l : List (Nat × Nat)) :
    lookup t' (l.filter fun p => !(p.1 == t)) = lookup t' l := by
  induction l with
  | nil => rfl
  | cons p l ih =>
    by_cases hp : p.1 = t
    · have : ¬ p.1 = t' := fun hh => h (by rw [← hh, hp])
      simp only [List.filter_cons, hp, beq_self_eq_true, Bool.not_true, Bool.false_eq_true, if_false, lookup, ih]
      rw [hp] at this
      simp [this]
    · simp [hp, lookup, ih]

/-- What happens with members of `mDeadDecls` when a type is visited. -/
theorem typeLoc_dead (v : VState) (t : Nat) :
    (lookup t v.types = none ∧ v.typeLoc t = v) ∨ ∃ d, lookup t v.types = some d ∧
      v.typeLoc t = { v.erase d with types := v.types.filter fun p => !(p.1 == t) } := by
  unfold VState.typeLoc
  cases h : lookup t v.types with
  | none => exact .inl ⟨rfl, rfl⟩
  | some d => exact .inr ⟨d, rfl, rfl⟩

theorem mem_erase {v : VState} {d : Nat} {e : Entry} : e ∈ (v.erase d).dead ↔ e ∈ v.dead ∧ e.decl.id ≠ d := by
  simp [VState.erase, List.mem_filter]

theorem typeLoc_sub {v : VState} {t : Nat} {e : Entry} (h : e ∈ (v.typeLoc t).dead) : e ∈ v.dead := by
  rcases typeLoc_dead v t with ⟨-, h1⟩ | ⟨d, -, h1⟩
  · rw [h1] at h; exact h
  · rw [h1] at h; exact (mem_erase.1 h).1

theorem use_sub {v : VState} {n : Name} {e : Entry} (h : e ∈ (v.use n).dead) : e ∈ v.dead := by
  cases n with
  | var d => exact (mem_erase.1 h).1
  | type t => exact typeLoc_sub h
  | complete t => exact typeLoc_sub h
  | consts d => exact h

theorem Inv.erase {seen : List Nat} {v : VState} (h : Inv all seen v) (d : Nat) : Inv all seen (v.erase d) where
  sub := fun e he => h.sub e (mem_erase.1 he).1
  typ := fun e he => h.typ e (mem_erase.1 he).1
  key := h.key

theorem Inv.typeLoc {seen : List Nat} {v : VState} (h : Inv all seen v) (t : Nat) : Inv all seen (v.typeLoc t) := by
  rcases typeLoc_dead v t with ⟨-, h1⟩ | ⟨d, h2, h1⟩
  · rw [h1]; exact h
  · rw [h1]
    refine ⟨fun e he => h.sub e (mem_erase.1 he).1, fun e he t' f en hk => ?_,
      fun p hp => h.key p (List.mem_filter.1 hp).1⟩
    have h3 := mem_erase.1 he
    have h4 := h.typ e h3.1 t' f en hk
    by_cases ht : t' = t
    · subst ht
      rw [h2] at h4
      exact absurd (Option.some.inj h4).symm h3.2
    · exact (lookup_filter ht _).trans h4

theorem Inv.use {seen : List Nat} {v : VState} (h : Inv all seen v) (n : Name) : Inv all seen (v.use n) := by
  cases n with
  | var d => exact h.erase d
  | type t => exact h.typeLoc t
  | complete t => exact h.typeLoc t
  | consts d => exact h

/-- The type of a declaration which provides a name of a type. -/
theorem provides_type {d : Decl} {t : Nat} (h : Name.type t ∈ d.provides ∨ Name.complete t ∈ d.provides) :
    ∃ f en, d.kind = .tag t f en := by
  unfold Decl.provides at h
  cases hk : d.kind with
  | var s => rw [hk] at h; simp at h
  | tag t' f en =>
    rw [hk] at h
    cases f <;> cases en <;> simp at h <;> exact ⟨_, _, by rw [h]⟩

theorem provides_var {d : Decl} {x : Nat} (h : Name.var x ∈ d.provides) : x = d.id := by
  unfold Decl.provides at h
  cases hk : d.kind with
  | var s => rw [hk] at h; simpa using h
  | tag t' f en =>
    rw [hk] at h
    cases f <;> cases en <;> simp at h

theorem owns_var {d : Decl} {x : Nat} (h : Name.var x ∈ d.owns) : x = d.id := by
  rcases List.mem_cons.1 h with h | h
  · cases h
    rfl
  · exact provides_var h

theorem typeLoc_erases (hu : Uniq all) {seen : List Nat} {v : VState} (h : Inv all seen v) {d : Decl} (hd : d ∈ all)
    {t : Nat} {f en : Bool} (hk : d.kind = .tag t f en) : ∀ e ∈ (v.typeLoc t).dead, e.decl.id ≠ d.id := by
  intro e he heq
  have h1 := typeLoc_sub he
  have h2 := hu.ids _ (h.sub e h1).1 _ hd heq
  have h3 := h.typ e h1 t f en (by rw [h2]; exact hk)
  rcases typeLoc_dead v t with ⟨h4, -⟩ | ⟨x, h4, h5⟩
  · rw [h4] at h3; cases h3
  · rw [h4] at h3
    rw [h5] at he
    exact (mem_erase.1 he).2 (Option.some.inj h3).symm

theorem use_erases (hu : Uniq all) {seen : List Nat} {v : VState} (h : Inv all seen v) {d : Decl} (hd : d ∈ all)
    {n : Name} (hn : n ∈ d.owns) (hc : ∀ k, n ≠ .consts k) : ∀ e ∈ (v.use n).dead, e.decl.id ≠ d.id := by
  cases n with
  | var x =>
    intro e he
    rw [← owns_var hn]
    exact (mem_erase.1 he).2
  | type t =>
    replace hn : Name.type t ∈ d.provides := (List.mem_cons.1 hn).resolve_left (by simp)
    obtain ⟨f, en, hk⟩ := provides_type (.inl hn)
    exact typeLoc_erases hu h hd hk
  | complete t =>
    replace hn : Name.complete t ∈ d.provides := (List.mem_cons.1 hn).resolve_left (by simp)
    obtain ⟨f, en, hk⟩ := provides_type (.inr hn)
    exact typeLoc_erases hu h hd hk
  | consts k => exact absurd rfl (hc k)

theorem use_res (hu : Uniq all) {seen : List Nat} {v : VState} (h : Inv all seen v) {n : Name}
    (hs : ∀ d ∈ all, n ∈ d.owns → d.id ∈ seen) : Res all seen [] v (v.use n) [n] where
  inv := by simpa using h.use n
  mono := fun _ he => .inl (use_sub he)
  clean := by
    intro m hm hc d hd hmd
    rw [List.mem_singleton.1 hm] at hc hmd
    exact ⟨by simpa using hs d hd hmd, use_erases hu h hd hmd hc⟩

theorem uses_res (hu : Uniq all) {seen : List Nat} {ns : List Name} {v : VState} (h : Inv all seen v)
    (hs : ∀ n ∈ ns, ∀ d ∈ all, n ∈ d.owns → d.id ∈ seen) : Res all seen [] v (v.uses ns) ns := by
  induction ns generalizing v with
  | nil => exact .refl h
  | cons n ns ih =>
    have h1 := use_res hu h (hs n List.mem_cons_self)
    have h2 := ih (h.use n) fun m hm => hs m (List.mem_cons_of_mem _ hm)
    have h3 : Res all (seen ++ []) [] (v.use n) ((v.use n).uses ns) ns := by simpa using h2
    exact h1.comp h3 (by intro x hx; cases hx)

/-- A new declaration. -/
theorem declare_res (hu : Uniq all) {seen : List Nat} {v : VState} (h : Inv all seen v) {d : Decl} (hd : d ∈ all)
    (hn : d.id ∉ seen) (param mac : Bool) : Res all seen [d.id] v (v.declare param mac d) [] := by
  have hdead : (v.declare param mac d).dead = ⟨d, param, mac⟩ :: v.dead := by
    unfold VState.declare
    cases d.kind with
    | var s => rfl
    | tag t f en => dsimp only; split <;> rfl
  refine ⟨⟨?_, ?_, ?_⟩, ?_, by intro n hn; cases hn⟩
  · intro e he
    rw [hdead] at he
    rcases List.mem_cons.1 he with rfl | he
    · exact ⟨hd, by simp⟩
    · exact ⟨(h.sub e he).1, List.mem_append_left _ (h.sub e he).2⟩
  · intro e he t f en hk
    rw [hdead] at he
    have hold : ∀ t f en, d.kind = .tag t f en → lookup t v.types = none := by
      intro t f en hk
      cases hl : lookup t v.types with
      | none => rfl
      | some x =>
        obtain ⟨d', h1, h2, h3⟩ := h.key _ (lookup_mem hl)
        have : d = d' := hu.names d hd d' h1 (.type t)
          (List.mem_cons_of_mem _ (by rw [Decl.provides, hk]; exact List.mem_cons_self)) (List.mem_cons_of_mem _ h3)
        exact absurd (this ▸ h2) hn
    have htyp : ∀ t f en, d.kind = .tag t f en → (v.declare param mac d).types = (t, d.id) :: v.types := by
      intro t f en hk
      simp [VState.declare, hk, hold t f en hk]
    rcases List.mem_cons.1 he with rfl | he
    · rw [htyp t f en hk]
      simp [lookup]
    · have h1 := h.typ e he t f en hk
      cases hkd : d.kind with
      | var s => simpa [VState.declare, hkd] using h1
      | tag t' f' en' =>
        rw [htyp t' f' en' hkd, lookup]
        have : t' ≠ t := by
          rintro rfl
          rw [hold _ f' en' hkd] at h1
          cases h1
        simp [this, h1]
  · intro p hp
    have : p ∈ v.types ∨ ∃ f en, d.kind = .tag p.1 f en := by
      unfold VState.declare at hp
      cases hk : d.kind with
      | var s => rw [hk] at hp; exact .inl hp
      | tag t f en =>
        rw [hk] at hp
        dsimp only at hp
        split at hp
        · exact .inl hp
        · rcases List.mem_cons.1 hp with rfl | hp
          · exact .inr ⟨f, en, rfl⟩
          · exact .inl hp
    rcases this with hp | ⟨f, en, hk⟩
    · obtain ⟨d', h1, h2, h3⟩ := h.key p hp
      exact ⟨d', h1, List.mem_append_left _ h2, h3⟩
    · exact ⟨d, hd, by simp, by rw [Decl.provides, hk]; exact List.mem_cons_self⟩
  · intro e he
    rw [hdead] at he
    rcases List.mem_cons.1 he with rfl | he
    · exact .inr (by simp)
    · exact .inl he

theorem Sc.decl (hu : Uniq all) {G : List Name} {seen : List Nat} (h : Sc all G seen) {d : Decl} (hd : d ∈ all) :
    Sc all (G ++ d.provides) (seen ++ [d.id]) := by
  intro n hn d' hd' hnd
  rcases List.mem_append.1 hn with hn | hn
  · exact List.mem_append_left _ (h n hn d' hd' hnd)
  · rw [hu.names d' hd' d hd n hnd (List.mem_cons_of_mem _ hn)]
    simp

theorem Sc.mono {G : List Name} {seen seen' : List Nat} (h : Sc all G seen) (hs : ∀ x ∈ seen, x ∈ seen') :
    Sc all G seen' := fun n hn d hd hnd => hs _ (h n hn d hd hnd)

theorem visitDecl_res (hu : Uniq all) {G : List Name} {seen : List Nat} {v : VState} (h : Inv all seen v)
    (hs : Sc all G seen) {d : Decl} (hd : d ∈ all) (hn : d.id ∉ seen) (hok : ∀ n ∈ d.names, n ∈ G ++ d.provides)
    (param mac : Bool) : Res all seen [d.id] v (visitDecl param mac v d) d.names := by
  have h1 := declare_res hu h hd hn param mac
  have h2 := uses_res (ns := d.names) hu h1.inv fun n hm => (hs.decl hu hd) n (hok n hm)
  have h3 := h1.comp h2 (by intro x hx; cases hx)
  simpa [visitDecl] using h3

theorem visitFold_res (hu : Uniq all) {ds : List Decl} {G : List Name} {seen : List Nat} {v : VState}
    (h : Inv all seen v) (hs : Sc all G seen) (hd : ∀ d ∈ ds, d ∈ all) (hnd : (ds.map (·.id)).Nodup)
    (hn : ∀ d ∈ ds, d.id ∉ seen) (hok : DeclsOk G ds) (param mac : Bool) :
    Res all seen (ds.map (·.id)) v (ds.foldl (visitDecl param mac) v) (ds.flatMap Decl.names) ∧
      Sc all (afterDecls G ds) (seen ++ ds.map (·.id)) := by
  induction ds generalizing v G seen with
  | nil => exact ⟨.refl h, by simpa [afterDecls] using hs⟩
  | cons d ds ih =>
    obtain ⟨hok1, hok2⟩ := hok
    have hda := hd d List.mem_cons_self
    have hdn := hn d List.mem_cons_self
    have hnd' := List.nodup_cons.1 hnd
    have h1 := visitDecl_res hu h hs hda hdn hok1 param mac
    have h2 := hs.decl hu hda
    have hn' : ∀ x ∈ ds, x.id ∉ seen ++ [d.id] := by
      intro x hx hm
      rcases List.mem_append.1 hm with hm | hm
      · exact hn x (List.mem_cons_of_mem _ hx) hm
      · rw [List.mem_singleton] at hm
        exact hnd'.1 (List.mem_map.2 ⟨x, hx, hm⟩)
    obtain ⟨h3, h4⟩ := ih h1.inv h2 (fun x hx => hd x (List.mem_cons_of_mem _ hx)) hnd'.2 hn' hok2
    refine ⟨?_, ?_⟩
    · have := h1.comp h3 (by
        intro x hx
        obtain ⟨y, hy, rfl⟩ := List.mem_map.1 hx
        exact hn' y hy)
      simpa using this
    · simpa [afterDecls, List.append_assoc] using h4

theorem Inv.multi {seen : List Nat} {v : VState} (h : Inv all seen v) (m : List (List Nat)) :
    Inv all seen { v with multi := m } := ⟨h.sub, h.typ, h.key⟩

theorem visitDecls_res (hu : Uniq all) {ds : List Decl} {G : List Name} {seen : List Nat} {v : VState}
    (h : Inv all seen v) (hs : Sc all G seen) (hd : ∀ d ∈ ds, d ∈ all) (hnd : (ds.map (·.id)).Nodup)
    (hn : ∀ d ∈ ds, d.id ∉ seen) (hok : DeclsOk G ds) (param mac : Bool) :
    Res all seen (ds.map (·.id)) v (visitDecls param mac v ds) (ds.flatMap Decl.names) ∧
      Sc all (afterDecls G ds) (seen ++ ds.map (·.id)) := by
  unfold visitDecls
  split
  · exact visitFold_res hu h hs hd hnd hn hok param mac
  · have := visitFold_res hu (h.multi (ds.map (·.id) :: v.multi)) hs hd hnd hn hok param mac
    exact ⟨⟨this.1.inv, this.1.mono, this.1.clean⟩, this.2⟩

/-- Names in a marked statement except targets of marked assignments. -/
def readsM : Stmt (Option Nat) → List Name
  | .nop => []
  | .seq a b => readsM a ++ readsM b
  | .expr none e => e.names
  | .expr (some _) e => stmtReads e
  | .decls ds => ds.flatMap Decl.names
  | .block _ s => readsM s
  | .ite c a b => c.names ++ (readsM a ++ readsM b)
  | .loop c s => c.names ++ readsM s
  | .loopFor _ ds c i s => ds.flatMap Decl.names ++ (c.names ++ (i.names ++ readsM s))
  | .each d a s => .var a :: (d.toList.flatMap Decl.names ++ readsM s)
  | .ret e => e.names
  | .brk => []
  | .cont => []

/-- Marked assignments. -/
def marks : Stmt (Option Nat) → List (Nat × Expr)
  | .seq a b => marks a ++ marks b
  | .expr (some d) e => [(d, e)]
  | .block _ s => marks s
  | .ite _ a b => marks a ++ marks b
  | .loop _ s => marks s
  | .loopFor _ _ _ _ s => marks s
  | .each _ _ s => marks s
  | _ => []

theorem visitExpr_spec (inBlock : Bool) (v : VState) (e : Expr) :
    ((visitExpr inBlock v e).1 = none ∧ (visitExpr inBlock v e).2 = v.uses e.names) ∨
    ∃ d r, e = .assign d r ∧ sideEffect r = false ∧ (visitExpr inBlock v e).1 = some d ∧
      (visitExpr inBlock v e).2 = v.uses r.names := by
  unfold visitExpr
  cases e with
  | assign d r =>
    dsimp only
    split
    · rename_i h
      simp only [Bool.and_eq_true, Bool.not_eq_true'] at h
      exact .inr ⟨d, r, rfl, h.1.2, rfl, rfl⟩
    · exact .inl ⟨rfl, rfl⟩
  | _ => exact .inl ⟨rfl, rfl⟩

theorem after_visit {G : List Name} (inBlock mac : Bool) (v : VState) (s : Stmt Unit) :
    after G (visit inBlock mac v s).1 = after G s := by
  induction s generalizing v G inBlock mac with
  | seq a b iha ihb => simp only [visit, after, iha, ihb]
  | each d a s => cases d <;> rfl
  | _ => rfl

theorem marks_visit (inBlock mac : Bool) (v : VState) (s : Stmt Unit) :
    ∀ p ∈ marks (visit inBlock mac v s).1, ∃ r, p.2 = .assign p.1 r ∧ sideEffect r = false ∧ (p.1, r) ∈ assigns s := by
  induction s generalizing v inBlock mac with
  | nop => intro p hp; cases hp
  | seq a b iha ihb =>
    intro p hp
    rcases List.mem_append.1 hp with hp | hp
    · obtain ⟨r, h1, h2, h3⟩ := iha _ _ _ p hp
      exact ⟨r, h1, h2, List.mem_append_left _ h3⟩
    · obtain ⟨r, h1, h2, h3⟩ := ihb _ _ _ p hp
      exact ⟨r, h1, h2, List.mem_append_right _ h3⟩
  | expr m e =>
    intro p hp
    rcases visitExpr_spec inBlock v e with ⟨h1, -⟩ | ⟨d, r, he, hr, h1, -⟩
    · rw [visit, h1] at hp; cases hp
    · rw [visit, h1, marks, List.mem_singleton] at hp
      subst hp he
      exact ⟨r, rfl, hr, List.mem_singleton.2 rfl⟩
  | decls ds => intro p hp; cases hp
  | block m s ih => exact ih _ _ _
  | ite c a b iha ihb =>
    intro p hp
    rcases List.mem_append.1 hp with hp | hp
    · obtain ⟨r, h1, h2, h3⟩ := iha _ _ _ p hp
      exact ⟨r, h1, h2, List.mem_append_left _ h3⟩
    · obtain ⟨r, h1, h2, h3⟩ := ihb _ _ _ p hp
      exact ⟨r, h1, h2, List.mem_append_right _ h3⟩
  | loop c s ih => exact ih _ _ _
  | loopFor m ds c i s ih => exact ih _ _ _
  | each d a s ih => cases d <;> exact ih _ _ _
  | ret e => intro p hp; cases hp
  | brk => intro p hp; cases hp
  | cont => intro p hp; cases hp

/-- What is known after a visit of a statement. -/
theorem visit_res (hu : Uniq all) {s : Stmt Unit} {G : List Name} {seen : List Nat} {v : VState}
    (h : Inv all seen v) (hs : Sc all G seen) (hd : ∀ d ∈ declsOf s, d ∈ all) (hnd : ((declsOf s).map (·.id)).Nodup)
    (hn : ∀ d ∈ declsOf s, d.id ∉ seen) (hok : Ok G s) (inBlock mac : Bool) :
    Res all seen ((declsOf s).map (·.id)) v (visit inBlock mac v s).2 (readsM (visit inBlock mac v s).1) ∧
      Sc all (after G s) (seen ++ (declsOf s).map (·.id)) := by
  have hsub : ∀ {G : List Name} {seen new : List Nat}, Sc all G seen → Sc all G (seen ++ new) := fun hs =>
    hs.mono fun _ hx => List.mem_append_left _ hx
  have hfresh : ∀ {a b : List Decl} {seen : List Nat}, ((a ++ b).map (·.id)).Nodup →
      (∀ d ∈ a ++ b, d.id ∉ seen) → ∀ x ∈ b, x.id ∉ seen ++ a.map (·.id) := by
    intro a b seen hnd hn x hx hm
    rw [List.map_append, List.nodup_append] at hnd
    rcases List.mem_append.1 hm with hm | hm
    · exact hn x (List.mem_append_right _ hx) hm
    · exact hnd.2.2 _ hm _ (List.mem_map_of_mem hx) rfl
  have hfresh' : ∀ {a b : List Decl} {seen : List Nat}, ((a ++ b).map (·.id)).Nodup →
      (∀ d ∈ a ++ b, d.id ∉ seen) → ∀ x ∈ b.map (·.id), x ∉ seen ++ a.map (·.id) := by
    intro a b seen hnd hn x hx
    obtain ⟨y, hy, rfl⟩ := List.mem_map.1 hx
    exact hfresh hnd hn y hy
  induction s generalizing v G seen inBlock mac with
  | nop => exact ⟨.refl h, by simpa [after, declsOf] using hs⟩
  | seq a b iha ihb =>
    obtain ⟨hoa, hob⟩ := hok
    have hnd' := hnd
    simp only [declsOf, List.map_append, List.nodup_append] at hnd'
    obtain ⟨ha, hsa⟩ := iha h hs (fun d hx => hd d (List.mem_append_left _ hx)) hnd'.1
      (fun d hx => hn d (List.mem_append_left _ hx)) hoa inBlock mac
    obtain ⟨hb, hsb⟩ := ihb ha.inv hsa (fun d hx => hd d (List.mem_append_right _ hx)) hnd'.2.1
      (hfresh hnd hn) hob inBlock mac
    refine ⟨?_, ?_⟩
    · simpa [declsOf, visit, readsM] using ha.comp hb (hfresh' hnd hn)
    · simpa [declsOf, after] using hsb
  | expr m e =>
    refine ⟨?_, by simpa [after, declsOf] using hs⟩
    rcases visitExpr_spec inBlock v e with ⟨h1, h2⟩ | ⟨d, r, he, hr, h1, h2⟩
    · simp only [visit, h1, h2, readsM, declsOf, List.map_nil]
      exact uses_res hu h fun n hm => hs n (hok n hm)
    · simp only [visit, h1, h2, readsM, declsOf, List.map_nil]
      subst he
      exact uses_res hu h fun n hm => hs n (hok n (List.mem_cons_of_mem _ hm))
  | decls ds => exact visitDecls_res hu h hs hd hnd hn hok false mac
  | block m s ih =>
    exact ⟨(ih h hs hd hnd hn hok true m).1, hsub hs⟩
  | ite c a b iha ihb =>
    obtain ⟨hoc, hoa, hob⟩ := hok
    have hc := uses_res hu h fun n hm => hs n (hoc n hm)
    have hnd' := hnd
    simp only [declsOf, List.map_append, List.nodup_append] at hnd'
    have hinv : Inv all seen (v.uses c.names) := by simpa using hc.inv
    obtain ⟨ha, -⟩ := iha hinv hs (fun d hx => hd d (List.mem_append_left _ hx)) hnd'.1
      (fun d hx => hn d (List.mem_append_left _ hx)) hoa false mac
    obtain ⟨hb, -⟩ := ihb ha.inv (hsub hs) (fun d hx => hd d (List.mem_append_right _ hx)) hnd'.2.1
      (hfresh hnd hn) hob false mac
    refine ⟨?_, hsub hs⟩
    have hab := ha.comp hb (hfresh' hnd hn)
    have := hc.comp (by simpa using hab) (by
      intro x hx
      rw [List.append_nil]
      rcases List.mem_append.1 hx with hx | hx <;> obtain ⟨y, hy, rfl⟩ := List.mem_map.1 hx
      · exact hn y (List.mem_append_left _ hy)
      · exact hn y (List.mem_append_right _ hy))
    simpa [declsOf, visit, readsM] using this
  | loop c s ih =>
    obtain ⟨hoc, hos⟩ := hok
    have hc := uses_res hu h fun n hm => hs n (hoc n hm)
    have hinv : Inv all seen (v.uses c.names) := by simpa using hc.inv
    obtain ⟨ha, -⟩ := ih hinv hs hd hnd hn hos false mac
    refine ⟨?_, hsub hs⟩
    have := hc.comp (by simpa using ha) (by
      intro x hx
      rw [List.append_nil]
      obtain ⟨y, hy, rfl⟩ := List.mem_map.1 hx
      exact hn y hy)
    simpa [declsOf, visit, readsM] using this
  | loopFor m ds c i s ih =>
    obtain ⟨hod, hoc, hos⟩ := hok
    have hnd' := hnd
    simp only [declsOf, List.map_append, List.nodup_append] at hnd'
    obtain ⟨h1, hs1⟩ := visitDecls_res hu h hs (fun d hx => hd d (List.mem_append_left _ hx)) hnd'.1
      (fun d hx => hn d (List.mem_append_left _ hx)) hod false m
    have h2 := uses_res hu h1.inv fun n hm => hs1 n (hoc n (List.mem_append_left _ hm))
    have h3 := uses_res hu h2.inv fun n hm => by
      simpa using hs1 n (hoc n (List.mem_append_right _ hm))
    obtain ⟨h4, -⟩ := ih h3.inv (by simpa using hs1) (fun d hx => hd d (List.mem_append_right _ hx)) hnd'.2.1
      (by simpa using hfresh hnd hn) hos false m
    refine ⟨?_, hsub hs⟩
    have h34 := h3.comp h4 (by simpa using hfresh' hnd hn)
    have h24 := h2.comp (by simpa using h34) (by simpa using hfresh' hnd hn)
    have h14 := h1.comp (by simpa using h24) (by simpa using hfresh' hnd hn)
    simpa [declsOf, visit, readsM] using h14
  | each d a s ih =>
    cases d with
    | none => exact absurd hok id
    | some d =>
      obtain ⟨hoa, hod, hos⟩ := hok
      have h1 := use_res hu h (hs (.var a) hoa)
      have hinv : Inv all seen (v.use (.var a)) := by simpa using h1.inv
      have hda : d ∈ all := hd d List.mem_cons_self
      have hdn : d.id ∉ seen := hn d List.mem_cons_self
      have h2 := visitDecl_res hu hinv hs hda hdn hod false mac
      have hnd' := List.nodup_cons.1 hnd
      have hf : ∀ x ∈ declsOf s, x.id ∉ seen ++ [d.id] := hfresh (a := [d]) hnd hn
      obtain ⟨h3, -⟩ := ih h2.inv (hs.decl hu hda) (fun x hx => hd x (List.mem_cons_of_mem _ hx)) hnd'.2 hf hos
        false mac
      refine ⟨?_, hsub hs⟩
      have h23 := h2.comp h3 (hfresh' (a := [d]) hnd hn)
      have h13 := h1.comp (by simpa using h23) (by
        intro x hx
        rw [List.append_nil]
        have hx' : x ∈ (d :: declsOf s).map (·.id) := hx
        obtain ⟨y, hy, rfl⟩ := List.mem_map.1 hx'
        exact hn y hy)
      simpa [declsOf, visit, readsM] using h13
  | ret e =>
    refine ⟨?_, by simpa [after, declsOf] using hs⟩
    exact uses_res hu h fun n hm => hs n (hok n hm)
  | brk => exact ⟨.refl h, by simpa [after, declsOf] using hs⟩
  | cont => exact ⟨.refl h, by simpa [after, declsOf] using hs⟩

/-! ### Entries and groups -/

theorem declare_dead (v : VState) (param mac : Bool) (d : Decl) :
    (v.declare param mac d).dead = ⟨d, param, mac⟩ :: v.dead := by
  unfold VState.declare
  cases d.kind with
  | var s => rfl
  | tag t f en => dsimp only; split <;> rfl

theorem uses_sub {ns : List Name} {v : VState} {e : Entry} (h : e ∈ (v.uses ns).dead) : e ∈ v.dead := by
  induction ns generalizing v with
  | nil => exact h
  | cons n ns ih => exact use_sub (ih (v := v.use n) h)

theorem visitFold_entries {ds : List Decl} {v : VState} {param mac : Bool} {e : Entry}
    (h : e ∈ (ds.foldl (visitDecl param mac) v).dead) :
    e ∈ v.dead ∨ e.param = param ∧ e.mac = mac ∧ e.decl ∈ ds := by
  induction ds generalizing v with
  | nil => exact .inl h
  | cons d ds ih =>
    rcases ih (v := visitDecl param mac v d) h with h1 | ⟨h1, h2, h3⟩
    · have h2 := uses_sub h1
      rw [declare_dead] at h2
      rcases List.mem_cons.1 h2 with rfl | h2
      · exact .inr ⟨rfl, rfl, List.mem_cons_self⟩
      · exact .inl h2
    · exact .inr ⟨h1, h2, List.mem_cons_of_mem _ h3⟩

theorem visitDecls_entries {ds : List Decl} {v : VState} {param mac : Bool} {e : Entry}
    (h : e ∈ (visitDecls param mac v ds).dead) : e ∈ v.dead ∨ e.param = param ∧ e.mac = mac ∧ e.decl ∈ ds := by
  unfold visitDecls at h
  split at h
  · exact visitFold_entries h
  · exact visitFold_entries (v := { v with multi := ds.map (·.id) :: v.multi }) h

/-- New members are declarations of the statement. -/
theorem visit_entries {s : Stmt Unit} {v : VState} {inBlock mac : Bool} {e : Entry}
    (h : e ∈ (visit inBlock mac v s).2.dead) :
    e ∈ v.dead ∨ e.param = false ∧ (e.mac = false → e.decl ∈ noMacro mac s) := by
  induction s generalizing v inBlock mac with
  | nop => exact .inl h
  | seq a b iha ihb =>
    rcases ihb h with h | ⟨h1, h2⟩
    · rcases iha h with h | ⟨h1, h2⟩
      · exact .inl h
      · exact .inr ⟨h1, fun hm => List.mem_append_left _ (h2 hm)⟩
    · exact .inr ⟨h1, fun hm => List.mem_append_right _ (h2 hm)⟩
  | expr m e =>
    rcases visitExpr_spec inBlock v e with ⟨-, h2⟩ | ⟨d, r, -, -, -, h2⟩
    · rw [visit, h2] at h; exact .inl (uses_sub h)
    · rw [visit, h2] at h; exact .inl (uses_sub h)
  | decls ds =>
    rcases visitDecls_entries h with h | ⟨h1, h2, h3⟩
    · exact .inl h
    · exact .inr ⟨h1, fun hm => by rw [h2] at hm; simpa [noMacro, hm] using h3⟩
  | block m s ih => exact ih h
  | ite c a b iha ihb =>
    rcases ihb h with h | ⟨h1, h2⟩
    · rcases iha h with h | ⟨h1, h2⟩
      · exact .inl (uses_sub h)
      · exact .inr ⟨h1, fun hm => List.mem_append_left _ (h2 hm)⟩
    · exact .inr ⟨h1, fun hm => List.mem_append_right _ (h2 hm)⟩
  | loop c s ih =>
    rcases ih h with h | h
    · exact .inl (uses_sub h)
    · exact .inr h
  | loopFor m ds c i s ih =>
    rcases ih h with h | ⟨h1, h2⟩
    · rcases visitDecls_entries (uses_sub (uses_sub h)) with h | ⟨h1, h2, h3⟩
      · exact .inl h
      · exact .inr ⟨h1, fun hm => List.mem_append_left _ (by rw [h2] at hm; simpa [hm] using h3)⟩
    · exact .inr ⟨h1, fun hm => List.mem_append_right _ (h2 hm)⟩
  | each d a s ih =>
    cases d with
    | none =>
      rcases ih h with h | ⟨h1, h2⟩
      · exact .inl (use_sub h)
      · exact .inr ⟨h1, fun hm => List.mem_append_right _ (h2 hm)⟩
    | some d =>
      rcases ih h with h | ⟨h1, h2⟩
      · have h3 := uses_sub h
        rw [declare_dead] at h3
        rcases List.mem_cons.1 h3 with rfl | h3
        · exact .inr ⟨rfl, fun hm => List.mem_append_left _ (by simp at hm; simp [hm])⟩
        · exact .inl (use_sub h3)
      · exact .inr ⟨h1, fun hm => List.mem_append_right _ (h2 hm)⟩
  | ret e => exact .inl (uses_sub h)
  | brk => exact .inl h
  | cont => exact .inl h

theorem use_multi (v : VState) (n : Name) : (v.use n).multi = v.multi := by
  cases n with
  | type t => rcases typeLoc_dead v t with ⟨-, h⟩ | ⟨d, -, h⟩ <;> (show (v.typeLoc t).multi = _; rw [h]; try rfl)
  | complete t => rcases typeLoc_dead v t with ⟨-, h⟩ | ⟨d, -, h⟩ <;> (show (v.typeLoc t).multi = _; rw [h]; try rfl)
  | _ => rfl

theorem uses_multi (v : VState) (ns : List Name) : (v.uses ns).multi = v.multi := by
  induction ns generalizing v with
  | nil => rfl
  | cons n ns ih => exact (ih (v.use n)).trans (use_multi v n)

theorem declare_multi (v : VState) (param mac : Bool) (d : Decl) : (v.declare param mac d).multi = v.multi := by
  unfold VState.declare
  cases d.kind with
  | var s => rfl
  | tag t f en => dsimp only; split <;> rfl

theorem visitDecl_multi (v : VState) (param mac : Bool) (d : Decl) : (visitDecl param mac v d).multi = v.multi := by
  rw [visitDecl, uses_multi, declare_multi]

theorem visitFold_multi (param mac : Bool) (ds : List Decl) (v : VState) :
    (ds.foldl (visitDecl param mac) v).multi = v.multi := by
  induction ds generalizing v with
  | nil => rfl
  | cons d ds ih => exact (ih _).trans (visitDecl_multi ..)

/-- Groups of declarations. -/
def bigGroups {M : Type} (s : Stmt M) : List (List Nat) :=
  ((groups s).filter fun g => !decide (g.length = 1)).map fun g => g.map (·.id)

theorem visitDecls_multi (param mac : Bool) (ds : List Decl) (v : VState) :
    (visitDecls param mac v ds).multi =
      (([ds].filter fun g => !decide (g.length = 1)).map fun g => g.map (·.id)).reverse ++ v.multi := by
  unfold visitDecls
  split
  · rename_i h
    simp [visitFold_multi, h]
  · rename_i h
    rw [visitFold_multi]
    simp [h]

theorem visit_multi (inBlock mac : Bool) (v : VState) (s : Stmt Unit) :
    (visit inBlock mac v s).2.multi = (bigGroups s).reverse ++ v.multi := by
  induction s generalizing v inBlock mac with
  | nop => rfl
  | seq a b iha ihb => simp [visit, iha, ihb, bigGroups, groups]
  | expr m e =>
    rcases visitExpr_spec inBlock v e with ⟨-, h2⟩ | ⟨d, r, -, -, -, h2⟩
    · rw [visit, h2]; exact uses_multi ..
    · rw [visit, h2]; exact uses_multi ..
  | decls ds => exact visitDecls_multi ..
  | block m s ih => exact ih ..
  | ite c a b iha ihb => simp [visit, iha, ihb, bigGroups, groups, uses_multi]
  | loop c s ih => simp [visit, ih, bigGroups, groups, uses_multi]
  | loopFor m ds c i s ih =>
    rw [visit]
    dsimp only
    rw [ih, uses_multi, uses_multi, visitDecls_multi]
    have : bigGroups (.loopFor m ds c i s : Stmt Unit) =
        (([ds].filter fun g => !decide (g.length = 1)).map fun g => g.map (·.id)) ++ bigGroups s := by
      rw [bigGroups, groups, show (ds :: groups s) = [ds] ++ groups s from rfl, List.filter_append, List.map_append]
      rfl
    rw [this, List.reverse_append, List.append_assoc]
  | each d a s ih =>
    cases d with
    | none => simp [visit, ih, bigGroups, groups, use_multi]
    | some d => simp [visit, ih, bigGroups, groups, use_multi, visitDecl_multi]
  | ret e => exact uses_multi ..
  | brk => rfl
  | cont => rfl

end DeadDecls
end Tsar
