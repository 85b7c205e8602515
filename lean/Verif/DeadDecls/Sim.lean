import Verif.DeadDecls.Visit

/-
Simulation: execution without dead declarations.
-/

namespace Tsar
namespace DeadDecls

variable {W : World} {D : List Nat}

/-- States differ in removed variables only. -/
structure Rel (D : List Nat) (σ σ' : State) : Prop where
  trace : σ'.trace = σ.trace
  env : ∀ d, d ∉ D → σ'.env d = σ.env d

/-- Assumptions about removed variables. -/
structure Hidden (W : World) (D : List Nat) : Prop where
  vis : ∀ d ∈ D, W.vis d = false
  target : ∀ d, d ∉ D → W.target d ∉ D

theorem Rel.view {σ σ' : State} (hD : Hidden W D) (h : Rel D σ σ') : W.view σ'.env = W.view σ.env := by
  funext d
  unfold World.view
  split
  · rename_i hv
    exact h.env d fun hd => by rw [hD.vis d hd] at hv; cases hv
  · rfl

theorem Rel.merge {σ σ' : State} (h : Rel D σ σ') (m : Env) :
    Rel D { σ with env := W.merge σ.env m } { σ' with env := W.merge σ'.env m } :=
  ⟨h.trace, fun d hd => by
    simp only [World.merge]
    split
    · rfl
    · exact h.env d hd⟩

theorem Rel.emit {σ σ' : State} (h : Rel D σ σ') (e : Ev) : Rel D (σ.emit e) (σ'.emit e) :=
  ⟨by simp [State.emit, h.trace], h.env⟩

theorem Rel.set {σ σ' : State} (h : Rel D σ σ') (d : Nat) (v : Option Int) : Rel D (σ.set d v) (σ'.set d v) :=
  ⟨h.trace, fun x hx => by
    simp only [State.set]
    split
    · rfl
    · exact h.env x hx⟩

theorem Rel.set_left {σ σ' : State} (h : Rel D σ σ') {d : Nat} (hd : d ∈ D) (v : Option Int) :
    Rel D (σ.set d v) σ' :=
  ⟨h.trace, fun x hx => by
    have : x ≠ d := fun hh => hx (hh ▸ hd)
    simpa [State.set, this] using h.env x hx⟩

theorem Rel.write {σ σ' : State} (h : Rel D σ σ') (d : Nat) (v : Int) : Rel D (W.write d v σ) (W.write d v σ') := by
  unfold World.write
  dsimp only
  split
  · exact (h.set _ _).emit _
  · exact h.set _ _

theorem Rel.read {σ σ' τ : State} (hD : Hidden W D) (h : Rel D σ σ') {d : Nat} (hd : d ∉ D) {v : Int}
    (hr : W.read d σ = some (v, τ)) : ∃ τ', W.read d σ' = some (v, τ') ∧ Rel D τ τ' := by
  unfold World.read at hr ⊢
  rw [h.env _ (hD.target d hd)]
  cases hv : σ.env (W.target d) with
  | none => rw [hv] at hr; cases hr
  | some x =>
    rw [hv] at hr
    simp only [Option.map_some, Option.some.injEq, Prod.mk.injEq] at hr
    obtain ⟨rfl, rfl⟩ := hr
    refine ⟨_, rfl, ?_⟩
    split
    · exact h.emit _
    · exact h

/-- Expressions which do not mention removed variables. -/
def Avoids (D : List Nat) (ns : List Name) : Prop := ∀ d, Name.var d ∈ ns → d ∉ D

theorem Avoids.left {a b : List Name} (h : Avoids D (a ++ b)) : Avoids D a := fun d hd =>
  h d (List.mem_append_left _ hd)

theorem Avoids.right {a b : List Name} (h : Avoids D (a ++ b)) : Avoids D b := fun d hd =>
  h d (List.mem_append_right _ hd)

theorem Avoids.tail {n : Name} {b : List Name} (h : Avoids D (n :: b)) : Avoids D b := fun d hd =>
  h d (List.mem_cons_of_mem _ hd)

/-- Evaluation does not depend on removed variables. -/
theorem eval_sim (hD : Hidden W D) {e : Expr} (ha : Avoids D e.names) {σ σ' τ : State} {v : Int} (h : Rel D σ σ')
    (he : eval W e σ = some (v, τ)) : ∃ τ', eval W e σ' = some (v, τ') ∧ Rel D τ τ' := by
  induction e generalizing σ σ' τ v with
  | const c =>
    cases he
    exact ⟨_, rfl, h⟩
  | var d => exact h.read hD (ha d List.mem_cons_self) he
  | addr d =>
    cases he
    exact ⟨_, rfl, h⟩
  | enumConst d k =>
    cases he
    exact ⟨_, rfl, h⟩
  | sizeOf t =>
    cases he
    exact ⟨_, rfl, h⟩
  | op o a b iha ihb =>
    simp only [eval, Option.bind_eq_some_iff, Option.map_eq_some_iff] at he ⊢
    obtain ⟨⟨x, σ1⟩, h1, ⟨y, σ2⟩, h2, z, h3, h4⟩ := he
    cases h4
    obtain ⟨σ1', h1', r1⟩ := iha ha.left h h1
    obtain ⟨σ2', h2', r2⟩ := ihb ha.right r1 h2
    exact ⟨σ2', ⟨_, h1', _, h2', _, h3, rfl⟩, r2⟩
  | cond c a b ihc iha ihb =>
    simp only [eval, Option.bind_eq_some_iff] at he ⊢
    obtain ⟨⟨x, σ1⟩, h1, h2⟩ := he
    obtain ⟨σ1', h1', r1⟩ := ihc ha.left h h1
    dsimp only at h2
    split at h2
    · rename_i hx
      obtain ⟨σ2', h2', r2⟩ := iha ha.right.left r1 h2
      exact ⟨σ2', ⟨_, h1', by dsimp only; rw [if_pos hx]; exact h2'⟩, r2⟩
    · rename_i hx
      obtain ⟨σ2', h2', r2⟩ := ihb ha.right.right r1 h2
      exact ⟨σ2', ⟨_, h1', by dsimp only; rw [if_neg hx]; exact h2'⟩, r2⟩
  | deref a iha =>
    simp only [eval, Option.bind_eq_some_iff, Option.map_eq_some_iff] at he ⊢
    obtain ⟨⟨x, σ1⟩, h1, z, h3, h4⟩ := he
    cases h4
    obtain ⟨σ1', h1', r1⟩ := iha ha h h1
    exact ⟨σ1', ⟨_, h1', _, by rw [r1.view hD]; exact h3, rfl⟩, r1⟩
  | assign d e ih =>
    simp only [eval, Option.map_eq_some_iff] at he ⊢
    obtain ⟨⟨x, σ1⟩, h1, h4⟩ := he
    cases h4
    obtain ⟨σ1', h1', r1⟩ := ih ha.tail h h1
    exact ⟨_, ⟨_, h1', rfl⟩, r1.write d x⟩
  | update o d e ih =>
    simp only [eval, Option.bind_eq_some_iff, Option.map_eq_some_iff] at he ⊢
    obtain ⟨⟨x, σ1⟩, h1, ⟨y, σ2⟩, h2, z, h3, h4⟩ := he
    cases h4
    obtain ⟨σ1', h1', r1⟩ := ih ha.tail h h1
    obtain ⟨σ2', h2', r2⟩ := r1.read hD (ha d List.mem_cons_self) h2
    exact ⟨_, ⟨_, h1', _, h2', _, h3, rfl⟩, r2.write d _⟩
  | incr o d =>
    simp only [eval, Option.bind_eq_some_iff, Option.map_eq_some_iff] at he ⊢
    obtain ⟨⟨y, σ2⟩, h2, z, h3, h4⟩ := he
    cases h4
    obtain ⟨σ2', h2', r2⟩ := h.read hD (ha d List.mem_cons_self) h2
    exact ⟨_, ⟨_, h2', _, h3, rfl⟩, r2.write d _⟩
  | store a e iha ihb =>
    simp only [eval, Option.bind_eq_some_iff, Option.map_eq_some_iff] at he ⊢
    obtain ⟨⟨x, σ1⟩, h1, ⟨y, σ2⟩, h2, z, h3, h4⟩ := he
    cases h4
    obtain ⟨σ1', h1', r1⟩ := iha ha.left h h1
    obtain ⟨σ2', h2', r2⟩ := ihb ha.right r1 h2
    exact ⟨_, ⟨_, h1', _, h2', _, by rw [r2.view hD]; exact h3, rfl⟩, r2.merge z⟩
  | call f a b iha ihb =>
    simp only [eval, Option.bind_eq_some_iff, Option.map_eq_some_iff] at he ⊢
    obtain ⟨⟨x, σ1⟩, h1, ⟨y, σ2⟩, h2, z, h3, h4⟩ := he
    cases h4
    obtain ⟨σ1', h1', r1⟩ := iha ha.left h h1
    obtain ⟨σ2', h2', r2⟩ := ihb ha.right r1 h2
    exact ⟨_, ⟨_, h1', _, h2', _, by rw [r2.view hD]; exact h3, rfl⟩, (r2.merge z.2).emit _⟩
  | ctor f a b iha ihb =>
    simp only [eval, Option.bind_eq_some_iff, Option.map_eq_some_iff] at he ⊢
    obtain ⟨⟨x, σ1⟩, h1, ⟨y, σ2⟩, h2, z, h3, h4⟩ := he
    cases h4
    obtain ⟨σ1', h1', r1⟩ := iha ha.left h h1
    obtain ⟨σ2', h2', r2⟩ := ihb ha.right r1 h2
    exact ⟨_, ⟨_, h1', _, h2', _, by rw [r2.view hD]; exact h3, rfl⟩, (r2.merge z.2).emit _⟩

/-- An expression without side effects changes nothing if it is quiet. -/
theorem eval_pure {e : Expr} (hs : sideEffect e = false) (hq : Quiet W e) {σ τ : State} {v : Int}
    (he : eval W e σ = some (v, τ)) : τ = σ := by
  induction e generalizing σ τ v with
  | const c => cases he; rfl
  | var d =>
    simp only [eval, World.read, Option.map_eq_some_iff] at he
    obtain ⟨x, -, h2⟩ := he
    have hq' : W.vol d = false := hq
    rw [hq'] at h2
    cases h2
    rfl
  | addr d => cases he; rfl
  | enumConst d k => cases he; rfl
  | sizeOf t => cases he; rfl
  | op o a b iha ihb =>
    simp only [sideEffect, Bool.or_eq_false_iff] at hs
    simp only [eval, Option.bind_eq_some_iff, Option.map_eq_some_iff] at he
    obtain ⟨⟨x, σ1⟩, h1, ⟨y, σ2⟩, h2, z, h3, h4⟩ := he
    cases h4
    rw [ihb hs.2 hq.2 h2]
    exact iha hs.1 hq.1 h1
  | cond c a b ihc iha ihb =>
    simp only [sideEffect, Bool.or_eq_false_iff] at hs
    simp only [eval, Option.bind_eq_some_iff] at he
    obtain ⟨⟨x, σ1⟩, h1, h2⟩ := he
    have e1 := ihc hs.1.1 hq.1 h1
    dsimp only at h2
    split at h2
    · rw [iha hs.1.2 hq.2.1 h2]; exact e1
    · rw [ihb hs.2 hq.2.2 h2]; exact e1
  | deref a iha =>
    simp only [eval, Option.bind_eq_some_iff, Option.map_eq_some_iff] at he
    obtain ⟨⟨x, σ1⟩, h1, z, h3, h4⟩ := he
    cases h4
    exact iha hs hq h1
  | ctor f a b => exact absurd hq id
  | assign d e => cases hs
  | update o d e => cases hs
  | incr o d => cases hs
  | store a e => cases hs
  | call f a b => cases hs

theorem evalOpt_sim (hD : Hidden W D) {e : Option Expr} (ha : Avoids D (optNames e)) {σ σ' τ : State} {v : Option Int}
    (h : Rel D σ σ') (he : evalOpt W e σ = some (v, τ)) : ∃ τ', evalOpt W e σ' = some (v, τ') ∧ Rel D τ τ' := by
  cases e with
  | none => cases he; exact ⟨_, rfl, h⟩
  | some e =>
    simp only [evalOpt, Option.map_eq_some_iff] at he ⊢
    obtain ⟨⟨x, σ1⟩, h1, h4⟩ := he
    cases h4
    obtain ⟨σ1', h1', r1⟩ := eval_sim hD ha h h1
    exact ⟨_, ⟨_, h1', rfl⟩, r1⟩

/-- Removed declarations. -/
def Removable (W : World) (d : Decl) : Prop := Plain W d ∧ ∀ e ∈ d.init, sideEffect e = false

theorem runDecl_removed {d : Decl} (hr : Removable W d) (hd : d.id ∈ D) {σ σ' τ : State} (h : Rel D σ σ')
    (he : runDecl W d σ = some τ) : Rel D τ σ' := by
  unfold runDecl at he
  split at he
  · simp only [Option.bind_eq_some_iff, Option.map_eq_some_iff] at he
    obtain ⟨⟨x, σ1⟩, h1, ⟨y, σ2⟩, h2, h4⟩ := he
    rw [if_pos hr.1.target] at h4
    have e1 : σ1 = σ := by
      cases hs : d.size with
      | none => rw [hs] at h1; cases h1; rfl
      | some e =>
        rw [hs] at h1
        simp only [evalOpt, Option.map_eq_some_iff] at h1
        obtain ⟨⟨z, σ3⟩, h5, h6⟩ := h1
        cases h6
        exact hr.1.size e hs σ z _ h5
    have e2 : σ2 = σ1 := by
      cases hs : d.init with
      | none => rw [hs] at h2; cases h2; rfl
      | some e =>
        rw [hs] at h2
        simp only [evalOpt, Option.map_eq_some_iff] at h2
        obtain ⟨⟨z, σ3⟩, h5, h6⟩ := h2
        cases h6
        exact eval_pure (hr.2 e hs) (hr.1.init e hs) h5
    rw [← h4]
    dsimp only
    rw [e2, e1]
    exact h.set_left hd _
  · cases he
    exact h

theorem runDecl_sim (hD : Hidden W D) {d : Decl} (ha : Avoids D d.names) {σ σ' τ : State} (h : Rel D σ σ')
    (he : runDecl W d σ = some τ) : ∃ τ', runDecl W d σ' = some τ' ∧ Rel D τ τ' := by
  unfold runDecl at he ⊢
  split at he
  · simp only [Option.bind_eq_some_iff, Option.map_eq_some_iff] at he ⊢
    obtain ⟨⟨x, σ1⟩, h1, ⟨y, σ2⟩, h2, h4⟩ := he
    obtain ⟨σ1', h1', r1⟩ := evalOpt_sim hD ha.right.left h h1
    obtain ⟨σ2', h2', r2⟩ := evalOpt_sim hD ha.right.right r1 h2
    refine ⟨_, ⟨_, h1', _, h2', rfl⟩, ?_⟩
    rw [← h4]
    dsimp only
    split
    · exact r2.set _ _
    · exact r2
  · cases he
    exact ⟨_, rfl, h⟩

theorem runDecls_sim (hD : Hidden W D) {ds : List Decl} (ha : Avoids D (ds.flatMap Decl.names))
    (hr : ∀ d ∈ ds, d.id ∈ D → Removable W d) {σ σ' τ : State} (h : Rel D σ σ') (he : runDecls W ds σ = some τ) :
    ∃ τ', runDecls W (ds.filter fun d => !D.contains d.id) σ' = some τ' ∧ Rel D τ τ' := by
  induction ds generalizing σ σ' with
  | nil => cases he; exact ⟨_, rfl, h⟩
  | cons d ds ih =>
    simp only [runDecls, Option.bind_eq_some_iff] at he
    obtain ⟨σ1, h1, h2⟩ := he
    have ha' : Avoids D (d.names ++ ds.flatMap Decl.names) := by simpa using ha
    have hr' : ∀ d ∈ ds, d.id ∈ D → Removable W d := fun x hx => hr x (List.mem_cons_of_mem _ hx)
    by_cases hd : d.id ∈ D
    · obtain ⟨τ', h3, h4⟩ := ih ha'.right hr' (runDecl_removed (hr d List.mem_cons_self hd) hd h h1) h2
      exact ⟨τ', by simpa [List.filter_cons, hd] using h3, h4⟩
    · obtain ⟨σ1', h1', r1⟩ := runDecl_sim hD ha'.left h h1
      obtain ⟨τ', h3, h4⟩ := ih ha'.right hr' r1 h2
      exact ⟨τ', by
        simp only [List.filter_cons, List.contains_eq_mem, hd, decide_false, Bool.not_false, if_true, runDecls, h1',
          Option.bind_some]
        simpa using h3, h4⟩

/-- One piece of a program simulates another one. -/
def Sims (D : List Nat) {α : Type} (f f' : State → Option (α × State)) : Prop :=
  ∀ σ σ' τ a, Rel D σ σ' → f σ = some (a, τ) → ∃ τ', f' σ' = some (a, τ') ∧ Rel D τ τ'

theorem iter_sim {c c' : State → Option (Int × State)} {b b' : State → Option (Out × State)}
    {i i' : State → Option State} (hc : Sims D c c') (hb : Sims D b b')
    (hi : ∀ σ σ' τ, Rel D σ σ' → i σ = some τ → ∃ τ', i' σ' = some τ' ∧ Rel D τ τ') (n : Nat) :
    Sims D (iter c b i n) (iter c' b' i' n) := by
  induction n with
  | zero =>
    intro σ σ' τ o h he
    cases he
    exact ⟨_, rfl, h⟩
  | succ n ih =>
    intro σ σ' τ o h he
    simp only [iter, Option.bind_eq_some_iff] at he
    obtain ⟨⟨x, σ1⟩, h1, h2⟩ := he
    obtain ⟨σ1', h1', r1⟩ := hc _ _ _ _ h h1
    simp only [iter, h1', Option.bind_some]
    split at h2
    · rename_i hx
      cases h2
      rw [if_pos hx]
      exact ⟨_, rfl, r1⟩
    · rename_i hx
      rw [if_neg hx]
      simp only [Option.bind_eq_some_iff] at h2
      obtain ⟨⟨o1, σ2⟩, h3, h4⟩ := h2
      obtain ⟨σ2', h3', r2⟩ := hb _ _ _ _ r1 h3
      simp only [h3', Option.bind_some]
      cases o1 with
      | normal =>
        simp only [Option.bind_eq_some_iff] at h4
        obtain ⟨σ3, h5, h6⟩ := h4
        obtain ⟨σ3', h5', r3⟩ := hi _ _ _ r2 h5
        simp only [h5', Option.bind_some]
        exact ih _ _ _ _ r3 h6
      | cont =>
        simp only [Option.bind_eq_some_iff] at h4
        obtain ⟨σ3, h5, h6⟩ := h4
        obtain ⟨σ3', h5', r3⟩ := hi _ _ _ r2 h5
        simp only [h5', Option.bind_some]
        exact ih _ _ _ _ r3 h6
      | brk => cases h4; exact ⟨_, rfl, r2⟩
      | ret v => cases h4; exact ⟨_, rfl, r2⟩
      | stop => cases h4; exact ⟨_, rfl, r2⟩

theorem over_sim {b b' : State → Option (Out × State)} (hb : Sims D b b') (d : Decl) (vs : List Int) :
    Sims D (over W d b vs) (over W d b' vs) := by
  induction vs with
  | nil =>
    intro σ σ' τ o h he
    cases he
    exact ⟨_, rfl, h⟩
  | cons v vs ih =>
    intro σ σ' τ o h he
    simp only [over, Option.bind_eq_some_iff] at he
    obtain ⟨⟨o1, σ2⟩, h3, h4⟩ := he
    obtain ⟨σ2', h3', r2⟩ := hb _ _ _ _ (h.set d.id (some v)) h3
    simp only [over, h3', Option.bind_some]
    cases o1 with
    | normal => exact ih _ _ _ _ r2 h4
    | cont => exact ih _ _ _ _ r2 h4
    | brk => cases h4; exact ⟨_, rfl, r2⟩
    | ret v => cases h4; exact ⟨_, rfl, r2⟩
    | stop => cases h4; exact ⟨_, rfl, r2⟩

/-- Conditions for a marked statement. -/
structure Clean (W : World) (D : List Nat) (s : Stmt (Option Nat)) : Prop where
  reads : Avoids D (readsM s)
  marks : ∀ p ∈ marks s, ∃ r, p.2 = .assign p.1 r ∧
    (p.1 ∈ D → sideEffect r = false ∧ Quiet W r ∧ W.target p.1 = p.1 ∧ W.vol p.1 = false)
  decls : ∀ d ∈ declsOf s, d.id ∈ D → Removable W d
  each : ∀ d ∈ eachVars s, d.id ∉ D

theorem Clean.part {s t : Stmt (Option Nat)} (h : Clean W D s) (h1 : ∀ n ∈ readsM t, n ∈ readsM s)
    (h2 : ∀ p ∈ DeadDecls.marks t, p ∈ DeadDecls.marks s) (h3 : ∀ d ∈ declsOf t, d ∈ declsOf s)
    (h4 : ∀ d ∈ eachVars t, d ∈ eachVars s) : Clean W D t :=
  ⟨fun d hd => h.reads d (h1 _ hd), fun p hp => h.marks p (h2 p hp), fun d hd => h.decls d (h3 d hd),
    fun d hd => h.each d (h4 d hd)⟩

/-- Removal preserves behaviour. -/
theorem run_sim (hD : Hidden W D) (n : Nat) {s : Stmt (Option Nat)} (hs : Clean W D s) :
    Sims D (run W n s) (run W n (prune D s)) := by
  induction s with
  | nop =>
    intro σ σ' τ o h he
    cases he
    exact ⟨_, rfl, h⟩
  | seq a b iha ihb =>
    intro σ σ' τ o h he
    simp only [run, Option.bind_eq_some_iff] at he
    obtain ⟨⟨o1, σ1⟩, h1, h2⟩ := he
    obtain ⟨σ1', h1', r1⟩ := iha (hs.part (fun _ h => List.mem_append_left _ h) (fun _ h => List.mem_append_left _ h)
      (fun _ h => List.mem_append_left _ h) fun _ h => List.mem_append_left _ h) _ _ _ _ h h1
    simp only [prune, run, h1', Option.bind_some]
    split at h2
    · rename_i ho
      rw [if_pos ho]
      exact ihb (hs.part (fun _ h => List.mem_append_right _ h) (fun _ h => List.mem_append_right _ h)
        (fun _ h => List.mem_append_right _ h) fun _ h => List.mem_append_right _ h) _ _ _ _ r1 h2
    · rename_i ho
      cases h2
      rw [if_neg ho]
      exact ⟨_, rfl, r1⟩
  | expr m e =>
    intro σ σ' τ o h he
    simp only [run, Option.map_eq_some_iff] at he
    obtain ⟨⟨x, σ1⟩, h1, h2⟩ := he
    cases h2
    have keep : Avoids D e.names → ∃ τ', run W n (.expr () e) σ' = some (.normal, τ') ∧ Rel D σ1 τ' := by
      intro ha
      obtain ⟨σ1', h1', r1⟩ := eval_sim hD ha h h1
      exact ⟨σ1', by simp [run, h1'], r1⟩
    cases m with
    | none => exact keep hs.reads
    | some d =>
      obtain ⟨r, h2, h3⟩ := hs.marks (d, e) (List.mem_singleton.2 rfl)
      dsimp only at h2 h3
      subst h2
      by_cases hd : d ∈ D
      · obtain ⟨h3, h4, h5, h6⟩ := h3 hd
        simp only [eval, Option.map_eq_some_iff] at h1
        obtain ⟨⟨y, σ2⟩, h7, h8⟩ := h1
        cases h8
        have e2 := eval_pure h3 h4 h7
        refine ⟨σ', by simp [prune, hd, run], ?_⟩
        dsimp only
        rw [e2]
        simp only [World.write, h5, h6, Bool.false_eq_true, if_false]
        exact h.set_left hd _
      · have : prune D (.expr (some d) (.assign d r)) = .expr () (.assign d r) := by simp [prune, hd]
        rw [this]
        refine keep fun x hx => ?_
        rcases List.mem_cons.1 hx with hx | hx
        · cases hx
          exact hd
        · exact hs.reads x hx
  | decls ds =>
    intro σ σ' τ o h he
    simp only [run, Option.map_eq_some_iff] at he
    obtain ⟨σ1, h1, h2⟩ := he
    cases h2
    obtain ⟨σ1', h1', r1⟩ := runDecls_sim hD hs.reads hs.decls h h1
    exact ⟨_, by rw [prune, run, h1']; rfl, r1⟩
  | block m s ih => exact ih (hs.part (fun _ h => h) (fun _ h => h) (fun _ h => h) fun _ h => h)
  | ite c a b iha ihb =>
    intro σ σ' τ o h he
    simp only [run, Option.bind_eq_some_iff] at he
    obtain ⟨⟨x, σ1⟩, h1, h2⟩ := he
    obtain ⟨σ1', h1', r1⟩ := eval_sim hD hs.reads.left h h1
    simp only [prune, run, h1', Option.bind_some]
    dsimp only at h2
    split at h2
    · rename_i ho
      rw [if_pos ho]
      exact iha (hs.part (fun _ h => List.mem_append_right _ (List.mem_append_left _ h))
        (fun _ h => List.mem_append_left _ h) (fun _ h => List.mem_append_left _ h)
        fun _ h => List.mem_append_left _ h) _ _ _ _ r1 h2
    · rename_i ho
      rw [if_neg ho]
      exact ihb (hs.part (fun _ h => List.mem_append_right _ (List.mem_append_right _ h))
        (fun _ h => List.mem_append_right _ h) (fun _ h => List.mem_append_right _ h)
        fun _ h => List.mem_append_right _ h) _ _ _ _ r1 h2
  | loop c s ih =>
    refine iter_sim (fun _ _ _ _ h h1 => eval_sim hD hs.reads.left h h1)
      (ih (hs.part (fun _ h => List.mem_append_right _ h) (fun _ h => h) (fun _ h => h) fun _ h => h)) ?_ n
    intro σ σ' τ h he
    cases he
    exact ⟨_, rfl, h⟩
  | loopFor m ds c i s ih =>
    intro σ σ' τ o h he
    simp only [run, Option.bind_eq_some_iff] at he
    obtain ⟨σ1, h1, h2⟩ := he
    obtain ⟨σ1', h1', r1⟩ := runDecls_sim hD hs.reads.left (fun d hd => hs.decls d (List.mem_append_left _ hd)) h h1
    simp only [prune, run, h1', Option.bind_some]
    refine iter_sim (fun _ _ _ _ h h1 => eval_sim hD hs.reads.right.left h h1)
      (ih (hs.part (fun _ h => List.mem_append_right _ (List.mem_append_right _ (List.mem_append_right _ h)))
        (fun _ h => h) (fun _ h => List.mem_append_right _ h) fun _ h => h)) ?_ n _ _ _ _ r1 h2
    intro σ σ' τ h he
    simp only [Option.map_eq_some_iff] at he ⊢
    obtain ⟨⟨x, σ1⟩, h1, h2⟩ := he
    obtain ⟨σ1', h1', r1⟩ := eval_sim hD hs.reads.right.right.left h h1
    exact ⟨_, ⟨_, h1', rfl⟩, h2 ▸ r1⟩
  | each d a s ih =>
    cases d with
    | none =>
      intro σ σ' τ o h he
      cases he
    | some d =>
      have hd : d.id ∉ D := hs.each d List.mem_cons_self
      have hp : prune D (.each (some d) a s) = .each (some d) a (prune D s) := by simp [prune, hd, Option.filter]
      rw [hp]
      intro σ σ' τ o h he
      rw [run] at he ⊢
      rw [h.view hD]
      exact over_sim (ih (hs.part (fun _ h => List.mem_cons_of_mem _ (List.mem_append_right _ h)) (fun _ h => h)
        (fun _ h => List.mem_cons_of_mem _ h) fun _ h => List.mem_cons_of_mem _ h)) d _ _ _ _ _ h he
  | ret e =>
    intro σ σ' τ o h he
    simp only [run, Option.map_eq_some_iff] at he
    obtain ⟨⟨x, σ1⟩, h1, h2⟩ := he
    cases h2
    obtain ⟨σ1', h1', r1⟩ := eval_sim hD hs.reads h h1
    exact ⟨σ1', by rw [prune, run, h1']; rfl, r1⟩
  | brk =>
    intro σ σ' τ o h he
    cases he
    exact ⟨_, rfl, h⟩
  | cont =>
    intro σ σ' τ o h he
    cases he
    exact ⟨_, rfl, h⟩

end DeadDecls
end Tsar
