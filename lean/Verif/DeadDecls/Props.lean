import Verif.DeadDecls.Sim

/-
Elimination of dead declarations preserves behaviour of functions (C104).
-/

namespace Tsar
namespace DeadDecls

variable {W : World} {D : List Nat} {all : List Decl}

/-! ### The visitor does not change the function -/

theorem run_visit (W : World) (n : Nat) (inBlock mac : Bool) (v : VState) (s : Stmt Unit) :
    run W n (visit inBlock mac v s).1 = run W n s := by
  induction s generalizing v inBlock mac with
  | seq a b iha ihb => funext σ; simp only [visit, run, iha, ihb]
  | block m s ih => funext σ; simp only [visit, run, ih]
  | ite c a b iha ihb => funext σ; simp only [visit, run, iha, ihb]
  | loop c s ih => funext σ; simp only [visit, run, ih]
  | loopFor m ds c i s ih => funext σ; simp only [visit, run, ih]
  | each d a s ih => cases d <;> (funext σ; simp only [visit, run, ih])
  | _ => rfl

theorem ok_visit {G : List Name} (inBlock mac : Bool) (v : VState) (s : Stmt Unit) (h : Ok G s) :
    Ok G (visit inBlock mac v s).1 := by
  induction s generalizing v inBlock mac G with
  | seq a b iha ihb => exact ⟨iha _ _ _ h.1, by rw [after_visit]; exact ihb _ _ _ h.2⟩
  | block m s ih => exact ih _ _ _ h
  | ite c a b iha ihb => exact ⟨h.1, iha _ _ _ h.2.1, ihb _ _ _ h.2.2⟩
  | loop c s ih => exact ⟨h.1, ih _ _ _ h.2⟩
  | loopFor m ds c i s ih => exact ⟨h.1, h.2.1, ih _ _ _ h.2.2⟩
  | each d a s ih =>
    cases d with
    | none => exact absurd h id
    | some d => exact ⟨h.1, h.2.1, ih _ _ _ h.2.2⟩
  | _ => exact h

theorem declsOf_visit (inBlock mac : Bool) (v : VState) (s : Stmt Unit) :
    declsOf (visit inBlock mac v s).1 = declsOf s := by
  induction s generalizing v inBlock mac with
  | seq a b iha ihb => simp only [visit, declsOf, iha, ihb]
  | block m s ih => simp only [visit, declsOf, ih]
  | ite c a b iha ihb => simp only [visit, declsOf, iha, ihb]
  | loop c s ih => simp only [visit, declsOf, ih]
  | loopFor m ds c i s ih => simp only [visit, declsOf, ih]
  | each d a s ih => cases d <;> simp only [visit, declsOf, ih]
  | _ => rfl

theorem eachVars_visit (inBlock mac : Bool) (v : VState) (s : Stmt Unit) :
    eachVars (visit inBlock mac v s).1 = eachVars s := by
  induction s generalizing v inBlock mac with
  | seq a b iha ihb => simp only [visit, eachVars, iha, ihb]
  | block m s ih => simp only [visit, eachVars, ih]
  | ite c a b iha ihb => simp only [visit, eachVars, iha, ihb]
  | loop c s ih => simp only [visit, eachVars, ih]
  | loopFor m ds c i s ih => simp only [visit, eachVars, ih]
  | each d a s ih => cases d <;> simp only [visit, eachVars, ih]
  | _ => rfl

theorem stmtReads_sub (e : Expr) : ∀ n ∈ stmtReads e, n ∈ e.names := by
  cases e with
  | assign d r => exact fun n hn => List.mem_cons_of_mem _ hn
  | _ => exact fun n hn => hn

theorem reads_visit (inBlock mac : Bool) (v : VState) (s : Stmt Unit) :
    ∀ n ∈ reads s, n ∈ readsM (visit inBlock mac v s).1 := by
  have happ : ∀ {a b a' b' : List Name}, (∀ n ∈ a, n ∈ a') → (∀ n ∈ b, n ∈ b') → ∀ n ∈ a ++ b, n ∈ a' ++ b' := by
    intro a b a' b' h1 h2 n hn
    rcases List.mem_append.1 hn with hn | hn
    · exact List.mem_append_left _ (h1 n hn)
    · exact List.mem_append_right _ (h2 n hn)
  have hid : ∀ {a : List Name}, ∀ n ∈ a, n ∈ a := fun _ h => h
  induction s generalizing v inBlock mac with
  | seq a b iha ihb => exact happ (iha _ _ _) (ihb _ _ _)
  | expr m e =>
    intro n hn
    rw [visit]
    cases (visitExpr inBlock v e).1 with
    | none => exact stmtReads_sub e n hn
    | some d => exact hn
  | block m s ih => exact ih _ _ _
  | ite c a b iha ihb => exact happ hid (happ (iha _ _ _) (ihb _ _ _))
  | loop c s ih => exact happ hid (ih _ _ _)
  | loopFor m ds c i s ih => exact happ hid (happ hid (happ hid (ih _ _ _)))
  | each d a s ih =>
    cases d with
    | none => exact happ (a := [.var a]) (a' := [.var a]) hid (ih _ _ _)
    | some d =>
      exact happ (a := [.var a]) (a' := [.var a]) hid
        (happ (a := [d].flatMap Decl.names) (a' := [d].flatMap Decl.names) hid (ih _ _ _))
  | _ => exact fun n hn => hn

/-! ### Names are still in scope -/

/-- Names of declarations which are not removed are still in scope. -/
def Scopes (all : List Decl) (D : List Nat) (G G' : List Name) : Prop :=
  ∀ n ∈ G, (∀ d ∈ all, n ∈ d.provides → d.id ∉ D) → n ∈ G'

/-- Names of declarations which are not removed. -/
def Alive (all : List Decl) (D : List Nat) (ns : List Name) : Prop :=
  ∀ n ∈ ns, ∀ d ∈ all, n ∈ d.provides → d.id ∉ D

theorem Alive.left {a b : List Name} (h : Alive all D (a ++ b)) : Alive all D a := fun n hn =>
  h n (List.mem_append_left _ hn)

theorem Alive.right {a b : List Name} (h : Alive all D (a ++ b)) : Alive all D b := fun n hn =>
  h n (List.mem_append_right _ hn)

theorem Scopes.names {G G' ns : List Name} (h : Scopes all D G G') (ha : Alive all D ns) (hn : ∀ n ∈ ns, n ∈ G) :
    ∀ n ∈ ns, n ∈ G' := fun n hm => h n (hn n hm) (ha n hm)

theorem Scopes.decl {G G' : List Name} (h : Scopes all D G G') (d : Decl) :
    Scopes all D (G ++ d.provides) (G' ++ d.provides) := by
  intro n hn ha
  rcases List.mem_append.1 hn with hn | hn
  · exact List.mem_append_left _ (h n hn ha)
  · exact List.mem_append_right _ hn

theorem Scopes.removed {G G' : List Name} (h : Scopes all D G G') {d : Decl} (hd : d ∈ all) (hD : d.id ∈ D) :
    Scopes all D (G ++ d.provides) G' := by
  intro n hn ha
  rcases List.mem_append.1 hn with hn | hn
  · exact h n hn ha
  · exact absurd hD (ha d hd hn)

theorem prune_decls {ds : List Decl} {G G' : List Name} (hok : DeclsOk G ds) (hs : Scopes all D G G')
    (ha : Alive all D (ds.flatMap Decl.names)) (hd : ∀ d ∈ ds, d ∈ all) :
    DeclsOk G' (ds.filter fun d => !D.contains d.id) ∧
      Scopes all D (afterDecls G ds) (afterDecls G' (ds.filter fun d => !D.contains d.id)) := by
  induction ds generalizing G G' with
  | nil => exact ⟨trivial, by simpa [afterDecls] using hs⟩
  | cons d ds ih =>
    have ha' : Alive all D (d.names ++ ds.flatMap Decl.names) := by simpa using ha
    have hd' : ∀ x ∈ ds, x ∈ all := fun x hx => hd x (List.mem_cons_of_mem _ hx)
    by_cases hD : d.id ∈ D
    · obtain ⟨h1, h2⟩ := ih hok.2 (hs.removed (hd d List.mem_cons_self) hD) ha'.right hd'
      simp only [List.filter_cons, List.contains_eq_mem, hD, decide_true, Bool.not_true, Bool.false_eq_true, if_false]
      simp only [List.contains_eq_mem] at h1 h2
      exact ⟨h1, by simpa [afterDecls, List.append_assoc] using h2⟩
    · obtain ⟨h1, h2⟩ := ih hok.2 (hs.decl d) ha'.right hd'
      simp only [List.filter_cons, List.contains_eq_mem, hD, decide_false, Bool.not_false, if_true]
      simp only [List.contains_eq_mem] at h1 h2
      exact ⟨⟨(hs.decl d).names ha'.left hok.1, h1⟩, by simpa [afterDecls, List.append_assoc] using h2⟩

theorem prune_ok {s : Stmt (Option Nat)} {G G' : List Name} (hok : Ok G s) (hs : Scopes all D G G')
    (ha : Alive all D (readsM s)) (hm : ∀ p ∈ marks s, ∃ r, p.2 = .assign p.1 r) (hd : ∀ d ∈ declsOf s, d ∈ all)
    (he : ∀ d ∈ eachVars s, d.id ∉ D) :
    Ok G' (prune D s) ∧ Scopes all D (after G s) (after G' (prune D s)) := by
  induction s generalizing G G' with
  | nop => exact ⟨trivial, hs⟩
  | seq a b iha ihb =>
    obtain ⟨h1, h2⟩ := iha hok.1 hs ha.left (fun p hp => hm p (List.mem_append_left _ hp))
      (fun d hx => hd d (List.mem_append_left _ hx)) fun d hx => he d (List.mem_append_left _ hx)
    obtain ⟨h3, h4⟩ := ihb hok.2 h2 ha.right (fun p hp => hm p (List.mem_append_right _ hp))
      (fun d hx => hd d (List.mem_append_right _ hx)) fun d hx => he d (List.mem_append_right _ hx)
    exact ⟨⟨h1, h3⟩, h4⟩
  | expr m e =>
    cases m with
    | none => exact ⟨hs.names ha hok, hs⟩
    | some d =>
      obtain ⟨r, hr⟩ := hm (d, e) (List.mem_singleton.2 rfl)
      dsimp only at hr
      subst hr
      by_cases hD : d ∈ D
      · have : prune D (.expr (some d) (.assign d r)) = .nop := by simp [prune, hD]
        rw [this]
        exact ⟨trivial, hs⟩
      · have : prune D (.expr (some d) (.assign d r)) = .expr () (.assign d r) := by simp [prune, hD]
        rw [this]
        refine ⟨hs.names (fun n hn => ?_) hok, hs⟩
        rcases List.mem_cons.1 hn with rfl | hn
        · intro x _ hx
          rw [← provides_var hx]
          exact hD
        · exact ha n hn
  | decls ds => exact prune_decls hok hs ha hd
  | block m s ih => exact ⟨(ih hok hs ha hm hd he).1, hs⟩
  | ite c a b iha ihb =>
    obtain ⟨h1, -⟩ := iha hok.2.1 hs ha.right.left (fun p hp => hm p (List.mem_append_left _ hp))
      (fun d hx => hd d (List.mem_append_left _ hx)) fun d hx => he d (List.mem_append_left _ hx)
    obtain ⟨h3, -⟩ := ihb hok.2.2 hs ha.right.right (fun p hp => hm p (List.mem_append_right _ hp))
      (fun d hx => hd d (List.mem_append_right _ hx)) fun d hx => he d (List.mem_append_right _ hx)
    exact ⟨⟨hs.names ha.left hok.1, h1, h3⟩, hs⟩
  | loop c s ih => exact ⟨⟨hs.names ha.left hok.1, (ih hok.2 hs ha.right hm hd he).1⟩, hs⟩
  | loopFor m ds c i s ih =>
    obtain ⟨h1, h2⟩ := prune_decls hok.1 hs ha.left fun d hx => hd d (List.mem_append_left _ hx)
    have h3 := ih hok.2.2 h2 ha.right.right.right hm (fun d hx => hd d (List.mem_append_right _ hx)) he
    refine ⟨⟨h1, h2.names (fun n hn => ?_) hok.2.1, h3.1⟩, hs⟩
    rcases List.mem_append.1 hn with hn | hn
    · exact ha.right.left n hn
    · exact ha.right.right.left n hn
  | each d a s ih =>
    cases d with
    | none => exact absurd hok id
    | some d =>
      have hD : d.id ∉ D := he d List.mem_cons_self
      have hp : prune D (.each (some d) a s) = .each (some d) a (prune D s) := by simp [prune, hD, Option.filter]
      rw [hp]
      have ha' : Alive all D ([Name.var a] ++ (d.names ++ readsM s)) := by simpa [readsM] using ha
      have h1 := ih hok.2.2 (hs.decl d) ha'.right.right hm (fun x hx => hd x (List.mem_cons_of_mem _ hx))
        fun x hx => he x (List.mem_cons_of_mem _ hx)
      exact ⟨⟨hs _ hok.1 (ha'.left _ (List.mem_singleton.2 rfl)), (hs.decl d).names ha'.right.left hok.2.1, h1.1⟩, hs⟩
  | ret e => exact ⟨hs.names ha hok, hs⟩
  | brk => exact ⟨trivial, hs⟩
  | cont => exact ⟨trivial, hs⟩

/-! ### Removed declarations -/

theorem keepGroup_sub {dead g : List Nat} : ∀ x ∈ keepGroup dead g, x ∈ dead := by
  intro x hx
  unfold keepGroup at hx
  split at hx
  · exact (List.mem_filter.1 hx).1
  · exact hx

theorem keepGroups_sub (gs : List (List Nat)) (dead : List Nat) : ∀ x ∈ gs.foldl keepGroup dead, x ∈ dead := by
  induction gs generalizing dead with
  | nil => exact fun x hx => hx
  | cons g gs ih => exact fun x hx => keepGroup_sub x (ih _ x hx)

/-- A removed declaration. -/
theorem mem_removed {v : VState} {x : Nat} (h : x ∈ v.removed) : ∃ e ∈ v.dead, e.decl.id = x ∧ allowed e = true := by
  obtain ⟨e, he, rfl⟩ := List.mem_map.1 (keepGroups_sub _ _ x h)
  exact ⟨e, (List.mem_filter.1 he).1, rfl, (List.mem_filter.1 he).2⟩

/-- A group is removed entirely or is not removed at all. -/
def Whole (D g : List Nat) : Prop := (∀ x ∈ g, x ∈ D) ∨ ∀ x ∈ g, x ∉ D

theorem keepGroup_whole (dead g : List Nat) : Whole (keepGroup dead g) g := by
  unfold keepGroup
  split
  · exact .inr fun x hx hm => by simp [hx] at hm
  · rename_i h
    exact .inl fun x hx => by simpa using (by simpa using h : ∀ y ∈ g, y ∈ dead) x hx

theorem Whole.keep {dead g g' : List Nat} (h : Whole dead g) (hd : ∀ x ∈ g, x ∉ g') : Whole (keepGroup dead g') g := by
  unfold keepGroup
  split
  · rcases h with h | h
    · exact .inl fun x hx => List.mem_filter.2 ⟨h x hx, by simpa using hd x hx⟩
    · exact .inr fun x hx hm => h x hx (List.mem_filter.1 hm).1
  · exact h

theorem Whole.keeps {gs : List (List Nat)} {dead g : List Nat} (h : Whole dead g)
    (hd : ∀ g' ∈ gs, ∀ x ∈ g, x ∉ g') : Whole (gs.foldl keepGroup dead) g := by
  induction gs generalizing dead with
  | nil => exact h
  | cons g' gs ih =>
    exact ih (h.keep (hd g' List.mem_cons_self)) fun g'' hg => hd g'' (List.mem_cons_of_mem _ hg)

theorem keepGroups_whole {gs : List (List Nat)} {dead : List Nat} (hd : gs.Pairwise fun a b => ∀ x ∈ a, x ∉ b) :
    ∀ g ∈ gs, Whole (gs.foldl keepGroup dead) g := by
  induction gs generalizing dead with
  | nil => intro g hg; cases hg
  | cons g gs ih =>
    intro g' hg
    rw [List.pairwise_cons] at hd
    rcases List.mem_cons.1 hg with rfl | hg
    · exact (keepGroup_whole dead g').keeps hd.1
    · exact ih hd.2 g' hg

theorem groups_disjoint {M : Type} {s : Stmt M} (h : ((declsOf s).map (·.id)).Nodup) :
    (groups s).Pairwise fun a b => ∀ x ∈ a.map (·.id), x ∉ b.map (·.id) := by
  have sub : ∀ {s : Stmt M}, ∀ g ∈ groups s, ∀ d ∈ g, d ∈ declsOf s := by
    intro s
    induction s with
    | seq a b iha ihb =>
      intro g hg d hd
      rcases List.mem_append.1 hg with hg | hg
      · exact List.mem_append_left _ (iha g hg d hd)
      · exact List.mem_append_right _ (ihb g hg d hd)
    | decls ds => intro g hg d hd; rw [List.mem_singleton.1 hg] at hd; exact hd
    | block m s ih => exact ih
    | ite c a b iha ihb =>
      intro g hg d hd
      rcases List.mem_append.1 hg with hg | hg
      · exact List.mem_append_left _ (iha g hg d hd)
      · exact List.mem_append_right _ (ihb g hg d hd)
    | loop c s ih => exact ih
    | loopFor m ds c i s ih =>
      intro g hg d hd
      rcases List.mem_cons.1 hg with rfl | hg
      · exact List.mem_append_left _ hd
      · exact List.mem_append_right _ (ih g hg d hd)
    | each d a s ih =>
      cases d with
      | none => exact ih
      | some d => exact fun g hg x hx => List.mem_cons_of_mem _ (ih g hg x hx)
    | _ => intro g hg; cases hg
  have cross : ∀ {a b : Stmt M}, ((declsOf a ++ declsOf b).map (·.id)).Nodup → ∀ g ∈ groups a, ∀ g' ∈ groups b,
      ∀ x ∈ g.map (·.id), x ∉ g'.map (·.id) := by
    intro a b hn g hg g' hg' x hx hx'
    obtain ⟨y, hy, rfl⟩ := List.mem_map.1 hx
    obtain ⟨z, hz, hyz⟩ := List.mem_map.1 hx'
    rw [List.map_append, List.nodup_append] at hn
    exact hn.2.2 _ (List.mem_map_of_mem (sub g hg y hy)) _ (List.mem_map_of_mem (sub g' hg' z hz)) hyz.symm
  have parts : ∀ {a b : List Decl}, ((a ++ b).map (·.id)).Nodup → (a.map (·.id)).Nodup ∧ (b.map (·.id)).Nodup := by
    intro a b hn
    rw [List.map_append, List.nodup_append] at hn
    exact ⟨hn.1, hn.2.1⟩
  induction s with
  | seq a b iha ihb =>
    exact List.pairwise_append.2 ⟨iha (parts h).1, ihb (parts h).2, cross h⟩
  | decls ds => exact List.pairwise_singleton _ _
  | block m s ih => exact ih h
  | ite c a b iha ihb =>
    exact List.pairwise_append.2 ⟨iha (parts h).1, ihb (parts h).2, cross h⟩
  | loop c s ih => exact ih h
  | loopFor m ds c i s ih =>
    refine List.pairwise_cons.2 ⟨fun g hg => ?_, ih (parts h).2⟩
    exact cross (a := .decls ds) h ds (List.mem_singleton.2 rfl) g hg
  | each d a s ih =>
    cases d with
    | none => exact ih h
    | some d => exact ih (List.nodup_cons.1 h).2
  | _ => exact List.Pairwise.nil

/-! ### Results -/

/-- A function which is accepted by a compiler: each declaration has its own number, a name is declared once and each
name is declared before it is used.  `G` are names declared outside of the function. -/
structure Func.Valid (G : List Name) (f : Func Unit) : Prop where
  ids : (f.decls.map (·.id)).Nodup
  names : (f.decls.flatMap Decl.provides).Nodup
  outer : ∀ d ∈ f.decls, ∀ n ∈ Name.var d.id :: d.provides, n ∉ G
  ok : f.Ok G

theorem pairwise_mem {α : Type} {R : α → α → Prop} (hs : ∀ a b, R a b → R b a) {l : List α} (h : l.Pairwise R) :
    ∀ a ∈ l, ∀ b ∈ l, a = b ∨ R a b := by
  induction l with
  | nil => intro a ha; cases ha
  | cons x l ih =>
    rw [List.pairwise_cons] at h
    intro a ha b hb
    rcases List.mem_cons.1 ha with ha | ha <;> rcases List.mem_cons.1 hb with hb | hb
    · exact .inl (ha.trans hb.symm)
    · exact .inr (ha ▸ h.1 b hb)
    · exact .inr (hb ▸ hs _ _ (h.1 a ha))
    · exact ih h.2 a ha b hb

theorem Func.Valid.uniq {G : List Name} {f : Func Unit} (h : f.Valid G) : Uniq f.decls := by
  have hids : ∀ d ∈ f.decls, ∀ d' ∈ f.decls, d.id = d'.id → d = d' := by
    intro d hd d' hd' heq
    exact (pairwise_mem (R := fun a b : Decl => a.id ≠ b.id) (fun _ _ hab => Ne.symm hab)
      (List.pairwise_map.1 h.ids) d hd d' hd').resolve_right fun hne => hne heq
  refine ⟨hids, fun d hd d' hd' n hn hn' => ?_⟩
  rcases List.mem_cons.1 hn with rfl | hn
  · exact hids d hd d' hd' (owns_var hn')
  · rcases List.mem_cons.1 hn' with rfl | hn'
    · exact hids d hd d' hd' (provides_var hn).symm
    · exact (pairwise_mem (R := fun a b : Decl => ∀ x ∈ a.provides, ∀ y ∈ b.provides, x ≠ y)
        (fun _ _ hab x hx y hy hxy => hab y hy x hx hxy.symm) (List.pairwise_flatMap.1 h.names).2 d hd d' hd').resolve_right
        fun hne => hne n hn n hn' rfl

/-- Facts about the visited function. -/
theorem visitFunc_res {G : List Name} {f : Func Unit} (h : f.Valid G) :
    Res f.decls [] (f.decls.map (·.id)) {} (visitFunc f).2
      (f.params.flatMap Decl.names ++ readsM (visitFunc f).1) := by
  have hu := h.uniq
  have hinv : Inv f.decls [] {} :=
    ⟨(by intro e he; cases he), (by intro e he; cases he), (by intro e he; cases he)⟩
  have hsc : Sc f.decls G [] := fun n hn d hd hnd => absurd hn (h.outer d hd n hnd)
  have hnd := h.ids
  rw [Func.decls, List.map_append, List.nodup_append] at hnd
  obtain ⟨h1, hs1⟩ := visitFold_res hu hinv hsc (fun d hd => List.mem_append_left _ hd) hnd.1
    (fun d _ hx => by cases hx) h.ok.1 true false
  obtain ⟨h2, -⟩ := visit_res hu h1.inv hs1 (fun d hd => List.mem_append_right _ hd) hnd.2.1
    (fun d hd hx => hnd.2.2 _ (by simpa using hx) _ (List.mem_map_of_mem hd) rfl) h.ok.2 false false
  have := h1.comp h2 (by
    intro x hx hm
    exact hnd.2.2 _ (by simpa using hm) _ hx rfl)
  simpa [Func.decls, visitFunc] using this

/-- Removed declarations are local declarations in scopes without macros, their initializers have no side effects.
Parameters are not removed. -/
theorem removed_local (f : Func Unit) : ∀ x ∈ removed f, ∃ d ∈ noMacro false f.body, d.id = x ∧
    ∀ e ∈ d.init, sideEffect e = false := by
  intro x hx
  obtain ⟨e, he, rfl, ha⟩ := mem_removed hx
  simp only [allowed, Bool.and_eq_true, Bool.not_eq_true'] at ha
  obtain ⟨⟨h1, h2⟩, h3⟩ := ha
  refine ⟨e.decl, ?_, rfl, ?_⟩
  · rcases visit_entries he with h | ⟨-, h⟩
    · rcases visitFold_entries h with h | ⟨h, -, -⟩
      · cases h
      · rw [h] at h1; cases h1
    · exact h h3
  · intro i hi
    have hi' : e.decl.init = some i := hi
    rw [hi'] at h2
    simpa using h2

theorem noMacro_sub {M : Type} {s : Stmt M} {mac : Bool} : ∀ d ∈ noMacro mac s, d ∈ declsOf s := by
  induction s generalizing mac with
  | seq a b iha ihb =>
    intro d hd
    rcases List.mem_append.1 hd with hd | hd
    · exact List.mem_append_left _ (iha d hd)
    · exact List.mem_append_right _ (ihb d hd)
  | decls ds => intro d hd; cases mac <;> simp [noMacro] at hd; exact hd
  | block m s ih => exact ih
  | ite c a b iha ihb =>
    intro d hd
    rcases List.mem_append.1 hd with hd | hd
    · exact List.mem_append_left _ (iha d hd)
    · exact List.mem_append_right _ (ihb d hd)
  | loop c s ih => exact ih
  | loopFor m ds c i s ih =>
    intro d hd
    rcases List.mem_append.1 hd with hd | hd
    · cases m <;> simp at hd
      exact List.mem_append_left _ hd
    · exact List.mem_append_right _ (ih d hd)
  | each d a s ih =>
    intro x hx
    rcases List.mem_append.1 hx with hx | hx
    · cases mac <;> simp at hx
      subst hx
      exact List.mem_cons_self
    · have hx' := ih x hx
      cases d with
      | none => exact hx'
      | some d => exact List.mem_cons_of_mem _ hx'
  | _ => intro d hd; cases hd

/-- A removed declaration is not mentioned in the function except in assignments. -/
theorem removed_unused {G : List Name} {f : Func Unit} (h : f.Valid G) {d : Decl} (hd : d ∈ f.decls)
    (hr : d.id ∈ removed f) : ∀ n ∈ d.owns, (∀ k, n ≠ .consts k) →
      n ∉ f.params.flatMap Decl.names ++ readsM (visitFunc f).1 := by
  intro n hn hk hm
  obtain ⟨e, he, heq, -⟩ := mem_removed hr
  exact ((visitFunc_res h).clean n hm hk d hd hn).2 e he heq

/-- Assumptions about the function: an enumeration is mentioned if its constants are used, a variable of a range-based
loop is mentioned, unused variables are plain ones, values which are assigned to unused variables are quiet, a local
variable is mentioned if there is a reference to it. -/
structure Harmless (W : World) (f : Func Unit) : Prop where
  enums : ∀ d ∈ f.decls, Name.consts d.id ∈ f.reads → Name.consts d.id ∈ d.provides →
    ∃ n ∈ d.provides, (∀ k, n ≠ .consts k) ∧ n ∈ f.reads
  each : ∀ d ∈ eachVars f.body, ¬ f.Unused d
  plain : ∀ d ∈ f.decls, f.Unused d → Plain W d
  quiet : ∀ p ∈ assigns f.body, ∀ d ∈ f.decls, d.id = p.1 → f.Unused d → Quiet W p.2
  refs : ∀ x, W.target x ≠ x → ∀ d ∈ f.decls, d.id = W.target x → ¬ f.Unused d

theorem eachVars_sub {M : Type} {s : Stmt M} : ∀ d ∈ eachVars s, d ∈ declsOf s := by
  induction s with
  | seq a b iha ihb =>
    intro d hd
    rcases List.mem_append.1 hd with hd | hd
    · exact List.mem_append_left _ (iha d hd)
    · exact List.mem_append_right _ (ihb d hd)
  | block m s ih => exact ih
  | ite c a b iha ihb =>
    intro d hd
    rcases List.mem_append.1 hd with hd | hd
    · exact List.mem_append_left _ (iha d hd)
    · exact List.mem_append_right _ (ihb d hd)
  | loop c s ih => exact ih
  | loopFor m ds c i s ih => exact fun d hd => List.mem_append_right _ (ih d hd)
  | each d a s ih =>
    cases d with
    | none => exact ih
    | some d =>
      intro x hx
      rcases List.mem_cons.1 hx with rfl | hx
      · exact List.mem_cons_self
      · exact List.mem_cons_of_mem _ (ih x hx)
  | _ => intro d hd; cases hd

/-- **Elimination of dead declarations.** The result is accepted by a compiler, it has the same parameters.  A group of
variables which are declared together is removed entirely or is not removed at all.  If the function has defined
behaviour then the result has the same behaviour: the same sequence of calls and of accesses to volatile variables, the
same result, the same values of variables which exist after the call.  This holds for any number of iterations, so it
is true for infinite loops. -/
theorem eliminate_partial {W : World} {G : List Name} {f : Func Unit} (h : f.Valid G) (hh : Harmless W f) :
    (eliminate f).params = f.params ∧ (eliminate f).Ok G ∧
    (∀ g ∈ groups f.body, (∀ d ∈ g, d.id ∈ removed f) ∨ ∀ d ∈ g, d.id ∉ removed f) ∧
    ∀ n σ r, run W n f.body σ = some r → ∃ r', run W n (eliminate f).body σ = some r' ∧ Same f r r' := by
  have hu := h.uniq
  have hloc : ∀ x ∈ removed f, ∃ d ∈ declsOf f.body, d.id = x ∧ ∀ e ∈ d.init, sideEffect e = false := by
    intro x hx
    obtain ⟨d, h1, h2⟩ := removed_local f x hx
    exact ⟨d, noMacro_sub d h1, h2⟩
  have hrd : ∀ n ∈ f.reads, n ∈ f.params.flatMap Decl.names ++ readsM (visitFunc f).1 := by
    intro n hn
    rcases List.mem_append.1 hn with hn | hn
    · exact List.mem_append_left _ hn
    · exact List.mem_append_right _ (reads_visit _ _ _ _ n hn)
  have hunused : ∀ d ∈ f.decls, d.id ∈ removed f → f.Unused d := by
    intro d hd hr n hn hm
    by_cases hk : ∃ k, n = .consts k
    · obtain ⟨k, rfl⟩ := hk
      have hkd : k = d.id := by
        unfold Decl.provides at hn
        cases hkind : d.kind with
        | var s => rw [hkind] at hn; simp at hn
        | tag t fl en =>
          rw [hkind] at hn
          cases fl <;> cases en <;> simp at hn <;> exact hn
      subst hkd
      obtain ⟨n', h1, h2, h3⟩ := hh.enums d hd hm hn
      exact removed_unused h hd hr n' (List.mem_cons_of_mem _ h1) h2 (hrd n' h3)
    · exact removed_unused h hd hr n (List.mem_cons_of_mem _ hn) (fun k hk' => hk ⟨k, hk'⟩) (hrd n hm)
  have hpar : ∀ d ∈ f.params, d.id ∉ removed f := by
    intro d hd hr
    obtain ⟨d', h1, h2, -⟩ := hloc _ hr
    have hnd := h.ids
    rw [Func.decls, List.map_append, List.nodup_append] at hnd
    exact hnd.2.2 _ (List.mem_map_of_mem hd) _ (List.mem_map_of_mem h1) h2.symm
  -- Constants of enumerations in the body are the only names which require an assumption.
  have halive : Alive f.decls (removed f) (f.params.flatMap Decl.names ++ readsM (visitFunc f).1) := by
    intro n hn d hd hnd hr
    by_cases hk : ∃ k, n = .consts k
    · obtain ⟨k, rfl⟩ := hk
      have hm : Name.consts k ∈ f.reads := by
        rcases List.mem_append.1 hn with hn | hn
        · exact List.mem_append_left _ hn
        · refine List.mem_append_right _ ?_
          have aux : ∀ (s : Stmt Unit) (b m : Bool) (v : VState),
              Name.consts k ∈ readsM (visit b m v s).1 → Name.consts k ∈ reads s := by
            intro s
            induction s with
            | seq a b iha ihb =>
              intro _ _ _ hx
              rcases List.mem_append.1 hx with hx | hx
              · exact List.mem_append_left _ (iha _ _ _ hx)
              · exact List.mem_append_right _ (ihb _ _ _ hx)
            | expr m e =>
              intro b _ v hx
              rw [visit] at hx
              revert hx
              cases (visitExpr b v e).1 with
              | none =>
                intro hx
                cases e with
                | assign d r =>
                  rcases List.mem_cons.1 hx with hx | hx
                  · cases hx
                  · exact hx
                | _ => exact hx
              | some d => exact fun hx => hx
            | block m s ih => exact fun _ _ _ hx => ih _ _ _ hx
            | ite c a b iha ihb =>
              intro _ _ _ hx
              rcases List.mem_append.1 hx with hx | hx
              · exact List.mem_append_left _ hx
              · rcases List.mem_append.1 hx with hx | hx
                · exact List.mem_append_right _ (List.mem_append_left _ (iha _ _ _ hx))
                · exact List.mem_append_right _ (List.mem_append_right _ (ihb _ _ _ hx))
            | loop c s ih =>
              intro _ _ _ hx
              rcases List.mem_append.1 hx with hx | hx
              · exact List.mem_append_left _ hx
              · exact List.mem_append_right _ (ih _ _ _ hx)
            | loopFor m ds c i s ih =>
              intro _ _ _ hx
              rcases List.mem_append.1 hx with hx | hx
              · exact List.mem_append_left _ hx
              · rcases List.mem_append.1 hx with hx | hx
                · exact List.mem_append_right _ (List.mem_append_left _ hx)
                · rcases List.mem_append.1 hx with hx | hx
                  · exact List.mem_append_right _ (List.mem_append_right _ (List.mem_append_left _ hx))
                  · exact List.mem_append_right _ (List.mem_append_right _ (List.mem_append_right _ (ih _ _ _ hx)))
            | each d a s ih =>
              intro _ _ _ hx
              cases d with
              | none =>
                rcases List.mem_cons.1 hx with hx | hx
                · cases hx
                · rcases List.mem_append.1 hx with hx | hx
                  · cases hx
                  · exact List.mem_cons_of_mem _ (List.mem_append_right _ (ih _ _ _ hx))
              | some d =>
                rcases List.mem_cons.1 hx with hx | hx
                · cases hx
                · rcases List.mem_append.1 hx with hx | hx
                  · exact List.mem_cons_of_mem _ (List.mem_append_left _ hx)
                  · exact List.mem_cons_of_mem _ (List.mem_append_right _ (ih _ _ _ hx))
            | _ => exact fun _ _ _ hx => hx
          exact aux _ _ _ _ hn
      exact hunused d hd hr _ hnd hm
    · exact removed_unused h hd hr n (List.mem_cons_of_mem _ hnd) (fun k hk' => hk ⟨k, hk'⟩) hn
  have hmarks : ∀ p ∈ marks (visitFunc f).1,
      ∃ r, p.2 = .assign p.1 r ∧ sideEffect r = false ∧ (p.1, r) ∈ assigns f.body := marks_visit _ _ _ _
  have heach : ∀ d ∈ eachVars (visitFunc f).1, d.id ∉ removed f := by
    intro d hd hr
    rw [visitFunc, eachVars_visit] at hd
    have hd' : d ∈ f.decls := List.mem_append_right _ (eachVars_sub d hd)
    exact hh.each d hd (hunused d hd' hr)
  have hdecls : declsOf (visitFunc f).1 = declsOf f.body := declsOf_visit _ _ _ _
  have hfilter : (f.params.filter fun d => !(removed f).contains d.id) = f.params :=
    List.filter_eq_self.2 fun d hd => by simpa using hpar d hd
  refine ⟨hfilter, ⟨?_, ?_⟩, ?_, ?_⟩
  · show DeclsOk G (f.params.filter fun d => !(removed f).contains d.id)
    rw [hfilter]
    exact h.ok.1
  · show Ok (afterDecls G (f.params.filter fun d => !(removed f).contains d.id)) (prune (removed f) (visitFunc f).1)
    rw [hfilter]
    refine (prune_ok (all := f.decls) (ok_visit _ _ _ _ h.ok.2) (fun n hn _ => hn) halive.right
      (fun p hp => let ⟨r, h1, _⟩ := hmarks p hp; ⟨r, h1⟩) ?_ heach).1
    intro d hd
    rw [declsOf_visit] at hd
    exact List.mem_append_right _ hd
  · intro g hg
    have hnd := h.ids
    rw [Func.decls, List.map_append, List.nodup_append] at hnd
    have hm : (visitFunc f).2.multi = (bigGroups f.body).reverse := by
      rw [visitFunc, visit_multi, visitFold_multi, List.append_nil]
    by_cases hl : g.length = 1
    · obtain ⟨d, rfl⟩ := List.length_eq_one_iff.1 hl
      by_cases hd : d.id ∈ removed f
      · exact .inl fun x hx => by rw [List.mem_singleton.1 hx]; exact hd
      · exact .inr fun x hx => by rw [List.mem_singleton.1 hx]; exact hd
    · have hpw : ((bigGroups f.body).reverse).Pairwise fun a b => ∀ x ∈ a, x ∉ b := by
        rw [List.pairwise_reverse]
        refine List.pairwise_map.2 (((groups_disjoint hnd.2.1).sublist List.filter_sublist).imp ?_)
        exact fun hab x hx hx' => hab x hx' hx
      have hmem : g.map (·.id) ∈ (bigGroups f.body).reverse := by
        rw [List.mem_reverse]
        exact List.mem_map.2 ⟨g, List.mem_filter.2 ⟨hg, by simpa using hl⟩, rfl⟩
      have hw := keepGroups_whole (dead := ((visitFunc f).2.dead.filter allowed).map (·.decl.id)) hpw _ hmem
      rw [← hm] at hw
      rcases hw with hw | hw
      · exact .inl fun d hd => hw _ (List.mem_map_of_mem hd)
      · exact .inr fun d hd => hw _ (List.mem_map_of_mem hd)
  · intro n σ r hr
    have hplain : ∀ d ∈ f.decls, d.id ∈ removed f → Plain W d := fun d hd hx => hh.plain d hd (hunused d hd hx)
    have hdecl : ∀ x ∈ removed f, ∃ d ∈ f.decls, d.id = x := by
      intro x hx
      obtain ⟨d, h1, h2, -⟩ := hloc x hx
      exact ⟨d, List.mem_append_right _ h1, h2⟩
    have hhid : Hidden W (removed f) := by
      refine ⟨fun x hx => ?_, fun x hx hm => ?_⟩
      · obtain ⟨d, h1, rfl⟩ := hdecl x hx
        exact (hplain d h1 hx).vis
      · obtain ⟨d, h1, h2⟩ := hdecl _ hm
        by_cases ht : W.target x = x
        · rw [ht] at hm; exact hx hm
        · exact hh.refs x ht d h1 h2 (hunused d h1 (h2 ▸ hm))
    have hclean : Clean W (removed f) (visitFunc f).1 := by
      refine ⟨?_, ?_, ?_, heach⟩
      · intro x hx hm
        obtain ⟨d, h1, rfl⟩ := hdecl x hm
        have hv : Name.var d.id ∈ f.params.flatMap Decl.names ++ readsM (visitFunc f).1 :=
          List.mem_append_right _ hx
        exact removed_unused h h1 hm _ List.mem_cons_self (fun k hk => by cases hk) hv
      · intro p hp
        obtain ⟨r, h1, h2, h3⟩ := hmarks p hp
        refine ⟨r, h1, fun hm => ?_⟩
        obtain ⟨d, h4, h5⟩ := hdecl _ hm
        have hun := hunused d h4 (h5 ▸ hm)
        have hpl := hh.plain d h4 hun
        rw [← h5]
        exact ⟨h2, hh.quiet _ h3 d h4 h5 hun, hpl.target, hpl.vol⟩
      · intro d hd hm
        rw [hdecls] at hd
        have hd' : d ∈ f.decls := List.mem_append_right _ hd
        refine ⟨hplain d hd' hm, ?_⟩
        obtain ⟨d', h1, h2, h3⟩ := hloc _ hm
        have := hu.ids d' (List.mem_append_right _ h1) d hd' h2
        exact this ▸ h3
    have hrun : run W n (visitFunc f).1 σ = some r := by
      rw [visitFunc, run_visit]
      exact hr
    obtain ⟨τ', h1, h2⟩ := run_sim hhid n hclean σ σ r.2 r.1 ⟨rfl, fun _ _ => rfl⟩ hrun
    refine ⟨(r.1, τ'), h1, rfl, h2.trace, fun x hx => h2.env x fun hm => ?_⟩
    obtain ⟨d, h3, h4⟩ := hdecl x hm
    exact hx d h3 h4

end DeadDecls
end Tsar
