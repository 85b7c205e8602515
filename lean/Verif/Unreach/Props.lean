import Verif.Unreach.Plain

/-!
# Properties of elimination of unreachable code

The specification is in `Verif.Unreach.Spec`: how a text is read (`Stmt.toks`,
`ProperS`) and how a program is executed (`run`), restrictions are in
`Verif.Unreach.Safe`.
-/

namespace Tsar.Unreach

/-- The text after elimination is a program which has the same result as the original
one (without marks) in each run which does not contradict coverage data, and does not
end if the original one does not. `SafeS` excludes constructs which are transformed
incorrectly, see the theorems below. -/
theorem eliminate_partial {s : Stmt} (hs : SafeS s) (hp : ProperS s) :
    ∃ s' : Stmt, s'.toks = edit s ∧ ProperS s' ∧ s'.plain = s' ∧
      ∀ E n σ, run E n s σ ≠ .hit → run E n s' σ = run E n s.plain σ := by
  obtain ⟨⟨s', h1, h2, -, -, h5⟩, -⟩ := edit_good s hs hp
  have hcc : Expr.plain ∘ Expr.plain = Expr.plain := funext plain_plainE
  have hpp : ∀ s : Stmt, s.plain.plain = s.plain := by
    intro s
    induction s <;> simp_all [Stmt.plain, plain_plainE]
  refine ⟨s'.plain, by rw [plain_toks, h1], plain_properS h2, hpp s', ?_⟩
  intro E n σ hr
  have e1 := (h5 E n σ).resolve_left hr
  have e2 := (plain_run E n s σ).resolve_left hr
  have e3 := (plain_run E n s' σ).resolve_left (by rw [e1]; exact hr)
  rw [e3, e1, e2]

/-- A program without unreachable code is not changed. -/
theorem eliminate_unmarked (s : Stmt) : edit s.plain = s.toks := by
  have nd : ∀ (e d : Expr), e.plain ≠ .dead d := by
    intro e
    induction e <;> simp_all [Expr.plain]
  have he : ∀ (e : Expr) (b : Bool), editE b e.plain = e.toks := by
    intro e
    induction e with
    | land a b iha ihb =>
      intro s
      have : editE s (.land a.plain b.plain) =
          editE false a.plain ++ [.andand] ++ editE s b.plain := by
        cases h : b.plain <;> first | exact absurd h (nd b _) | rfl
      simp [Expr.plain, Expr.toks, this, iha, ihb]
    | lor a b iha ihb =>
      intro s
      have : editE s (.lor a.plain b.plain) =
          editE false a.plain ++ [.oror] ++ editE s b.plain := by
        cases h : b.plain <;> first | exact absurd h (nd b _) | rfl
      simp [Expr.plain, Expr.toks, this, iha, ihb]
    | cond c a b ihc iha ihb =>
      intro s
      have : editE s (.cond c.plain a.plain b.plain) = editE false c.plain ++ [.quest] ++
          editE false a.plain ++ [.colon] ++ editE s b.plain := by
        cases ha : a.plain <;> cases hb : b.plain <;>
          first | exact absurd ha (nd a _) | exact absurd hb (nd b _) | rfl
      simp [Expr.plain, Expr.toks, this, ihc, iha, ihb]
    | _ => simp_all [Expr.plain, Expr.toks, editE]
  have ho : ∀ (o : Option Expr) (b : Bool), oedit b (o.map Expr.plain) = otoks o := by
    intro o b
    cases o <;> simp [oedit, otoks, he]
  have nds : ∀ (s d : Stmt), s.plain ≠ .dead d := by
    intro s
    induction s <;> simp_all [Stmt.plain]
  induction s with
  | ifT c t ih =>
    rw [Stmt.plain, (edit_ifT (nds t)).1]; simp [Stmt.toks, he, ih]
  | ifE c t e iht ihe =>
    rw [Stmt.plain, (edit_ifE (nds t) (nds e)).1]; simp [Stmt.toks, he, iht, ihe]
  | loop c t ih =>
    rw [Stmt.plain, (edit_loop (nds t)).1]; simp [Stmt.toks, he, ih]
  | for_ i c k b ih =>
    rw [Stmt.plain, (edit_for (nds b)).1]; simp [Stmt.toks, ho, ih]
  | forD x e c k b ih =>
    rw [Stmt.plain, (edit_forD (nds b)).1]; simp [Stmt.toks, he, ho, ih]
  | _ => simp_all [Stmt.plain, Stmt.toks, edit]

/-! ## Unreachable code is removed -/

/-- An identifier occurs in a reachable part of an expression. -/
def Occ (x : Nat) : Expr → Prop
  | .var y => y = x
  | .num _ => False
  | .inc y => y = x
  | .bin _ a b => Occ x a ∨ Occ x b
  | .par e => Occ x e
  | .asg y e => y = x ∨ Occ x e
  | .call y e => y = x ∨ Occ x e
  | .land a b => Occ x a ∨ Occ x b
  | .lor a b => Occ x a ∨ Occ x b
  | .cond c a b => Occ x c ∨ Occ x a ∨ Occ x b
  | .comma a b => Occ x a ∨ Occ x b
  | .dead _ => False

/-- An identifier occurs in a reachable part of a statement. The increment of `for`
has no own mark, it is unreachable if the body is unreachable. -/
def OccS (x : Nat) : Stmt → Prop
  | .expr e => Occ x e
  | .empty | .skip | .brk | .cont | .dead _ => False
  | .seq a b => OccS x a ∨ OccS x b
  | .decl y e r => y = x ∨ Occ x e ∨ OccS x r
  | .block b => OccS x b
  | .ifT c t => Occ x c ∨ OccS x t
  | .ifE c t e => Occ x c ∨ OccS x t ∨ OccS x e
  | .loop c b => Occ x c ∨ OccS x b
  | .for_ i c k b => (∃ e, i = some e ∧ Occ x e) ∨ (∃ e, c = some e ∧ Occ x e) ∨
      ((∀ d, b ≠ .dead d) ∧ ∃ e, k = some e ∧ Occ x e) ∨ OccS x b
  | .forD y e c k b => y = x ∨ Occ x e ∨ (∃ e, c = some e ∧ Occ x e) ∨
      ((∀ d, b ≠ .dead d) ∧ ∃ e, k = some e ∧ Occ x e) ∨ OccS x b
  | .ret e => Occ x e

theorem mem_beforeLast {t u : Tok} {ts : List Tok} (h : t ∈ beforeLast u ts) : t = u ∨ t ∈ ts := by
  simp only [beforeLast, List.mem_append, List.mem_cons, List.not_mem_nil, or_false] at h
  rcases h with (h | h) | h
  · exact .inr (List.dropLast_subset _ h)
  · exact .inl h
  · simp only [Option.mem_toList] at h
    exact .inr (List.mem_of_getLast? h)

theorem occ_edit {x : Nat} : ∀ (e : Expr) (s : Bool), .id x ∈ editE s e → Occ x e := by
  intro e
  induction e with
  | land a b iha ihb =>
    intro s h
    by_cases hb : ∃ d, b = .dead d
    · obtain ⟨d, rfl⟩ := hb
      exact .inl (iha _ h)
    · have he : editE s (.land a b) = editE false a ++ [.andand] ++ editE s b := by
        cases b <;> first | rfl | exact absurd ⟨_, rfl⟩ hb
      rw [he] at h
      simp only [List.mem_append, List.mem_cons, List.not_mem_nil, or_false,
        reduceCtorEq] at h
      exact h.imp (iha _) (ihb _)
  | lor a b iha ihb =>
    intro s h
    by_cases hb : ∃ d, b = .dead d
    · obtain ⟨d, rfl⟩ := hb
      exact .inl (iha _ h)
    · have he : editE s (.lor a b) = editE false a ++ [.oror] ++ editE s b := by
        cases b <;> first | rfl | exact absurd ⟨_, rfl⟩ hb
      rw [he] at h
      simp only [List.mem_append, List.mem_cons, List.not_mem_nil, or_false,
        reduceCtorEq] at h
      exact h.imp (iha _) (ihb _)
  | cond c a b ihc iha ihb =>
    intro s h
    simp only [Occ]
    by_cases ha : ∃ d, a = .dead d
    · obtain ⟨d, rfl⟩ := ha
      simp only [editE] at h
      split at h
      · split at h
        · simp at h
          rcases h with h | h
          · exact .inl (ihc _ h)
          · exact .inr (.inr (ihb _ h))
        · simp at h
          rcases h with h | h
          · exact .inl (ihc _ h)
          · rcases mem_beforeLast h with h | h
            · cases h
            · exact .inr (.inr (ihb _ h))
      · exact .inr (.inr (ihb _ h))
    · by_cases hb : ∃ d, b = .dead d
      · obtain ⟨d, rfl⟩ := hb
        have he : editE s (.cond c a (.dead d)) = if side c then
            if s then [.lp] ++ editE false c ++ [.comma] ++ editE false a ++ [.rp]
            else [.lp] ++ editE false c ++ [.comma] ++ editE false a
            else editE false a := by
          cases a <;> first | rfl | exact absurd ⟨_, rfl⟩ ha
        rw [he] at h
        split at h
        · split at h
          · simp at h
            rcases h with h | h
            · exact .inl (ihc _ h)
            · exact .inr (.inl (iha _ h))
          · simp at h
            rcases h with h | h
            · exact .inl (ihc _ h)
            · exact .inr (.inl (iha _ h))
        · exact .inr (.inl (iha _ h))
      · have he : editE s (.cond c a b) = editE false c ++ [.quest] ++ editE false a ++
            [.colon] ++ editE s b := by
          cases a <;> cases b <;>
            first | rfl | exact absurd ⟨_, rfl⟩ ha | exact absurd ⟨_, rfl⟩ hb
        rw [he] at h
        simp at h
        rcases h with h | h | h
        · exact .inl (ihc _ h)
        · exact .inr (.inl (iha _ h))
        · exact .inr (.inr (ihb _ h))
  | bin o a b iha ihb =>
    intro s h
    simp [editE] at h
    exact h.imp (iha _) (ihb _)
  | comma a b iha ihb =>
    intro s h
    simp [editE] at h
    exact h.imp (iha _) (ihb _)
  | par e ih => intro s h; simp [editE] at h; exact ih _ h
  | asg y e ih => intro s h; simp [editE] at h; exact h.imp Eq.symm (ih _)
  | call y e ih => intro s h; simp [editE] at h; exact h.imp Eq.symm (ih _)
  | var y => intro s h; simp [editE] at h; exact h.symm
  | inc y => intro s h; simp [editE] at h; exact h.symm
  | num y => intro s h; simp [editE] at h
  | dead e => intro s h; simp [editE] at h

theorem occ_oedit {x : Nat} {o : Option Expr} {s : Bool} (h : .id x ∈ oedit s o) :
    ∃ e, o = some e ∧ Occ x e := by
  cases o with
  | none => simp [oedit] at h
  | some e => exact ⟨e, rfl, occ_edit e s h⟩

theorem occ_condPart {x : Nat} {c : Expr} (h : .id x ∈ condPart c) : Occ x c := by
  simp only [condPart] at h
  split at h
  · simp at h; exact occ_edit c _ h
  · simp at h

theorem occ_branch {x : Nat} {s : Stmt} {ts : List Tok} (h : .id x ∈ branch ts s) :
    .id x ∈ ts := by
  cases s with
  | block b =>
    simp only [branch] at h
    split at h
    · exact h
    · exact List.mem_of_mem_drop (List.dropLast_subset _ h)
  | forD y e c k b =>
    simp only [branch, List.mem_append, List.mem_cons, List.not_mem_nil, or_false, reduceCtorEq,
      false_or, closeBrace] at h
    split at h
    · simp only [List.mem_append, List.mem_cons, List.not_mem_nil, or_false, reduceCtorEq] at h
      rcases mem_beforeLast h with h | h
      · cases h
      · exact List.dropLast_subset _ h
    · rcases mem_beforeLast h with h | h
      · cases h
      · exact h
  | dead d => simp [branch] at h
  | _ => exact h

/-- No identifier of unreachable code remains in the text. Loops `for` with an
unreachable body are excluded if the increment remains. -/
theorem eliminate_removed {s : Stmt} (hs : SafeS s) {x : Nat} (h : .id x ∈ edit s) : OccS x s := by
  induction s with
  | expr e => simp [edit] at h; exact occ_edit e _ h
  | ret e => simp [edit] at h; exact occ_edit e _ h
  | empty | skip | brk | cont => simp [edit] at h
  | dead d ih => simp [edit] at h
  | seq a b iha ihb => simp [edit] at h; exact h.imp (iha hs.1) (ihb hs.2)
  | decl y e r ih =>
    simp [edit] at h
    rcases h with h | h | h
    · exact .inl h.symm
    · exact .inr (.inl (occ_edit e _ h))
    · exact .inr (.inr (ih hs.2 h))
  | block b ih => simp [edit] at h; exact ih hs h
  | ifT c t ih =>
    by_cases hd : ∃ d, t = .dead d
    · obtain ⟨d, rfl⟩ := hd
      exact .inl (occ_condPart h)
    · simp only [not_exists] at hd
      obtain ⟨he, -, hs'⟩ := edit_ifT (c := c) hd
      rw [he] at h
      simp at h
      exact h.imp (occ_edit c _) (ih (hs' hs).2.1)
  | loop c t ih =>
    by_cases hd : ∃ d, t = .dead d
    · obtain ⟨d, rfl⟩ := hd
      exact .inl (occ_condPart h)
    · simp only [not_exists] at hd
      obtain ⟨he, -, hs'⟩ := edit_loop (c := c) hd
      rw [he] at h
      simp at h
      exact h.imp (occ_edit c _) (ih (hs' hs).2.1)
  | ifE c t e iht ihe =>
    by_cases hd : ∃ d, t = .dead d
    · obtain ⟨d, rfl⟩ := hd
      simp only [edit, List.mem_append] at h
      simp only [SafeS] at hs
      rcases h with h | h
      · exact .inl (occ_condPart h)
      · exact .inr (.inr (ihe hs.2.1 (occ_branch h)))
    · simp only [not_exists] at hd
      by_cases hd' : ∃ d, e = .dead d
      · obtain ⟨d, rfl⟩ := hd'
        obtain ⟨he, -, hs'⟩ := edit_ifE2 (c := c) (d := d) hd
        rw [he] at h
        simp only [List.mem_append] at h
        rcases h with h | h
        · exact .inl (occ_condPart h)
        · exact .inr (.inl (iht (hs' hs).2.1 (occ_branch h)))
      · simp only [not_exists] at hd'
        obtain ⟨he, -, hs'⟩ := edit_ifE (c := c) hd hd'
        rw [he] at h
        simp at h
        rcases h with h | h | h
        · exact .inl (occ_edit c _ h)
        · exact .inr (.inl (iht (hs' hs).2.1 h))
        · exact .inr (.inr (ihe (hs' hs).2.2.1 h))
  | for_ i c k b ih =>
    by_cases hd : ∃ d, b = .dead d
    · obtain ⟨d, rfl⟩ := hd
      simp only [SafeS] at hs
      simp only [edit, forRest] at h
      by_cases hsc : oside c = true
      · simp [hsc, hs.2.1 hsc, otoks] at h
        by_cases hi : oside i = true
        · simp [hi] at h
          rcases h with h | h
          · exact .inl (occ_oedit h)
          · exact .inr (.inl (occ_oedit h))
        · simp [hi] at h
          exact .inr (.inl (occ_oedit h))
      · have hi : ¬ oside i = true := fun h => hsc (hs.1 h)
        simp [hsc, hi] at h
    · simp only [not_exists] at hd
      obtain ⟨he, -, hs'⟩ := edit_for (i := i) (c := c) (k := k) hd
      rw [he] at h
      simp at h
      rcases h with h | h | h | h
      · exact .inl (occ_oedit h)
      · exact .inr (.inl (occ_oedit h))
      · exact .inr (.inr (.inl ⟨hd, occ_oedit h⟩))
      · exact .inr (.inr (.inr (ih (hs' hs).2.2.2.1 h)))
  | forD y e c k b ih =>
    by_cases hd : ∃ d, b = .dead d
    · obtain ⟨d, rfl⟩ := hd
      simp only [SafeS] at hs
      simp [edit, bodyRest_ok hs.2.2] at h
      rcases h with h | h | h
      · exact .inl h.symm
      · exact .inr (.inl (occ_edit e _ h))
      · exact .inr (.inr (.inl (occ_oedit h)))
    · simp only [not_exists] at hd
      obtain ⟨he, hs'⟩ := edit_forD (x := y) (e := e) (c := c) (k := k) hd
      rw [he] at h
      simp at h
      rcases h with h | h | h | h | h
      · exact .inl h.symm
      · exact .inr (.inl (occ_edit e _ h))
      · exact .inr (.inr (.inl (occ_oedit h)))
      · exact .inr (.inr (.inr (.inl ⟨hd, occ_oedit h⟩)))
      · exact .inr (.inr (.inr (.inr (ih (hs' hs).2.2.2.1 h))))

/-! ## Programs which are transformed incorrectly -/

/-- Operations and functions of examples: a call adds its argument to variable 9. -/
def exEnv : Env := ⟨fun _ a b => a + b, fun _ v σ => (v, Function.update σ 9 (σ 9 + v))⟩

/-- The text is a program with another result. -/
def Wrong (s : Stmt) : Prop :=
  ProperS s ∧ ∃ s', s'.toks = edit s ∧ ProperS s' ∧ s'.plain = s' ∧ ∃ σ τ τ',
    run exEnv 3 s σ = .ok .norm τ ∧ run exEnv 3 s' σ = .ok .norm τ' ∧ ∃ x, τ x ≠ τ' x

/-- `x = a || unreachable` becomes `x = a`: the value is `a` instead of 1. -/
theorem eliminate_or_fails : Wrong (.expr (.asg 0 (.lor (.var 1) (.dead (.var 2))))) := by
  refine ⟨by simp [ProperS, Proper, lvl], .expr (.asg 0 (.var 1)), rfl,
    by simp [ProperS, Proper, lvl], rfl, fun _ => 2, Function.update (fun _ => 2) 0 1,
    Function.update (fun _ => 2) 0 2, ?_, ?_, 0, by simp⟩
  · simp [run, ev, Res.ofE]
  · simp [run, ev, Res.ofE]

/-- `x = c ? a, b : unreachable` becomes `x = a, b`: the value of `x` is `a`. -/
theorem eliminate_comma_fails :
    Wrong (.expr (.asg 0 (.cond (.num 1) (.comma (.num 5) (.num 6)) (.dead (.num 7))))) := by
  refine ⟨by simp [ProperS, Proper, lvl], .expr (.comma (.asg 0 (.num 5)) (.num 6)), rfl,
    by simp [ProperS, Proper, lvl], rfl, fun _ => 2, Function.update (fun _ => 2) 0 6,
    Function.update (fun _ => 2) 0 5, ?_, ?_, 0, by simp⟩
  · simp [run, ev, Res.ofE]
  · simp [run, ev, Res.ofE]

/-- `if (a) x = 1; else if (b) { unreachable } y = 1;` becomes
`if (a) x = 1; else y = 1;`. -/
theorem eliminate_elseif_fails :
    Wrong (.seq (.ifE (.var 0) (.expr (.asg 1 (.num 1)))
      (.ifT (.var 2) (.dead (.block (.expr (.inc 3)))))) (.expr (.asg 4 (.num 1)))) := by
  refine ⟨by simp [ProperS, Proper, lvl, Single, opens, hasDecl],
    .ifE (.var 0) (.expr (.asg 1 (.num 1))) (.expr (.asg 4 (.num 1))), rfl,
    by simp [ProperS, Proper, lvl, Single, opens], rfl, fun x => if x = 0 then 7 else 0,
    Function.update (Function.update (fun x => if x = 0 then 7 else 0) 1 1) 4 1,
    Function.update (fun x => if x = 0 then 7 else 0) 1 1, ?_, ?_, 4, by simp⟩
  · simp [run, ev, Res.ofE, Res.andThen]
  · simp [run, ev, Res.ofE]

/-- `if (a) if (b) { x = 1; y = 1; } else unreachable` becomes
`if (a) x = 1; y = 1;`. -/
theorem eliminate_braces_fails :
    Wrong (.ifT (.var 0) (.ifE (.num 1)
      (.block (.seq (.expr (.asg 1 (.num 1))) (.expr (.asg 2 (.num 1)))))
      (.dead (.block (.expr (.inc 3)))))) := by
  refine ⟨by simp [ProperS, Proper, lvl, Single, opens, hasDecl],
    .seq (.ifT (.var 0) (.expr (.asg 1 (.num 1)))) (.expr (.asg 2 (.num 1))), rfl,
    by simp [ProperS, Proper, lvl, Single, hasDecl], rfl, fun _ => 0,
    fun _ => 0, Function.update (fun _ => 0) 2 1, ?_, ?_, 2, by simp⟩
  · simp [run, ev, Res.ofE]
  · simp [run, ev, Res.ofE, Res.andThen]

theorem last_toks : ∀ s : Stmt, ProperS s →
    (Single s ∨ s.toks ≠ [] → s.toks.getLast? = some .semi ∨ s.toks.getLast? = some .rb) := by
  have key : ∀ (us ts : List Tok), (ts.getLast? = some .semi ∨ ts.getLast? = some .rb) →
      (us ++ ts).getLast? = some .semi ∨ (us ++ ts).getLast? = some .rb :=
    fun us ts h => h.imp last_append last_append
  intro s
  induction s with
  | expr e => intro _ _; exact key _ _ (.inl rfl)
  | ret e => intro _ _; exact key _ _ (.inl rfl)
  | empty => intro _ h; simp [Single, Stmt.toks] at h
  | skip | brk | cont => intro _ _; exact .inl rfl
  | dead d ih => intro hp h; exact ih hp h
  | block b ih => intro _ _; exact key _ _ (.inr rfl)
  | seq a b iha ihb =>
    intro hp h
    simp only [Single, false_or, Stmt.toks] at h ⊢
    by_cases hb : b.toks = []
    · rw [hb, List.append_nil] at h ⊢
      exact iha hp.1 (.inr h)
    · exact key _ _ (ihb hp.2.1 (.inr hb))
  | decl x e r ih =>
    intro hp _
    simp only [Stmt.toks]
    by_cases hb : r.toks = []
    · rw [hb, List.append_nil]
      exact .inl (last_append rfl)
    · exact key _ _ (ih hp.2.2 (.inr hb))
  | ifT c t ih => intro hp _; exact key _ _ (ih hp.2.1 (.inl hp.2.2))
  | ifE c t e iht ihe => intro hp _; exact key _ _ (ihe hp.2.2.1 (.inl hp.2.2.2.2.1))
  | loop c t ih => intro hp _; exact key _ _ (ih hp.2.1 (.inl hp.2.2))
  | for_ i c k b ih => intro hp _; exact key _ _ (ih hp.2.2.2.1 (.inl hp.2.2.2.2))
  | forD x e c k b ih => intro hp _; exact key _ _ (ih hp.2.2.2.2.1 (.inl hp.2.2.2.2.2))

/-- `for (i = 0; i < n; ++i) { unreachable }` becomes `i =; ++i`, it is not a program. -/
theorem eliminate_for_fails :
    let s := Stmt.for_ (some (.asg 0 (.num 0))) (some (.bin 0 (.var 0) (.var 1)))
      (some (.inc 0)) (.dead (.block (.expr (.inc 3))))
    ProperS s ∧ edit s = [.id 0, .eq, .semi, .incr, .id 0] ∧
      ∀ s', ProperS s' → s'.toks ≠ edit s := by
  refine ⟨by simp [ProperS, OProper, Proper, lvl, Single], rfl, ?_⟩
  intro s' hp h
  have := last_toks s' hp (.inr (by rw [h]; simp [edit, forRest, oside, side, otoks]))
  rw [h] at this
  revert this
  decide

theorem balancedE (e : Expr) : e.toks.count .lp = e.toks.count .rp := by
  induction e <;> simp_all [Expr.toks, List.count_append]

theorem balancedO (o : Option Expr) : (otoks o).count .lp = (otoks o).count .rp := by
  cases o <;> simp [otoks, balancedE]

theorem balanced (s : Stmt) : s.toks.count .lp = s.toks.count .rp := by
  induction s <;>
    simp_all [Stmt.toks, List.count_append, balancedE, balancedO] <;> omega

/-- `f(g(1) ? a : unreachable);` becomes `f((g(1), a);`, it is not a program. -/
theorem eliminate_cond_fails :
    let s := Stmt.expr (.call 5 (.cond (.call 6 (.num 1)) (.var 0) (.dead (.var 1))))
    ProperS s ∧ ∀ s' : Stmt, s'.toks ≠ edit s := by
  refine ⟨by simp [ProperS, Proper, lvl], ?_⟩
  intro s' h
  have := balanced s'
  rw [h] at this
  revert this
  decide

end Tsar.Unreach
