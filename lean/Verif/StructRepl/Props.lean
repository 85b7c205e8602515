import Verif.StructRepl.Preserve

/-!
# Replacement of structures with separate variables: properties C133, C134
-/

namespace Tsar.StructRepl

/-! ### C133 -/

theorem le_fix (i : Info) (c : Cands) : Le c (fun v => (c v).map (fun l => l.map (fixFlags i v))) := by
  intro v l h
  simp only [Option.map_eq_some_iff] at h
  obtain ⟨k, hk, rfl⟩ := h
  refine ⟨k, hk, fun r hr => ⟨fixFlags i v r, List.mem_map_of_mem hr, ?_⟩⟩
  unfold fixFlags
  split_ifs <;> rfl

/-- A body in which each base of a member expression starts with another member expression, or contains at most one
candidate, not in an index, and no other member expression. There are no references to replaced candidates in a new
function if all requested calls have been replaced. Members may be added to candidates after the body has been analyzed.
-/
theorem replaced_partial (i : Info) (req : Nat → Option Req) (mo : Nat → Option (List PMeta)) (body : Expr)
    (c final : Cands) (ht : tame req (fun v => (c v).isSome) body) (hle : Le (sanitize i req body c).2 final)
    (hd : Done final mo req (sanitize i req body c).1) (v : Var) (hv : (final v).isSome = true) :
    v ∉ refs (rw final mo (sanitize i req body c).1) := by
  have h := spec_trav req mo (fun v => (c v).isSome) body none (start c) ht (fun _ h => h) rfl (.inl rfl)
  exact (h.clean final ((le_fix i _).trans hle) hd v hv).1 (.inr rfl)

/-- `s->x = s->y + s[i].z` -/
def exBody : Expr :=
  .assign (.member none (.lv2rv (.ref 0)) 5 true)
    (.op 9 (.lv2rv (.member none (.lv2rv (.ref 0)) 6 true))
      (.lv2rv (.member none (.sub (.lv2rv (.ref 0)) (.lv2rv (.ref 1))) 7 false)))

def exInfo : Info := ⟨fun v => v == 3, fun _ => false, false⟩

def exCands : Cands := fun v => if v = 0 then some [] else none

example : (sanitize exInfo noReq exBody exCands).2 0 = some [⟨5, true, false⟩, ⟨6, false, false⟩, ⟨7, false, true⟩] := by
  decide

example : rw (sanitize exInfo noReq exBody exCands).2 noMeta (sanitize exInfo noReq exBody exCands).1 =
    .assign (.paren (.deref (.lv2rv (.new 0 5))))
      (.op 9 (.lv2rv (.new 0 6)) (.lv2rv (.sub (.lv2rv (.new 0 7)) (.lv2rv (.ref 1))))) := by decide

example : tame noReq (fun v => (exCands v).isSome) exBody := by
  simp [exBody, tame, flat, refs, spine, exCands]

/-- A call `g(s, 2)` with metadata: the first parameter is a pointer to a member 5, the second one is the value of
a member 6, the third one is the second argument. -/
example :
    let body : Expr := .seq exBody (.call 4 (.arg (.lv2rv (.ref 0)) (.arg (.lit 2) .nil)))
    let req : Nat → Option Req := fun k => if k = 4 then some (.explicit [⟨0, some 5, .pointer⟩, ⟨0, some 6, .value⟩,
      ⟨1, none, .value⟩]) else none
    let mo : Nat → Option (List PMeta) := fun k => if k = 4 then some [⟨0, some 5, .pointer⟩, ⟨0, some 6, .value⟩,
      ⟨1, none, .value⟩] else none
    let s := sanitize exInfo req body exCands
    rw s.2 mo s.1 = .seq (.assign (.paren (.deref (.lv2rv (.new 0 5))))
      (.op 9 (.lv2rv (.new 0 6)) (.lv2rv (.sub (.lv2rv (.new 0 7)) (.lv2rv (.ref 1))))))
      (.call 4 (.arg (.lv2rv (.new 0 5)) (.arg (.lv2rv (.new 0 6)) (.arg (.lit 2) .nil)))) := by decide

/-- In `s[t->n].x` a member `n` of another structure is treated as a member of `s`, and a reference to `s` remains. -/
theorem replaced_fails : ∃ (i : Info) (body : Expr) (c : Cands) (v : Var),
    ((sanitize i noReq body c).2 v).isSome = true ∧
      v ∈ refs (rw (sanitize i noReq body c).2 noMeta (sanitize i noReq body c).1) := by
  refine ⟨exInfo, .lv2rv (.member none (.sub (.lv2rv (.ref 0)) (.lv2rv (.member none (.lv2rv (.ref 1)) 7 true))) 5 false),
    exCands, 0, by decide, by decide⟩

/-- A reference to a candidate outside of a member expression (`p = s`, `f(s)`, `s + 1`) makes replacement of it
impossible. -/
theorem other_use (i : Info) (req : Nat → Option Req) (v : Var) (c : Cands) (body : Expr) (hf : flat req body)
    (hv : v ∈ refs body) : (sanitize i req body c).2 v = none := by
  have key : ∀ (e : Expr) (st : St), flat req e → st.inner = false →
      (trav req e none st).2.inner = false ∧ (∀ x, st.cands x = none → (trav req e none st).2.cands x = none) ∧
      (∀ x ∈ refs e, (trav req e none st).2.cands x = none) := by
    intro e
    induction e with
    | ref w =>
      intro st _ h
      unfold trav
      split_ifs with h1 h2
      · exact ⟨h, fun x hx => hx, fun x hx => by
          simp only [refs, List.mem_singleton] at hx
          subst hx
          simpa [visit] using h1⟩
      · rw [h] at h2; cases h2
      · refine ⟨h, fun x hx => ?_, fun x hx => ?_⟩
        · simp only [erase]; split_ifs <;> first | rfl | exact hx
        · simp only [refs, List.mem_singleton] at hx
          simp [erase, hx]
    | lit n =>
      intro st _ h
      simp only [trav]
      rw [drop_outer (st := visit st) h]
      exact ⟨h, fun x hx => hx, fun x hx => by simp [refs] at hx⟩
    | lv2rv e ih => intro st h hi; exact ih { st with asg := false } h hi
    | cast e ih =>
      intro st h hi
      obtain ⟨h1, h2⟩ := ih st h hi
      simp only [trav]
      rw [drop_outer h1]
      exact ⟨h1, h2⟩
    | paren e ih => intro st h hi; exact ih (visit st) h hi
    | deref e ih => intro st h hi; exact ih (visit st) h hi
    | addr e ih => intro st h hi; exact ih (visit st) h hi
    | sub b j ihb ihj =>
      intro st h hi
      obtain ⟨h1, h2, h3⟩ := ihb (visit st) h.1 hi
      obtain ⟨k1, k2, k3⟩ := ihj _ h.2 h1
      refine ⟨k1, fun x hx => k2 x (h2 x hx), fun x hx => ?_⟩
      rcases List.mem_append.mp hx with hx | hx
      · exact k2 x (h3 x hx)
      · exact k3 x hx
    | member m b f a ih => intro st h; exact h.elim
    | op k a b iha ihb =>
      intro st h hi
      obtain ⟨h1, h2, h3⟩ := iha (visit st) h.1 hi
      obtain ⟨k1, k2, k3⟩ := ihb _ h.2 h1
      simp only [trav]
      rw [drop_outer k1]
      refine ⟨k1, fun x hx => k2 x (h2 x hx), fun x hx => ?_⟩
      rcases List.mem_append.mp hx with hx | hx
      · exact k2 x (h3 x hx)
      · exact k3 x hx
    | call id args ih =>
      intro st h hi
      simp only [trav, h.1]
      rw [drop_outer (st := visit st) hi]
      obtain ⟨h1, h2⟩ := ih (visit st) h.2 hi
      rw [drop_outer h1]
      exact ⟨h1, h2⟩
    | arg a b iha ihb =>
      intro st h hi
      obtain ⟨h1, h2, h3⟩ := iha st h.1 hi
      obtain ⟨k1, k2, k3⟩ := ihb _ h.2 h1
      simp only [trav, Option.map_none]
      refine ⟨k1, fun x hx => k2 x (h2 x hx), fun x hx => ?_⟩
      rcases List.mem_append.mp hx with hx | hx
      · exact k2 x (h3 x hx)
      · exact k3 x hx
    | nil => intro st _ hi; exact ⟨hi, fun x hx => hx, fun x hx => by simp [refs] at hx⟩
    | new w f =>
      intro st _ h
      simp only [trav]
      rw [drop_outer (st := visit st) h]
      exact ⟨h, fun x hx => hx, fun x hx => by simp [refs] at hx⟩
  have := (key body (start c) hf rfl).2.2 v hv
  simp [sanitize, this]

example : (sanitize exInfo noReq (.seq exBody (.assign (.ref 2) (.lv2rv (.ref 0)))) exCands).2 0 = none := by decide

/-! ### C134 -/

/-- A function without marks. -/
def unmark : Expr → Expr
  | .ref v => .ref v
  | .lit n => .lit n
  | .lv2rv e => .lv2rv (unmark e)
  | .cast e => .cast (unmark e)
  | .paren e => .paren (unmark e)
  | .deref e => .deref (unmark e)
  | .addr e => .addr (unmark e)
  | .sub b i => .sub (unmark b) (unmark i)
  | .member _ b f a => .member none (unmark b) f a
  | .op k a b => .op k (unmark a) (unmark b)
  | .call id args => .call id (unmark args)
  | .arg a rest => .arg (unmark a) (unmark rest)
  | .nil => .nil
  | .new v f => .new v f

/-- Analysis of a function does not change it. -/
theorem unmark_trav : ∀ (e : Expr) (st : St), unmark (trav noReq e none st).1 = unmark e := by
  intro e
  induction e with
  | ref v => intro st; unfold trav; split_ifs <;> rfl
  | lit n => intro st; rfl
  | lv2rv e ih => intro st; simp only [trav, unmark]; rw [ih]
  | cast e ih => intro st; simp only [trav, unmark]; rw [ih]
  | paren e ih => intro st; simp only [trav, unmark]; rw [ih]
  | deref e ih => intro st; simp only [trav, unmark]; rw [ih]
  | addr e ih => intro st; simp only [trav, unmark]; rw [ih]
  | sub b j ihb ihj => intro st; simp only [trav, unmark]; rw [ihb, ihj]
  | member m b f a ih => intro st; simp only [trav, unmark]; rw [ih]
  | op k a b iha ihb => intro st; simp only [trav, unmark]; rw [iha, ihb]
  | call id args ih => intro st; simp only [trav, unmark]; rw [ih]
  | arg a b iha ihb => intro st; simp only [trav, Option.map_none, unmark]; rw [iha, ihb]
  | nil => intro st; rfl
  | new v f => intro st; rfl

theorem sem_unmark (o : Ops) (env : Env) (m : Mem) : ∀ e : Expr, sem o env m (unmark e) = sem o env m e := by
  intro e
  induction e with
  | ref v => rfl
  | lit n => rfl
  | lv2rv e ih => simp only [unmark, sem, ih]
  | cast e ih => simp only [unmark, sem, ih]
  | paren e ih => simp only [unmark, sem, ih]
  | deref e ih => simp only [unmark, sem, ih]
  | addr e ih => simp only [unmark, sem, ih]
  | sub b j ihb ihj => simp only [unmark, sem, ihb, ihj]
  | member m b f a ih => simp only [unmark, sem, ih]
  | op k a b iha ihb => simp only [unmark, sem, iha, ihb]
  | call id args ih => rfl
  | arg a b iha ihb => rfl
  | nil => rfl
  | new v f => rfl

theorem sem_same {o : Ops} {env : Env} {m : Mem} {a b : Expr} (h : unmark a = unmark b) :
    sem o env m a = sem o env m b := by
  rw [← sem_unmark, h, sem_unmark]

theorem run_same {o : Ops} {ext : Nat → Val → Mem → Mem} {ok : Mem → Mem → Prop} {env : Env} {e : Expr} {m m' : Mem}
    (h : Run o ext ok env e m m') : ∀ e2, unmark e2 = unmark e → Run o ext ok env e2 m m' := by
  induction h with
  | skip m => intro e2 h; cases e2 <;> simp [unmark] at h; exact .skip m
  | seq _ _ ih1 ih2 =>
    intro e2 h
    cases e2 <;> simp only [unmark, Expr.op.injEq, reduceCtorEq] at h
    obtain ⟨rfl, h1, h2⟩ := h
    exact .seq (ih1 _ h1) (ih2 _ h2)
  | assign h1 h2 h3 =>
    intro e2 h
    cases e2 <;> simp only [unmark, Expr.op.injEq, reduceCtorEq] at h
    obtain ⟨rfl, k1, k2⟩ := h
    exact .assign (by rw [sem_same k1]; exact h1) (by rw [sem_same k2]; exact h2) h3
  | iteT h1 h2 _ ih =>
    intro e2 h
    cases e2 with
    | op k c e3 =>
      simp only [unmark, Expr.op.injEq] at h
      obtain ⟨rfl, k1, k2⟩ := h
      cases e3 <;> simp only [unmark, Expr.op.injEq, reduceCtorEq] at k2
      obtain ⟨rfl, k2, k3⟩ := k2
      exact .iteT (by rw [sem_same k1]; exact h1) h2 (ih _ k2)
    | _ => simp [unmark] at h
  | iteF h1 _ ih =>
    intro e2 h
    cases e2 with
    | op k c e3 =>
      simp only [unmark, Expr.op.injEq] at h
      obtain ⟨rfl, k1, k2⟩ := h
      cases e3 <;> simp only [unmark, Expr.op.injEq, reduceCtorEq] at k2
      obtain ⟨rfl, k2, k3⟩ := k2
      exact .iteF (by rw [sem_same k1]; exact h1) (ih _ k3)
    | _ => simp [unmark] at h
  | whileT h1 h2 _ _ ih1 ih2 =>
    intro e2 h
    cases e2 <;> simp only [unmark, Expr.op.injEq, reduceCtorEq] at h
    obtain ⟨rfl, k1, k2⟩ := h
    exact .whileT (by rw [sem_same k1]; exact h1) h2 (ih1 _ k2) (ih2 _ (by simp only [unmark, k1, k2]))
  | whileF h1 =>
    intro e2 h
    cases e2 <;> simp only [unmark, Expr.op.injEq, reduceCtorEq] at h
    obtain ⟨rfl, k1, k2⟩ := h
    exact .whileF (by rw [sem_same k1]; exact h1)
  | ext h1 h2 =>
    intro e2 h
    cases e2 with
    | call k e3 =>
      simp only [unmark, Expr.call.injEq] at h
      obtain ⟨rfl, h⟩ := h
      cases e3 with
      | arg a r =>
        simp only [unmark, Expr.arg.injEq] at h
        obtain ⟨k1, k2⟩ := h
        cases r <;> simp [unmark] at k2
        exact .ext (by rw [sem_same k1]; exact h1) h2
      | _ => simp [unmark] at h
    | _ => simp [unmark] at h

theorem run_mono {o : Ops} {ext : Nat → Val → Mem → Mem} {p q : Mem → Mem → Prop} {env : Env} {e : Expr} {m m' : Mem}
    (hst : ∀ m m', p m m' → q m m') (h : Run o ext p env e m m') : Run o ext q env e m m' := by
  induction h with
  | skip m => exact .skip m
  | seq _ _ ih1 ih2 => exact .seq ih1 ih2
  | assign h1 h2 h3 => exact .assign h1 h2 (hst _ _ h3)
  | iteT h1 h2 _ ih => exact .iteT h1 h2 ih
  | iteF h1 _ ih => exact .iteF h1 ih
  | whileT h1 h2 _ _ ih1 ih2 => exact .whileT h1 h2 ih1 ih2
  | whileF h1 => exact .whileF h1
  | ext h1 h2 => exact .ext h1 (hst _ _ h2)

theorem flag_fix {i : Info} {c : Cands} {v : Var} {f : Field} :
    flagOf (fun v => (c v).map (fun l => l.map (fixFlags i v))) v f = (flagOf c v f).map (fixFlags i v) := by
  have hf : ∀ r, (fixFlags i v r).field = r.field := by
    intro r; unfold fixFlags; split_ifs <;> rfl
  unfold flagOf
  cases hc : c v with
  | none => simp [hc]
  | some l =>
    simp only [hc, Option.map_some, Option.bind_some, List.find?_map]
    congr 1
    congr 1
    funext r
    simp [Function.comp, hf]

/-- Executions of a function and of a new function which has parameters instead of structures make the same changes of
memory. It is assumed that the new parameters are initialized with members of structures (`Bound`), and that, while the
original function is executed, pointers to structures are not changed and members which are passed by value
are not changed (`Stable`). There are no calls of other functions which should be replaced, no members which are arrays,
and members of local structures are at different places (these are not unions). -/
theorem preserved_partial (o : Ops) (ext : Nat → Val → Mem → Mem) (i : Info) (t : Types) (env : Env) (body : Expr)
    (c : Cands) (m m' : Mem) (h0 : ∀ v l, c v = some l → l = [])
    (ht : tame noReq (fun v => (c v).isSome) body) (hty : typed t (fun v => (c v).isSome) body)
    (harr : ∀ f, i.isArr f = false) (hcol : ∀ v f, i.isRec v = true → t.col v f = false)
    (hoff : ∀ v f, i.isRec v = true → env.off f = f)
    (hb : Bound i t (sanitize i noReq body c).2 env m)
    (h : Run o ext (Stable i t (sanitize i noReq body c).2 env) env body m m') :
    Run o ext (fun _ _ => True) env (rw (sanitize i noReq body c).2 noMeta (sanitize i noReq body c).1) m m' := by
  have ha : ArrOk t c := by
    intro v f r hr
    cases hc : c v with
    | none => simp [flagOf, hc] at hr
    | some l => simp [flagOf, hc, h0 v l hc] at hr
  have hm := marks_trav i t (fun v => (c v).isSome) body (start c) ht hty (fun _ h => h) rfl (.inl rfl) (.inr rfl) ha
  have hfl : ∀ v f r, flagOf (sanitize i noReq body c).2 v f = some r →
      ∃ r0, flagOf (trav noReq body none (start c)).2.cands v f = some r0 ∧ fixFlags i v r0 = r := by
    intro v f r hr
    simp only [sanitize, flag_fix, Option.map_eq_some_iff] at hr
    exact hr
  have hok : ArrOk t (sanitize i noReq body c).2 := by
    intro v f r hr
    obtain ⟨r0, k1, rfl⟩ := hfl v f r hr
    rw [← hm.arr v f r0 k1]
    unfold fixFlags
    split_ifs <;> rfl
  have hfle : FLe i (trav noReq body none (start c)).2.cands (sanitize i noReq body c).2 := by
    intro v f r _ hr
    refine ⟨fixFlags i v r, by simp only [sanitize, flag_fix, hr, Option.map_some], fun hx => ?_⟩
    unfold fixFlags
    split_ifs with k1 k2
    · exact .inr k1
    · rw [harr] at k2; cases k2
    · exact .inl rfl
    · exact .inl hx
  have hfit := hm.fit _ (le_fix i _) hfle hok
  refine (run_rw o ext i t _ env ?_ (run_same h (sanitize i noReq body c).1 (unmark_trav body _)) true hfit hb).1
  intro v f r hr hrec
  refine ⟨?_, (hok v f r hr).trans (hcol v f hrec), hoff v f hrec⟩
  obtain ⟨r0, _, rfl⟩ := hfl v f r hr
  unfold fixFlags
  simp [hrec]

/-- In the strict mode pointers to all members are passed, so it is enough that pointers to structures are not changed.
-/
theorem preserved_strict_partial (o : Ops) (ext : Nat → Val → Mem → Mem) (i : Info) (t : Types) (env : Env)
    (body : Expr) (c : Cands) (m m' : Mem) (hs : i.strict = true) (h0 : ∀ v l, c v = some l → l = [])
    (ht : tame noReq (fun v => (c v).isSome) body) (hty : typed t (fun v => (c v).isSome) body)
    (harr : ∀ f, i.isArr f = false) (hcol : ∀ v f, i.isRec v = true → t.col v f = false)
    (hoff : ∀ v f, i.isRec v = true → env.off f = f)
    (hb : Bound i t (sanitize i noReq body c).2 env m)
    (h : Run o ext (fun m m' => ∀ v, (c v).isSome = true →
      chase m' (env.var v) (t.depth v) = chase m (env.var v) (t.depth v)) env body m m') :
    Run o ext (fun _ _ => True) env (rw (sanitize i noReq body c).2 noMeta (sanitize i noReq body c).1) m m' := by
  refine preserved_partial o ext i t env body c m m' h0 ht hty harr hcol hoff hb ?_
  have hst : ∀ m m', (∀ v, (c v).isSome = true →
      chase m' (env.var v) (t.depth v) = chase m (env.var v) (t.depth v)) →
      Stable i t (sanitize i noReq body c).2 env m m' := by
    intro m m' hp v f r hr
    have hle := (spec_trav noReq noMeta (fun v => (c v).isSome) body none (start c) ht (fun _ h => h) rfl (.inl rfl)).le
    have hv : ((sanitize i noReq body c).2 v).isSome = true := by
      cases hx : (sanitize i noReq body c).2 v with
      | none => simp [flagOf, hx] at hr
      | some _ => rfl
    refine ⟨hp v ((hle.trans (le_fix i _)).some hv), fun h1 h2 => ?_⟩
    simp only [sanitize, flag_fix, Option.map_eq_some_iff] at hr
    obtain ⟨r0, _, rfl⟩ := hr
    simp [fixFlags, h1, harr, hs] at h2
  exact run_mono hst h

/-! ### Non-vacuity and counterexamples

Variables: 0 is a pointer `s` to a structure at the object 10, 1 is a pointer `p`, 2 is a variable `r`, 3 is a local
structure or union. -/

def exMem : Mem := fun l =>
  if l = ⟨0, []⟩ then .ptr ⟨10, []⟩ else if l = ⟨1, []⟩ then .ptr ⟨10, [5]⟩ else .int 7

def exVar : Var → HLoc := fun v => ⟨v, []⟩

def exOps : Ops := ⟨fun _ x _ => some x, id⟩

def exExt : Nat → Val → Mem → Mem := fun _ _ m => m

def exTypes : Types := ⟨fun v => if v = 0 ∨ v = 1 then 1 else 0, fun _ f => f = 7⟩

/-- `s->x = 1; r = s->y` -/
def okBody : Expr :=
  .seq (.assign (.member none (.lv2rv (.ref 0)) 5 true) (.lit 1))
    (.assign (.ref 2) (.lv2rv (.member none (.lv2rv (.ref 0)) 6 true)))

/-- Hypotheses of `preserved_partial` hold: a pointer to a member 5 and the value of a member 6 are passed. -/
example :
    let env : Env := ⟨exVar, fun _ f => if f = 5 then .value (.ptr ⟨10, [5]⟩) else .value (.int 7), id⟩
    let c := (sanitize exInfo noReq okBody exCands).2
    tame noReq (fun v => (exCands v).isSome) okBody ∧ typed exTypes (fun v => (exCands v).isSome) okBody ∧
    c 0 = some [⟨5, true, false⟩, ⟨6, false, false⟩] ∧
    Bound exInfo exTypes c env exMem ∧
    Run exOps exExt (Stable exInfo exTypes c env) env okBody exMem
      (upd (upd exMem ⟨10, [5]⟩ (.int 1)) ⟨2, []⟩ (.int 7)) := by
  have hfl : ∀ v f r, flagOf (sanitize exInfo noReq okBody exCands).2 v f = some r →
      v = 0 ∧ ((f = 5 ∧ r = ⟨5, true, false⟩) ∨ (f = 6 ∧ r = ⟨6, false, false⟩)) := by
    intro v f r h
    by_cases hv : v = 0
    · subst hv
      have : (sanitize exInfo noReq okBody exCands).2 0 = some [⟨5, true, false⟩, ⟨6, false, false⟩] := by decide
      simp only [flagOf, this, Option.bind_some, List.find?_cons, List.find?_nil] at h
      refine ⟨rfl, ?_⟩
      by_cases h5 : 5 = f
      · simp only [h5, decide_true, Option.some.injEq] at h
        exact .inl ⟨h5.symm, by rw [← h, ← h5]⟩
      · simp only [h5, decide_false] at h
        by_cases h6 : 6 = f
        · simp only [h6, decide_true, Option.some.injEq] at h
          exact .inr ⟨h6.symm, by rw [← h, ← h6]⟩
        · simp [h6] at h
    · have hle := (spec_trav noReq noMeta (fun v => (exCands v).isSome) okBody none (start exCands)
        (by simp [okBody, tame, flat, refs, spine, exCands]) (fun _ h => h) rfl (.inl rfl)).le.trans (le_fix exInfo _)
      have hs : ((sanitize exInfo noReq okBody exCands).2 v).isSome = true := by
        cases hx : (sanitize exInfo noReq okBody exCands).2 v with
        | none => simp [flagOf, hx] at h
        | some _ => rfl
      have := hle.some hs
      simp [start, exCands, hv] at this
  refine ⟨by simp [okBody, tame, flat, refs, spine, exCands], ?_, by decide, ?_, ?_⟩
  · simp [okBody, typed, spine, refs, exCands, chain, exTypes, isVal]
  · intro v f r h
    obtain ⟨rfl, ⟨rfl, rfl⟩ | ⟨rfl, rfl⟩⟩ := hfl v f r h
    · exact ⟨⟨10, []⟩, by decide, by decide⟩
    · exact ⟨⟨10, []⟩, by decide, by decide⟩
  · refine .seq (.assign (by decide) (by decide) ?_) (.assign (by decide) (by decide) ?_)
    · intro v f r h
      obtain ⟨rfl, ⟨rfl, rfl⟩ | ⟨rfl, rfl⟩⟩ := hfl v f r h
      · exact ⟨by decide, fun _ h => by cases h⟩
      · refine ⟨by decide, fun _ _ _ l hl => ?_⟩
        have : l = ⟨10, []⟩ := by
          have k : chase exMem (exVar 0) (exTypes.depth 0) = some ⟨10, []⟩ := by decide
          rw [k] at hl
          exact (Option.some.inj hl).symm
        subst this
        decide
    · intro v f r h
      obtain ⟨rfl, ⟨rfl, rfl⟩ | ⟨rfl, rfl⟩⟩ := hfl v f r h
      · exact ⟨by decide, fun _ h => by cases h⟩
      · refine ⟨by decide, fun _ _ _ l hl => ?_⟩
        have : l = ⟨10, []⟩ := by
          have k : chase (upd exMem ⟨10, [5]⟩ (.int 1)) (exVar 0) (exTypes.depth 0) = some ⟨10, []⟩ := by decide
          rw [k] at hl
          exact (Option.some.inj hl).symm
        subst this
        decide

theorem seq_inv {o : Ops} {ext : Nat → Val → Mem → Mem} {ok : Mem → Mem → Prop} {env : Env} {a b : Expr} {m m' : Mem}
    (h : Run o ext ok env (.seq a b) m m') : ∃ k, Run o ext ok env a m k ∧ Run o ext ok env b k m' := by
  generalize he : Expr.seq a b = e at h
  cases h <;> simp at he
  obtain ⟨rfl, rfl⟩ := he
  exact ⟨_, by assumption, by assumption⟩

theorem assign_inv {o : Ops} {ext : Nat → Val → Mem → Mem} {ok : Mem → Mem → Prop} {env : Env} {a b : Expr} {m m' : Mem}
    (h : Run o ext ok env (.assign a b) m m') :
    ∃ p x, (sem o env m a).1 = some (.mem p) ∧ (sem o env m b).2 = some x ∧ m' = upd m p x := by
  generalize he : Expr.assign a b = e at h
  cases h <;> simp at he
  obtain ⟨rfl, rfl⟩ := he
  exact ⟨_, _, by assumption, by assumption, rfl⟩

/-- `*p = 1; r = s->x`, and `p` points to `s->x`. The member is never assigned through `s`, so it is passed by value and
the new function does not see the change. -/
theorem preserved_fails : ∃ (o : Ops) (ext : Nat → Val → Mem → Mem) (i : Info) (t : Types) (env : Env) (body : Expr)
    (c : Cands) (m m' : Mem), (∀ v l, c v = some l → l = []) ∧ tame noReq (fun v => (c v).isSome) body ∧
    typed t (fun v => (c v).isSome) body ∧ Bound i t (sanitize i noReq body c).2 env m ∧
    Run o ext (fun _ _ => True) env body m m' ∧
    ¬ Run o ext (fun _ _ => True) env (rw (sanitize i noReq body c).2 noMeta (sanitize i noReq body c).1) m m' := by
  refine ⟨exOps, exExt, exInfo, exTypes, ⟨exVar, fun _ _ => .value (.int 7), id⟩,
    .seq (.assign (.deref (.lv2rv (.ref 1))) (.lit 1))
      (.assign (.ref 2) (.lv2rv (.member none (.lv2rv (.ref 0)) 5 true))), exCands, exMem,
    upd (upd exMem ⟨10, [5]⟩ (.int 1)) ⟨2, []⟩ (.int 1), ?_, ?_, ?_, ?_, ?_, ?_⟩
  · intro v l h
    simp only [exCands] at h
    split_ifs at h
    exact (Option.some.inj h).symm
  · simp [tame, flat, refs, spine, exCands]
  · simp [typed, spine, refs, exCands, chain, exTypes, isVal]
  · intro v f r h
    by_cases hv : v = 0
    · subst hv
      have hc : ∀ g, flagOf (sanitize exInfo noReq (.seq (.assign (.deref (.lv2rv (.ref 1))) (.lit 1))
        (.assign (.ref 2) (.lv2rv (.member none (.lv2rv (.ref 0)) 5 true)))) exCands).2 0 g =
          [(⟨5, false, false⟩ : Repl)].find? (fun r => r.field = g) := fun g => rfl
      rw [hc] at h
      by_cases h5 : 5 = f
      · subst h5
        have : r = ⟨5, false, false⟩ := by simpa using h.symm
        subst this
        exact ⟨⟨10, []⟩, by decide, by decide⟩
      · simp [h5] at h
    · have hle := (spec_trav noReq noMeta (fun v => (exCands v).isSome) (.seq (.assign (.deref (.lv2rv (.ref 1))) (.lit 1))
        (.assign (.ref 2) (.lv2rv (.member none (.lv2rv (.ref 0)) 5 true)))) none (start exCands)
        (by simp [tame, flat, refs, spine, exCands]) (fun _ h => h) rfl (.inl rfl)).le.trans (le_fix exInfo _)
      have hs : ((sanitize exInfo noReq (.seq (.assign (.deref (.lv2rv (.ref 1))) (.lit 1))
        (.assign (.ref 2) (.lv2rv (.member none (.lv2rv (.ref 0)) 5 true)))) exCands).2 v).isSome = true := by
        revert h
        unfold flagOf
        intro h
        obtain ⟨l, hl, _⟩ := Option.bind_eq_some_iff.mp h
        rw [hl]; rfl
      have := hle.some hs
      simp [start, exCands, hv] at this
  · exact .seq (.assign (by decide) (by decide) trivial) (.assign (by decide) (by decide) trivial)
  · intro h
    have hrw : rw (sanitize exInfo noReq (.seq (.assign (.deref (.lv2rv (.ref 1))) (.lit 1))
        (.assign (.ref 2) (.lv2rv (.member none (.lv2rv (.ref 0)) 5 true)))) exCands).2 noMeta
        (sanitize exInfo noReq (.seq (.assign (.deref (.lv2rv (.ref 1))) (.lit 1))
        (.assign (.ref 2) (.lv2rv (.member none (.lv2rv (.ref 0)) 5 true)))) exCands).1 =
        .seq (.assign (.deref (.lv2rv (.ref 1))) (.lit 1)) (.assign (.ref 2) (.lv2rv (.new 0 5))) := by decide
    rw [hrw] at h
    obtain ⟨k, h1, h2⟩ := seq_inv h
    obtain ⟨p, x, _, _, rfl⟩ := assign_inv h1
    obtain ⟨p2, x2, e1, e2, e3⟩ := assign_inv h2
    have e1 : p2 = ⟨2, []⟩ := by
      simp only [sem, exVar, Option.some.injEq, Loc.mem.injEq] at e1
      exact e1.symm
    have e2 : x2 = .int 7 := by
      simp only [sem, Option.bind_some, Env.read, Option.some.injEq] at e2
      exact e2.symm
    subst e1 e2
    have := congrFun e3 ⟨2, []⟩
    simp [upd] at this

/-- `u.a = 1; r = u.b` for a local union: members become different variables. -/
theorem union_fails : ∃ (o : Ops) (ext : Nat → Val → Mem → Mem) (i : Info) (t : Types) (env : Env) (body : Expr)
    (c : Cands) (m m' : Mem), (∀ v l, c v = some l → l = []) ∧ tame noReq (fun v => (c v).isSome) body ∧
    typed t (fun v => (c v).isSome) body ∧ Bound i t (sanitize i noReq body c).2 env m ∧
    Run o ext (Stable i t (sanitize i noReq body c).2 env) env body m m' ∧
    ¬ Run o ext (fun _ _ => True) env (rw (sanitize i noReq body c).2 noMeta (sanitize i noReq body c).1) m m' := by
  have hvar : ∀ v, v ≠ 3 → (sanitize exInfo noReq (.seq (.assign (.member none (.ref 3) 5 false) (.lit 1))
      (.assign (.ref 2) (.lv2rv (.member none (.ref 3) 6 false)))) (fun v => if v = 3 then some [] else none)).2 v = none := by
    intro v hv
    have hle := (spec_trav noReq noMeta (fun v => ((fun v => if v = 3 then some [] else none : Cands) v).isSome)
      (.seq (.assign (.member none (.ref 3) 5 false) (.lit 1))
      (.assign (.ref 2) (.lv2rv (.member none (.ref 3) 6 false)))) none (start (fun v => if v = 3 then some [] else none))
      (by simp [tame, flat, refs, spine]) (fun _ h => h) rfl (.inl rfl)).le.trans (le_fix exInfo _)
    exact none_le hle (by simp [start, hv])
  refine ⟨exOps, exExt, exInfo, exTypes, ⟨exVar, fun v f => .place ⟨v, [f]⟩, fun _ => 0⟩,
    .seq (.assign (.member none (.ref 3) 5 false) (.lit 1))
      (.assign (.ref 2) (.lv2rv (.member none (.ref 3) 6 false))), (fun v => if v = 3 then some [] else none), exMem,
    upd (upd exMem ⟨3, [0]⟩ (.int 1)) ⟨2, []⟩ (.int 1), ?_, ?_, ?_, ?_, ?_, ?_⟩
  · intro v l h
    simp only at h
    split_ifs at h
    exact (Option.some.inj h).symm
  · simp [tame, flat, refs, spine]
  · simp [typed, spine, refs, chain, exTypes, isVal]
  · intro v f r h
    by_cases hv : v = 3
    · subst hv
      exact ⟨⟨3, []⟩, rfl, rfl⟩
    · simp [flagOf, hvar v hv] at h
  · refine .seq (.assign (by decide) (by decide) ?_) (.assign (by decide) (by decide) ?_)
    all_goals
      intro v f r h
      by_cases hv : v = 3
      · subst hv
        exact ⟨by decide, fun h => by simp [exInfo] at h⟩
      · simp [flagOf, hvar v hv] at h
  · intro h
    have hrw : rw (sanitize exInfo noReq (.seq (.assign (.member none (.ref 3) 5 false) (.lit 1))
      (.assign (.ref 2) (.lv2rv (.member none (.ref 3) 6 false)))) (fun v => if v = 3 then some [] else none)).2 noMeta
      (sanitize exInfo noReq (.seq (.assign (.member none (.ref 3) 5 false) (.lit 1))
      (.assign (.ref 2) (.lv2rv (.member none (.ref 3) 6 false)))) (fun v => if v = 3 then some [] else none)).1 =
        .seq (.assign (.new 3 5) (.lit 1)) (.assign (.ref 2) (.lv2rv (.new 3 6))) := by decide
    rw [hrw] at h
    obtain ⟨k, h1, h2⟩ := seq_inv h
    obtain ⟨p, x, e4, e5, rfl⟩ := assign_inv h1
    obtain ⟨p2, x2, e1, e2, e3⟩ := assign_inv h2
    simp only [sem, Option.some.injEq, Loc.mem.injEq] at e4
    subst e4
    have e1 : p2 = ⟨2, []⟩ := by
      simp only [sem, exVar, Option.some.injEq, Loc.mem.injEq] at e1
      exact e1.symm
    have e2 : x2 = .int 7 := by
      simp [sem, Env.read, upd, exMem] at e2
      exact e2.symm
    subst e1 e2
    have := congrFun e3 ⟨2, []⟩
    simp [upd] at this

end Tsar.StructRepl
