import Verif.StructRepl.Sem

/-!
# Rewritten functions compute the same (C134)
-/

namespace Tsar.StructRepl

/-- No calls are requested. -/
abbrev noReq : Nat → Option Req := fun _ => none

/-- No metadata. -/
abbrev noMeta : Nat → Option (List PMeta) := fun _ => none

/-- Marked member expressions are as they are expected by a rewriter. `x` is set if an expression may be used to
change memory or to take an address. -/
def Fit (i : Info) (t : Types) (c : Cands) : Bool → Expr → Prop
  | _, .ref _ => True
  | _, .lit _ => True
  | _, .lv2rv e => Fit i t c false e
  | x, .cast e => Fit i t c x e
  | _, .paren e => Fit i t c true e
  | _, .deref e => Fit i t c true e
  | _, .addr e => Fit i t c true e
  | _, .sub b j => Fit i t c true b ∧ Fit i t c true j
  | x, .member m b f a => Fit i t c true b ∧ ∀ v r, m = some v → flagOf c v f = some r →
      (x = true → r.asg = true ∨ i.isRec v = true ∨ r.arr = true) ∧
      ((r.arr = false ∧ chain t.depth b = some (v, !a, 0)) ∨
        (r.arr = true ∧ ∃ b' j, b = .sub b' j ∧ chain t.depth b' = some (v, false, 0) ∧ a = false))
  | _, .op _ a b => Fit i t c true a ∧ Fit i t c true b
  | _, .call _ args => Fit i t c true args
  | _, .arg a rest => Fit i t c true a ∧ Fit i t c true rest
  | _, .nil => True
  | _, .new _ _ => False

/-- A chain of dereferences leads to a structure. -/
theorem chain_sem (o : Ops) (env : Env) (m : Mem) (depth : Var → Nat) : ∀ (e : Expr) (v : Var) (k : Nat) (l : HLoc),
    chase m (env.var v) (depth v) = some l →
    (chain depth e = some (v, true, k) → ∃ l', (sem o env m e).1 = some (.mem l') ∧ chase m l' k = some l) ∧
    (chain depth e = some (v, false, k) → ∃ l', (sem o env m e).2 = some (.ptr l') ∧ chase m l' k = some l) := by
  intro e
  induction e with
  | ref w =>
    intro v k l hl
    refine ⟨fun h => ?_, fun h => by simp [chain] at h⟩
    simp only [chain, Option.some.injEq, Prod.mk.injEq, true_and] at h
    obtain ⟨rfl, rfl⟩ := h
    exact ⟨env.var w, rfl, hl⟩
  | lv2rv e ih =>
    intro v k l hl
    refine ⟨fun h => ?_, fun h => ?_⟩
    · simp only [chain] at h
      split at h <;> simp at h
    · simp only [chain] at h
      split at h
      · next w k' he =>
        simp only [Option.some.injEq, Prod.mk.injEq, true_and] at h
        obtain ⟨rfl, rfl⟩ := h
        obtain ⟨l', h1, h2⟩ := (ih w (k' + 1) l hl).1 he
        simp only [chase] at h2
        obtain ⟨l'', h3, h4⟩ := Option.bind_eq_some_iff.mp h2
        refine ⟨l'', ?_, h4⟩
        simp only [sem, h1, Option.bind_some, Env.read, Option.some.injEq]
        cases hm : m l' with
        | int n => rw [hm] at h3; cases h3
        | ptr l3 => rw [hm] at h3; simp only [Val.loc, Option.some.injEq] at h3; rw [h3]
      · cases h
  | paren e ih => intro v k l hl; exact ih v k l hl
  | deref e ih =>
    intro v k l hl
    refine ⟨fun h => ?_, fun h => ?_⟩
    · simp only [chain] at h
      split at h
      · next w k' he =>
        simp only [Option.some.injEq, Prod.mk.injEq, true_and] at h
        obtain ⟨rfl, rfl⟩ := h
        obtain ⟨l', h1, h2⟩ := (ih w k' l hl).2 he
        exact ⟨l', by simp [sem, h1, Val.loc], h2⟩
      · cases h
    · simp only [chain] at h
      split at h <;> simp at h
  | addr e ih =>
    intro v k l hl
    refine ⟨fun h => ?_, fun h => ?_⟩
    · simp only [chain] at h
      split at h <;> simp at h
    · simp only [chain] at h
      split at h
      · next w k' he =>
        simp only [Option.some.injEq, Prod.mk.injEq, true_and] at h
        obtain ⟨rfl, rfl⟩ := h
        obtain ⟨l', h1, h2⟩ := (ih w k' l hl).1 he
        exact ⟨l', by simp [sem, h1, Loc.addr], h2⟩
      · cases h
  | lit _ => intro v k l _; exact ⟨fun h => by simp [chain] at h, fun h => by simp [chain] at h⟩
  | cast _ _ => intro v k l _; exact ⟨fun h => by simp [chain] at h, fun h => by simp [chain] at h⟩
  | sub _ _ _ _ => intro v k l _; exact ⟨fun h => by simp [chain] at h, fun h => by simp [chain] at h⟩
  | member _ _ _ _ _ => intro v k l _; exact ⟨fun h => by simp [chain] at h, fun h => by simp [chain] at h⟩
  | op _ _ _ _ _ => intro v k l _; exact ⟨fun h => by simp [chain] at h, fun h => by simp [chain] at h⟩
  | call _ _ _ => intro v k l _; exact ⟨fun h => by simp [chain] at h, fun h => by simp [chain] at h⟩
  | arg _ _ _ _ => intro v k l _; exact ⟨fun h => by simp [chain] at h, fun h => by simp [chain] at h⟩
  | nil => intro v k l _; exact ⟨fun h => by simp [chain] at h, fun h => by simp [chain] at h⟩
  | new _ _ => intro v k l _; exact ⟨fun h => by simp [chain] at h, fun h => by simp [chain] at h⟩

theorem chain_notSub {depth : Var → Nat} {e : Expr} {x : Var × Bool × Nat} (h : chain depth e = some x) :
    isSub e = false := by
  cases e <;> simp_all [chain, isSub]

/-- A rewritten expression has the same value; it denotes the same location if this location may be changed. -/
theorem sem_rw' (o : Ops) (i : Info) (t : Types) (c : Cands) (env : Env) (m : Mem) (hb : Bound i t c env m)
    (hr : ∀ v f r, flagOf c v f = some r → i.isRec v = true → r.asg = false ∧ r.arr = false ∧ env.off f = f) :
    ∀ (e : Expr) (x : Bool), Fit i t c x e →
    (sem o env m (rw c noMeta e)).2 = (sem o env m e).2 ∧
    (x = true → (sem o env m (rw c noMeta e)).1 = (sem o env m e).1) ∧
    (sem o env m (rw c noMeta e)).1.bind (env.read m) = (sem o env m e).1.bind (env.read m) ∧
    (∀ b j, e = .sub b j → (sem o env m (rw c noMeta j)).2 = (sem o env m j).2) := by
  intro e
  induction e with
  | ref v => intro x _; exact ⟨rfl, fun _ => rfl, rfl, fun _ _ h => by cases h⟩
  | lit n => intro x _; exact ⟨rfl, fun _ => rfl, rfl, fun _ _ h => by cases h⟩
  | lv2rv e ih =>
    intro x h
    refine ⟨?_, fun _ => rfl, rfl, fun _ _ h => by cases h⟩
    simp only [rw, sem]
    exact (ih false h).2.2.1
  | cast e ih =>
    intro x h
    refine ⟨?_, fun _ => rfl, rfl, fun _ _ h => by cases h⟩
    simp only [rw, sem]
    rw [(ih x h).1]
  | paren e ih =>
    intro x h
    obtain ⟨h1, h2, h3, _⟩ := ih true h
    exact ⟨h1, fun _ => h2 rfl, h3, fun _ _ h => by cases h⟩
  | deref e ih =>
    intro x h
    obtain ⟨h1, h2, h3, _⟩ := ih true h
    simp only [rw, sem]
    rw [h1]
    exact ⟨trivial, fun _ => rfl, rfl, fun _ _ h => by cases h⟩
  | addr e ih =>
    intro x h
    obtain ⟨h1, h2, h3, _⟩ := ih true h
    simp only [rw, sem]
    rw [h2 rfl]
    exact ⟨rfl, fun _ => trivial, trivial, fun _ _ h => by cases h⟩
  | sub b j ihb ihj =>
    intro x h
    obtain ⟨h1, _⟩ := ihb true h.1
    obtain ⟨h2, _⟩ := ihj true h.2
    simp only [rw, sem]
    rw [h1, h2]
    exact ⟨trivial, fun _ => rfl, rfl, fun b' j' h => by cases h; exact h2⟩
  | member mk b f a ih =>
    intro x h
    obtain ⟨hb', hm⟩ := h
    obtain ⟨ih1, ih2, ih3, ih4⟩ := ih true hb'
    have plain : sem o env m (.member mk (rw c noMeta b) f a) = sem o env m (.member mk b f a) := by
      simp only [sem]
      rw [ih1, ih2 rfl]
    cases hmk : mk.bind (fun v => flagOf c v f) with
    | none =>
      have : rw c noMeta (.member mk b f a) = .member mk (rw c noMeta b) f a := by
        simp only [rw, hmk]
      rw [this, plain]
      exact ⟨rfl, fun _ => rfl, rfl, fun _ _ h => by cases h⟩
    | some r =>
      obtain ⟨v, hv, hfl⟩ := Option.bind_eq_some_iff.mp hmk
      subst hv
      obtain ⟨l, hl, hpar⟩ := hb v f r hfl
      obtain ⟨hx, hcase⟩ := hm v r rfl hfl
      rcases hcase with ⟨harr, hch⟩ | ⟨harr, b', j, rfl, hch, rfl⟩
      · have hsub := chain_notSub hch
        have hrw : rw c noMeta (.member (some v) b f a) =
            if r.asg && !r.arr then .paren (.deref (.lv2rv (.new v f))) else .new v f := by
          simp only [rw, Option.bind_some, hfl, hsub]
        have horig : sem o env m (.member (some v) b f a) = (some (.mem (env.at l f)), none) := by
          cases a with
          | true =>
            obtain ⟨l', k1, k2⟩ := (chain_sem o env m t.depth b v 0 l hl).2 hch
            simp only [chase, Option.some.injEq] at k2
            subst k2
            simp [sem, k1, Val.loc]
          | false =>
            obtain ⟨l', k1, k2⟩ := (chain_sem o env m t.depth b v 0 l hl).1 hch
            simp only [chase, Option.some.injEq] at k2
            subst k2
            simp [sem, k1, Loc.addr]
        rw [hrw, horig]
        cases hrec : i.isRec v with
        | true =>
          obtain ⟨e1, e2, e3⟩ := hr v f r hfl hrec
          simp only [hrec, if_true] at hpar
          simp only [e1, Bool.false_and, Bool.false_eq_true, if_false, sem, hpar, Env.at, e3]
          exact ⟨trivial, fun _ => trivial, trivial, fun _ _ h => by cases h⟩
        | false =>
          simp only [hrec, Bool.false_eq_true, if_false, harr, Bool.or_false] at hpar
          cases hasg : r.asg with
          | true =>
            simp only [hasg, if_true] at hpar
            simp only [harr, Bool.not_false, Bool.and_true, if_true, sem, hpar, Env.read, Option.bind_some, Val.loc,
              Option.map_some]
            exact ⟨trivial, fun _ => trivial, trivial, fun _ _ h => by cases h⟩
          | false =>
            simp only [hasg, Bool.false_eq_true, if_false] at hpar
            simp only [Bool.false_and, Bool.false_eq_true, if_false, sem, hpar, Option.bind_some, Env.read]
            refine ⟨trivial, fun hx' => ?_, trivial, fun _ _ h => by cases h⟩
            rcases hx hx' with h | h | h
            · rw [hasg] at h; cases h
            · rw [hrec] at h; cases h
            · rw [harr] at h; cases h
      · have hrw : rw c noMeta (.member (some v) (.sub b' j) f false) =
            .sub (.lv2rv (.new v f)) (rw c noMeta j) := by
          simp only [rw, Option.bind_some, hfl, isSub, harr, Bool.not_true, Bool.and_false, Bool.false_eq_true, if_false]
        have hrec : i.isRec v = false := by
          cases hh : i.isRec v with
          | false => rfl
          | true => have := (hr v f r hfl hh).2.1; rw [harr] at this; cases this
        simp only [hrec, Bool.false_eq_true, if_false, harr, Bool.or_true, if_true] at hpar
        obtain ⟨l', k1, k2⟩ := (chain_sem o env m t.depth b' v 0 l hl).2 hch
        simp only [chase, Option.some.injEq] at k2
        subst k2
        have hj : (sem o env m (rw c noMeta j)).2 = (sem o env m j).2 := by
          exact ih4 b' j rfl
        have : sem o env m (rw c noMeta (.member (some v) (.sub b' j) f false)) =
            sem o env m (.member (some v) (.sub b' j) f false) := by
          rw [hrw]
          simp only [sem, hpar, hj, k1, Option.bind_some, Env.read, Val.loc, Bool.false_eq_true, if_false, Prod.mk.injEq,
            and_true]
          cases (sem o env m j).2 with
          | none => rfl
          | some y =>
            cases y with
            | int n => simp [Val.num, Loc.addr, Env.at]
            | ptr q => simp [Val.num]
        rw [this]
        exact ⟨rfl, fun _ => rfl, rfl, fun _ _ h => by cases h⟩
  | op k a b iha ihb =>
    intro x h
    obtain ⟨h1, _⟩ := iha true h.1
    obtain ⟨h2, _⟩ := ihb true h.2
    simp only [rw, sem]
    rw [h1, h2]
    exact ⟨rfl, fun _ => trivial, trivial, fun _ _ h => by cases h⟩
  | call id args ih => intro x h; exact ⟨rfl, fun _ => rfl, rfl, fun _ _ h => by cases h⟩
  | arg a rest iha ihr => intro x h; exact ⟨rfl, fun _ => rfl, rfl, fun _ _ h => by cases h⟩
  | nil => intro x h; exact ⟨rfl, fun _ => rfl, rfl, fun _ _ h => by cases h⟩
  | new v f => intro x h; exact h.elim

/-- A rewritten expression has the same value; it denotes the same location if this location may be changed. -/
theorem sem_rw (o : Ops) (i : Info) (t : Types) (c : Cands) (env : Env) (m : Mem) (hb : Bound i t c env m)
    (hr : ∀ v f r, flagOf c v f = some r → i.isRec v = true → r.asg = false ∧ r.arr = false ∧ env.off f = f)
    (e : Expr) (x : Bool) (h : Fit i t c x e) :
    (sem o env m (rw c noMeta e)).2 = (sem o env m e).2 ∧
    (x = true → (sem o env m (rw c noMeta e)).1 = (sem o env m e).1) :=
  ⟨(sem_rw' o i t c env m hb hr e x h).1, (sem_rw' o i t c env m hb hr e x h).2.1⟩

/-! ### Executions -/

theorem bound_stable {i : Info} {t : Types} {c : Cands} {env : Env} {m m' : Mem} (hb : Bound i t c env m)
    (hs : Stable i t c env m m') : Bound i t c env m' := by
  intro v f r h
  obtain ⟨l, h1, h2⟩ := hb v f r h
  obtain ⟨k1, k2⟩ := hs v f r h
  refine ⟨l, k1.trans h1, ?_⟩
  rw [h2]
  split_ifs with a b
  · rfl
  · rfl
  · simp only [Bool.or_eq_true, not_or, Bool.not_eq_true] at b
    rw [k2 (by simpa using a) b.1 b.2 l h1]

theorem rw_call (c : Cands) (k : Nat) (args : Expr) : rw c noMeta (.call k args) = .call k (rw c noMeta args) := by
  simp only [rw, Option.bind_none]

/-- A rewritten statement makes the same changes. -/
theorem run_rw (o : Ops) (ext : Nat → Val → Mem → Mem) (i : Info) (t : Types) (c : Cands) (env : Env)
    (hr : ∀ v f r, flagOf c v f = some r → i.isRec v = true → r.asg = false ∧ r.arr = false ∧ env.off f = f)
    {e : Expr} {m m' : Mem} (h : Run o ext (Stable i t c env) env e m m') :
    ∀ x, Fit i t c x e → Bound i t c env m →
    Run o ext (fun _ _ => True) env (rw c noMeta e) m m' ∧ Bound i t c env m' := by
  induction h with
  | skip m => intro x _ hb; exact ⟨.skip m, hb⟩
  | seq _ _ ih1 ih2 =>
    intro x hf hb
    obtain ⟨r1, b1⟩ := ih1 true hf.1 hb
    obtain ⟨r2, b2⟩ := ih2 true hf.2 b1
    exact ⟨.seq r1 r2, b2⟩
  | @assign l e m p y h1 h2 h3 =>
    intro x hf hb
    refine ⟨.assign ?_ ?_ trivial, bound_stable hb h3⟩
    · rw [(sem_rw o i t c env m hb hr l true hf.1).2 rfl]; exact h1
    · rw [(sem_rw o i t c env m hb hr e true hf.2).1]; exact h2
  | @iteT cc a b m m' y h1 h2 _ ih =>
    intro x hf hb
    obtain ⟨r1, b1⟩ := ih true hf.2.1 hb
    exact ⟨.iteT (by rw [(sem_rw o i t c env m hb hr cc true hf.1).1]; exact h1) h2 r1, b1⟩
  | @iteF cc a b m m' h1 _ ih =>
    intro x hf hb
    obtain ⟨r1, b1⟩ := ih true hf.2.2 hb
    exact ⟨.iteF (by rw [(sem_rw o i t c env m hb hr cc true hf.1).1]; exact h1) r1, b1⟩
  | @whileT cc b m m' m'' y h1 h2 _ _ ih1 ih2 =>
    intro x hf hb
    obtain ⟨r1, b1⟩ := ih1 true hf.2 hb
    obtain ⟨r2, b2⟩ := ih2 true hf b1
    exact ⟨.whileT (by rw [(sem_rw o i t c env m hb hr cc true hf.1).1]; exact h1) h2 r1 r2, b2⟩
  | @whileF cc b m h1 =>
    intro x hf hb
    exact ⟨.whileF (by rw [(sem_rw o i t c env m hb hr cc true hf.1).1]; exact h1), hb⟩
  | @ext k e m y h1 h2 =>
    intro x hf hb
    refine ⟨?_, bound_stable hb h2⟩
    rw [rw_call]
    exact .ext (by rw [(sem_rw o i t c env m hb hr e true hf.1).1]; exact h1) trivial

/-! ### Marks -/

theorem drop_asg (st : St) : (drop st).asg = st.asg := by
  unfold drop; split <;> rfl

theorem asg_trav (t : Types) (P : Var → Bool) : ∀ (e : Expr) (st : St), typed t P e →
    (isVal e = true ∨ st.asg = true) → (trav noReq e none st).2.asg = true := by
  intro e
  induction e with
  | ref v => intro st _ _; unfold trav; split_ifs <;> rfl
  | lit n => intro st _ _; simp [trav, drop_asg, visit]
  | lv2rv e ih => intro st h _; exact ih _ h.1 (.inl h.2)
  | cast e ih => intro st h _; simp only [trav, drop_asg]; exact ih _ h.1 (.inl h.2)
  | paren e ih => intro st h _; exact ih _ h (.inr rfl)
  | deref e ih => intro st h _; exact ih _ h (.inr rfl)
  | addr e ih => intro st h _; exact ih _ h (.inr rfl)
  | sub b j ihb ihj => intro st h _; exact ihj _ h.2 (.inr (ihb _ h.1 (.inr rfl)))
  | member m b f a ih =>
    intro st h _
    have := ih { visit st with inner := true } h.1 (.inr rfl)
    simp only [trav, record]
    split <;> exact this
  | op k a b iha ihb =>
    intro st h _
    simp only [trav, drop_asg]
    exact ihb _ h.2 (.inr (iha _ h.1 (.inr rfl)))
  | call id args ih =>
    intro st h _
    simp only [trav, drop_asg]
    exact ih _ h (.inr (by simp [drop_asg, visit]))
  | arg a rest iha ihr =>
    intro st h hv
    simp only [trav, Option.map_none]
    have hv : st.asg = true := hv.resolve_left (by simp [isVal])
    exact ihr _ h.2 (.inr (iha _ h.1 (.inr hv)))
  | nil => intro st _ hv; exact hv.resolve_left (by simp [isVal])
  | new v f => intro st h; exact h.elim

theorem flat_spine (req : Nat → Option Req) : ∀ e : Expr, flat req e → ¬ spine req e
  | .ref _, _ => id
  | .lit _, _ => id
  | .lv2rv e, h => flat_spine req e h
  | .cast e, h => flat_spine req e h
  | .paren e, h => flat_spine req e h
  | .deref e, h => flat_spine req e h
  | .addr e, h => flat_spine req e h
  | .sub b _, h => flat_spine req b h.1
  | .member _ _ _ _, h => h.elim
  | .op _ a _, h => flat_spine req a h.1
  | .call _ args, h => fun k => flat_spine req args h.2 k.2
  | .arg a _, h => flat_spine req a h.1
  | .nil, _ => id
  | .new _ _, _ => id

theorem flat_fit (i : Info) (t : Types) (c : Cands) (P : Var → Bool) : ∀ (e : Expr) (x : Bool), flat noReq e →
    typed t P e → Fit i t c x e
  | .ref _, _, _, _ => trivial
  | .lit _, _, _, _ => trivial
  | .lv2rv e, _, h, k => flat_fit i t c P e _ h k.1
  | .cast e, _, h, k => flat_fit i t c P e _ h k.1
  | .paren e, _, h, k => flat_fit i t c P e _ h k
  | .deref e, _, h, k => flat_fit i t c P e _ h k
  | .addr e, _, h, k => flat_fit i t c P e _ h k
  | .sub b j, _, h, k => ⟨flat_fit i t c P b _ h.1 k.1, flat_fit i t c P j _ h.2 k.2⟩
  | .member _ _ _ _, _, h, _ => h.elim
  | .op _ a b, _, h, k => ⟨flat_fit i t c P a _ h.1 k.1, flat_fit i t c P b _ h.2 k.2⟩
  | .call _ args, _, h, k => flat_fit i t c P args _ h.2 k
  | .arg a b, _, h, k => ⟨flat_fit i t c P a _ h.1 k.1, flat_fit i t c P b _ h.2 k.2⟩
  | .nil, _, _, _ => trivial
  | .new _ _, _, _, k => k.elim

theorem chain_refs (depth : Var → Nat) : ∀ (e : Expr) (v : Var) (x : Bool) (k : Nat),
    chain depth e = some (v, x, k) → refs e = [v] := by
  intro e
  induction e with
  | ref w => intro v x k h; simp only [chain, Option.some.injEq, Prod.mk.injEq] at h; simp [refs, h.1]
  | paren e ih => intro v x k h; exact ih v x k h
  | lv2rv e ih =>
    intro v x k h
    simp only [chain] at h
    split at h
    · next he => simp only [Option.some.injEq, Prod.mk.injEq] at h; exact h.1 ▸ ih _ _ _ he
    · cases h
  | deref e ih =>
    intro v x k h
    simp only [chain] at h
    split at h
    · next he => simp only [Option.some.injEq, Prod.mk.injEq] at h; exact h.1 ▸ ih _ _ _ he
    · cases h
  | addr e ih =>
    intro v x k h
    simp only [chain] at h
    split at h
    · next he => simp only [Option.some.injEq, Prod.mk.injEq] at h; exact h.1 ▸ ih _ _ _ he
    · cases h
  | _ => intro v x k h; simp [chain] at h

/-- Flags are not reset. -/
def FLe (i : Info) (c c' : Cands) : Prop :=
  ∀ v f r, (c' v).isSome = true → flagOf c v f = some r →
    ∃ r', flagOf c' v f = some r' ∧ (r.asg = true → r'.asg = true ∨ i.isRec v = true)

theorem FLe.refl (i : Info) (c : Cands) : FLe i c c := fun _ _ r _ h => ⟨r, h, .inl⟩

theorem FLe.trans {i : Info} {a b c : Cands} (h : FLe i a b) (hl : Le b c) (h' : FLe i b c) : FLe i a c := by
  intro v f r hv hr
  obtain ⟨r1, h1, h2⟩ := h v f r (hl.some hv) hr
  obtain ⟨r2, h3, h4⟩ := h' v f r1 hv h1
  refine ⟨r2, h3, fun hx => ?_⟩
  rcases h2 hx with h | h
  · exact h4 h
  · exact .inr h

theorem fle_erase (i : Info) (c : Cands) (v : Var) : FLe i c (erase c v) := by
  intro w f r hw hr
  by_cases h : w = v
  · subst h; simp [erase] at hw
  · exact ⟨r, by simpa [flagOf, erase, h] using hr, .inl⟩

/-- Members which are accessed as arrays are known. -/
def ArrOk (t : Types) (c : Cands) : Prop := ∀ v f r, flagOf c v f = some r → r.arr = t.col v f

theorem arr_erase {t : Types} {c : Cands} (h : ArrOk t c) (v : Var) : ArrOk t (erase c v) := by
  intro w f r hr
  by_cases e : w = v
  · subst e; simp [flagOf, erase] at hr
  · exact h w f r (by simpa [flagOf, erase, e] using hr)

theorem find_note (l : List Repl) (f g : Field) (a b : Bool) :
    (note l f a b).find? (fun r => r.field = g) =
      if g = f then
        match l.find? (fun r => r.field = f) with
        | some r => some { r with asg := r.asg || a, arr := r.arr || b }
        | none => some ⟨f, a, b⟩
      else l.find? (fun r => r.field = g) := by
  unfold note
  split_ifs with h1 h2 h2
  · subst h2
    induction l with
    | nil => simp at h1
    | cons r l ih =>
      by_cases e : r.field = g
      · simp [e]
      · simp only [List.any_cons, e, decide_false, Bool.false_or] at h1
        simp only [List.map_cons, e, if_false, List.find?_cons, decide_false]
        exact ih h1
  · clear h1
    induction l with
    | nil => rfl
    | cons r l ih =>
      by_cases e : r.field = g
      · have : r.field ≠ f := fun k => h2 (e.symm.trans k)
        simp [e, h2]
      · simp only [List.map_cons, List.find?_cons, e, decide_false]
        split_ifs with k
        · simp only [e, decide_false]; exact ih
        · simp only [e, decide_false]; exact ih
  · subst h2
    have : l.find? (fun r => r.field = g) = none := by
      rw [List.find?_eq_none]
      intro r hr k
      exact h1 (List.any_eq_true.mpr ⟨r, hr, k⟩)
    simp [List.find?_append, this]
  · simp only [List.find?_append, List.find?_cons, List.find?_nil]
    have : ¬ f = g := fun k => h2 k.symm
    simp [this]

theorem flag_put_self {c : Cands} {v : Var} {l : List Repl} (hl : c v = some l) (f : Field) (a b : Bool) :
    ∃ r, flagOf (put c v (note ((c v).getD []) f a b)) v f = some r ∧ (a = true → r.asg = true) := by
  simp only [flagOf, put, if_true, hl, Option.getD_some, Option.bind_some, find_note]
  split
  · exact ⟨_, rfl, fun h => by simp [h]⟩
  · exact ⟨_, rfl, fun h => h⟩

theorem fle_put (i : Info) {c : Cands} {v : Var} {l : List Repl} (hl : c v = some l) (f : Field) (a b : Bool) :
    FLe i c (put c v (note ((c v).getD []) f a b)) := by
  intro w g r hw hr
  by_cases e : w = v
  · subst e
    simp only [flagOf, hl, Option.bind_some] at hr
    simp only [flagOf, put, if_true, hl, Option.getD_some, Option.bind_some, find_note]
    split_ifs with k
    · subst k
      rw [hr]
      exact ⟨_, rfl, fun h => .inl (by simp [h])⟩
    · exact ⟨r, hr, .inl⟩
  · exact ⟨r, by simpa [flagOf, put, e] using hr, .inl⟩

theorem arr_put {t : Types} {c : Cands} {v : Var} {l : List Repl} (hl : c v = some l) (h : ArrOk t c) (f : Field)
    (a b : Bool) (hb : b = t.col v f) : ArrOk t (put c v (note ((c v).getD []) f a b)) := by
  intro w g r hr
  by_cases e : w = v
  · subst e
    simp only [flagOf, put, if_true, hl, Option.getD_some, Option.bind_some, find_note] at hr
    split_ifs at hr with k
    · subst k
      split at hr
      · next r0 h0 =>
        have := h w g r0 (by simp [flagOf, hl, h0])
        simp only [Option.some.injEq] at hr
        subst hr
        simp [this, hb]
      · simp only [Option.some.injEq] at hr
        subst hr
        exact hb
    · exact h w g r (by simp [flagOf, hl, hr])
  · exact h w g r (by simpa [flagOf, put, e] using hr)

/-- What is known about marks after a traversal. -/
structure Marks (i : Info) (t : Types) (st : St) (e' : Expr) (st' : St) : Prop where
  inner : st'.inner = false
  last : st'.last = none
  le : Le st.cands st'.cands
  fle : FLe i st.cands st'.cands
  arr : ArrOk t st'.cands
  fit : ∀ c, Le st'.cands c → FLe i st'.cands c → ArrOk t c → Fit i t c st.asg e'

theorem marks_trav (i : Info) (t : Types) (P : Var → Bool) :
    ∀ (e : Expr) (st : St), tame noReq P e → typed t P e →
    (∀ v, (st.cands v).isSome = true → P v = true) → st.last = none → (st.inner = false ∨ spine noReq e) →
    (isVal e = true ∨ st.asg = true) → ArrOk t st.cands →
    Marks i t st (trav noReq e none st).1 (trav noReq e none st).2 := by
  intro e
  induction e with
  | ref v =>
    intro st _ _ _ hl hi _ ha
    have hi : st.inner = false := hi.resolve_right id
    unfold trav
    split_ifs with h h'
    · exact ⟨hi, hl, Le.refl _, FLe.refl _ _, ha, fun _ _ _ _ => trivial⟩
    · simp [hi] at h'
    · exact ⟨hi, hl, le_erase _ _, fle_erase _ _ _, arr_erase ha _, fun _ _ _ _ => trivial⟩
  | lit n =>
    intro st _ _ _ hl hi _ ha
    have hi : st.inner = false := hi.resolve_right id
    have hd : drop (visit st) = visit st := drop_outer hi
    simp only [trav, hd]
    exact ⟨hi, hl, Le.refl _, FLe.refl _ _, ha, fun _ _ _ _ => trivial⟩
  | lv2rv e ih =>
    intro st h1 h2 hP hl hi _ ha
    have := ih { st with asg := false } h1 h2.1 hP hl hi (.inl h2.2) ha
    exact ⟨this.inner, this.last, this.le, this.fle, this.arr, this.fit⟩
  | cast e ih =>
    intro st h1 h2 hP hl hi _ ha
    have := ih st h1 h2.1 hP hl hi (.inl h2.2) ha
    have hd : drop (trav noReq e none st).2 = (trav noReq e none st).2 := drop_outer this.inner
    simp only [trav, hd]
    exact ⟨this.inner, this.last, this.le, this.fle, this.arr, this.fit⟩
  | paren e ih =>
    intro st h1 h2 hP hl hi _ ha
    have := ih (visit st) h1 h2 hP hl hi (.inr rfl) ha
    exact ⟨this.inner, this.last, this.le, this.fle, this.arr, this.fit⟩
  | deref e ih =>
    intro st h1 h2 hP hl hi _ ha
    have := ih (visit st) h1 h2 hP hl hi (.inr rfl) ha
    exact ⟨this.inner, this.last, this.le, this.fle, this.arr, this.fit⟩
  | addr e ih =>
    intro st h1 h2 hP hl hi _ ha
    have := ih (visit st) h1 h2 hP hl hi (.inr rfl) ha
    exact ⟨this.inner, this.last, this.le, this.fle, this.arr, this.fit⟩
  | sub b j ihb ihj =>
    intro st h1 h2 hP hl hi _ ha
    have k1 := ihb (visit st) h1.1 h2.1 hP hl hi (.inr rfl) ha
    have ka := asg_trav t P b (visit st) h2.1 (.inr rfl)
    have k2 := ihj (trav noReq b none (visit st)).2 h1.2 h2.2 (fun v hv => hP v (k1.le.some hv)) k1.last (.inl k1.inner)
      (.inr ka) k1.arr
    refine ⟨k2.inner, k2.last, k1.le.trans k2.le, k1.fle.trans k2.le k2.fle, k2.arr, fun c hc hf hx => ⟨?_, ?_⟩⟩
    · exact k1.fit c (k2.le.trans hc) (k2.fle.trans hc hf) hx
    · have := k2.fit c hc hf hx
      rw [ka] at this
      exact this
  | op k a b iha ihb =>
    intro st h1 h2 hP hl hi _ ha
    have k1 := iha (visit st) h1.1 h2.1 hP hl hi (.inr rfl) ha
    have ka := asg_trav t P a (visit st) h2.1 (.inr rfl)
    have k2 := ihb (trav noReq a none (visit st)).2 h1.2 h2.2 (fun v hv => hP v (k1.le.some hv)) k1.last (.inl k1.inner)
      (.inr ka) k1.arr
    simp only [trav]
    rw [drop_outer k2.inner]
    refine ⟨k2.inner, k2.last, k1.le.trans k2.le, k1.fle.trans k2.le k2.fle, k2.arr, fun c hc hf hx => ⟨?_, ?_⟩⟩
    · exact k1.fit c (k2.le.trans hc) (k2.fle.trans hc hf) hx
    · have := k2.fit c hc hf hx
      rw [ka] at this
      exact this
  | call id args ih =>
    intro st h1 h2 hP hl hi _ ha
    have hd : drop (visit st) = visit st := drop_none hl
    have hi' : (visit st).inner = false ∨ spine noReq args := hi.imp (fun h => h) (fun h => h.2)
    have k1 := ih (visit st) h1 h2 hP hl hi' (.inr rfl) ha
    simp only [trav, hd]
    rw [drop_outer k1.inner]
    exact ⟨k1.inner, k1.last, k1.le, k1.fle, k1.arr, k1.fit⟩
  | arg a rest iha ihr =>
    intro st h1 h2 hP hl hi hv ha
    have hv : st.asg = true := hv.resolve_left (by simp [isVal])
    have k1 := iha st h1.1 h2.1 hP hl hi (.inr hv) ha
    have ka := asg_trav t P a st h2.1 (.inr hv)
    have k2 := ihr (trav noReq a none st).2 h1.2 h2.2 (fun v hv => hP v (k1.le.some hv)) k1.last (.inl k1.inner)
      (.inr ka) k1.arr
    simp only [trav, Option.map_none]
    refine ⟨k2.inner, k2.last, k1.le.trans k2.le, k1.fle.trans k2.le k2.fle, k2.arr, fun c hc hf hx => ⟨?_, ?_⟩⟩
    · have := k1.fit c (k2.le.trans hc) (k2.fle.trans hc hf) hx
      rw [hv] at this
      exact this
    · have := k2.fit c hc hf hx
      rw [ka] at this
      exact this
  | nil =>
    intro st _ _ _ hl hi _ ha
    have hi : st.inner = false := hi.resolve_right id
    exact ⟨hi, hl, Le.refl _, FLe.refl _ _, ha, fun _ _ _ _ => trivial⟩
  | new v f => intro st _ h; exact h.elim
  | member m b f a ih =>
    intro st ht hty hP hl _ _ ha
    obtain ⟨ht, hb⟩ := ht
    obtain ⟨hty, hmem⟩ := hty
    rcases hb with hs | ⟨hf, hcnt, hidx⟩
    · have h1 := ih { visit st with inner := true } ht hty hP hl (.inr hs) (.inr rfl) ha
      have hr : record st.asg b f (trav noReq b none { visit st with inner := true }).2 =
          (none, (trav noReq b none { visit st with inner := true }).2) := by
        unfold record
        simp only [h1.inner]
        generalize hg : (trav noReq b none { visit st with inner := true }).2 = z at h1
        rw [← h1.inner, ← h1.last]
      simp only [trav, hr]
      exact ⟨h1.inner, h1.last, h1.le, h1.fle, h1.arr, fun c hc hf hx => ⟨h1.fit c hc hf hx, fun v r h => by cases h⟩⟩
    · have hid := flat_id noReq b { visit st with inner := true } hf
      have hcase : (∀ x ∈ refs b, st.cands x = none) ∨ ∃ v, One st.cands v b := by
        have hle : ((refs b).filter (fun x => (st.cands x).isSome)).length ≤ ((refs b).filter P).length := by
          have : (refs b).filter (fun x => (st.cands x).isSome) =
              ((refs b).filter P).filter (fun x => (st.cands x).isSome) := by
            rw [List.filter_filter]
            apply List.filter_congr
            intro x _
            by_cases hx : (st.cands x).isSome = true
            · simp [hx, hP x hx]
            · simp [hx]
          rw [this]
          exact List.length_filter_le _ _
        have hle := Nat.le_trans hle hcnt
        cases hx : (refs b).filter (fun x => (st.cands x).isSome) with
        | nil => exact .inl (fun x hx' => by simpa using List.filter_eq_nil_iff.mp hx x hx')
        | cons v l =>
          rw [hx] at hle
          have : l = [] := by
            cases l with
            | nil => rfl
            | cons _ _ => simp at hle
          exact .inr ⟨v, by unfold One; rw [hx, this]⟩
      rcases hcase with h0 | ⟨v, h1⟩
      · obtain ⟨k1, k2⟩ := flat_zero noReq b { visit st with inner := true } hf rfl h0
        generalize hz : (trav noReq b none { visit st with inner := true }).2 = z at k1 k2
        have hk : z.last = none ∧ z.cands = st.cands := by
          rcases k2 with ⟨e1, e2⟩ | ⟨w, e1, _⟩
          · exact ⟨e1.trans hl, e2⟩
          · exact absurd e1 (by simp [visit, hl])
        have hr : record st.asg b f z = (none, { z with inner := false, last := none }) := by
          unfold record; simp only [k1, hk.1]
        simp only [trav, hz, hr, hid]
        refine ⟨rfl, rfl, by simp only [hk.2]; exact Le.refl _, by simp only [hk.2]; exact FLe.refl _ _,
          by simp only [hk.2]; exact ha, fun c _ _ _ => ⟨flat_fit i t c P b true hf hty, fun v r h => by cases h⟩⟩
      · have hvm : v ∈ refs b ∧ (st.cands v).isSome = true := by
          have : v ∈ (refs b).filter (fun x => (st.cands x).isSome) := by rw [h1]; simp
          simpa using List.mem_filter.mp this
        obtain ⟨k1, k2⟩ := flat_one noReq v b { visit st with inner := true } hf rfl hl h1
        generalize hz : (trav noReq b none { visit st with inner := true }).2 = z at k1 k2
        rcases k2 with ⟨e1, e2⟩ | ⟨e1, e2⟩
        · simp only [visit] at e2
          obtain ⟨l, hvl⟩ := Option.isSome_iff_exists.mp hvm.2
          have hr : record st.asg b f z = (some v, { z with
              cands := put st.cands v (note ((st.cands v).getD []) f st.asg (isSub b)), inner := false, last := none }) := by
            unfold record; simp only [k1, e1, e2]
          simp only [trav, hz, hr, hid]
          -- which form has the base
          have hshape : (t.col v f = false ∧ chain t.depth b = some (v, !a, 0)) ∨
              (t.col v f = true ∧ ∃ b' j, b = .sub b' j ∧ chain t.depth b' = some (v, false, 0) ∧ a = false) := by
            rcases hmem with h | h | ⟨w, h2, h3⟩ | ⟨w, b', j, rfl, h2, h3, h4, h5, h6⟩
            · exact absurd h (flat_spine noReq b hf)
            · have := hP v hvm.2
              rw [h v hvm.1] at this
              cases this
            · have hw := chain_refs _ _ _ _ _ h2
              rw [hw] at hvm
              simp only [List.mem_singleton] at hvm
              rw [hvm.1]
              exact .inl ⟨h3, h2⟩
            · have hw := chain_refs _ _ _ _ _ h2
              simp only [refs, hw, List.mem_append, List.mem_singleton] at hvm
              rcases hvm.1 with e | e
              · rw [e]
                exact .inr ⟨h4, b', j, rfl, h2, h3⟩
              · have := hP v hvm.2
                rw [h6 v e] at this
                cases this
          have hcol : isSub b = t.col v f := by
            rcases hshape with ⟨h2, h3⟩ | ⟨h2, b', j, rfl, _⟩
            · rw [h2]; exact chain_notSub h3
            · rw [h2]; rfl
          refine ⟨rfl, rfl, le_put hvm.2 _ _ _, fle_put i hvl _ _ _, arr_put hvl ha _ _ _ hcol, fun c hc hfc hx =>
            ⟨flat_fit i t c P b true hf hty, fun w r h hfl => ?_⟩⟩
          simp only [Option.some.injEq] at h
          subst h
          have hcs : (c v).isSome = true := by
            cases hcv : c v with
            | none => simp [flagOf, hcv] at hfl
            | some _ => rfl
          obtain ⟨r0, g1, g2⟩ := flag_put_self (a := st.asg) (b := isSub b) hvl f
          obtain ⟨r1, g3, g4⟩ := hfc v f r0 hcs g1
          rw [hfl, Option.some.injEq] at g3
          subst g3
          refine ⟨fun hasg => ?_, ?_⟩
          · rcases g4 (g2 hasg) with h | h
            · exact .inl h
            · exact .inr (.inl h)
          · have := hx v f r hfl
            rcases hshape with ⟨h2, h3⟩ | ⟨h2, h3⟩
            · exact .inl ⟨this.trans h2, h3⟩
            · exact .inr ⟨this.trans h2, h3⟩
        · simp only [visit] at e2
          have hr : record st.asg b f z = (none, { z with inner := false, last := none }) := by
            unfold record; simp only [k1, e1]
          simp only [trav, hz, hr, hid]
          refine ⟨rfl, rfl, by simp only [e2]; exact le_erase _ _, by simp only [e2]; exact fle_erase _ _ _,
            by simp only [e2]; exact arr_erase ha _, fun c _ _ _ => ⟨flat_fit i t c P b true hf hty, fun v r h => by cases h⟩⟩

end Tsar.StructRepl
