import Verif.Unparse.Spec
/-!
# Lemmas about unparsing
-/
namespace Tsar.Unparse

/-- Expressions which have at least a given priority. -/
def Lvl : Nat → List Tok → Ex → Prop
  | 0 => Sum
  | 1 => Un
  | 2 => Post
  | _ => Prim

theorem Lvl.weaken {p q ts e} (h : Lvl p ts e) (hq : q ≤ p) : Lvl q ts e := by
  have a : ∀ {ts e}, Lvl 3 ts e → Lvl 2 ts e := fun h => Post.prim h
  have b : ∀ {ts e}, Lvl 2 ts e → Lvl 1 ts e := fun h => Un.post h
  have c : ∀ {ts e}, Lvl 1 ts e → Lvl 0 ts e := fun h => Sum.un h
  match p, q, h, hq with
  | 0, 0, h, _ => exact h
  | 1, 0, h, _ => exact c h
  | 1, 1, h, _ => exact h
  | 2, 0, h, _ => exact c (b h)
  | 2, 1, h, _ => exact b h
  | 2, 2, h, _ => exact h
  | p + 3, 0, h, _ => exact c (b (a h))
  | p + 3, 1, h, _ => exact b (a h)
  | p + 3, 2, h, _ => exact a h
  | p + 3, q + 3, h, _ => exact h

theorem Lvl.sum {p ts e} (h : Lvl p ts e) : Sum ts e := h.weaken (Nat.zero_le _)

@[simp] theorem update_addr (s : U) (c n : Tok) : (s.update c n).addr = s.addr := by
  unfold U.update; split <;> rfl

@[simp] theorem update_ty (s : U) (c n : Tok) : (s.update c n).ty = s.ty := by
  unfold U.update; split <;> rfl

@[simp] theorem update_bad (s : U) (c n : Tok) : (s.update c n).bad = s.bad := by
  unfold U.update; split <;> rfl

@[simp] theorem update_prio (s : U) (c n : Tok) : (s.update c n).prio = n.priority := by
  unfold U.update; split <;> rfl

theorem Lvl.update {x : Name} {s : U} {e : Ex} (h : Lvl s.prio (s.tokens x) e) (c n : Tok) (hq : c.priority ≤ 2) :
    Lvl c.priority ((s.update c n).tokens x) e := by
  unfold U.update
  split
  · have hp : Lvl 3 (Tok.lp :: s.tokens x ++ [.rp]) e := Prim.paren h.sum
    have := hp.weaken (q := c.priority) (by omega)
    simpa [U.tokens] using this
  · rename_i hp
    exact h.weaken (by omega)

theorem tokens_pre (s : U) (t : Tok) (x : Name) : (s.pushPre t).tokens x = t :: s.tokens x := by
  simp [U.tokens, U.pushPre]

theorem tokens_suf (s : U) (ts : List Tok) (x : Name) : (s.pushSuf ts).tokens x = s.tokens x ++ ts := by
  simp [U.tokens, U.pushSuf]

/-- The state describes a location. -/
def Loc (w : World) (x : Name) (s : U) (a : Int) : Prop :=
  s.bad = false ∧ ∃ e r, Lvl s.prio (s.tokens x) e ∧ w.eval e = some r ∧
    (s.addr = false → ∃ t, r = .obj a t ∧ ∀ τ, s.ty = some τ → t = some τ) ∧
    (s.addr = true → (w.value r).1 = a)

/-- A signed offset. -/
def sgn (off : Nat) (pos : Bool) : Int := if pos then off else -(off : Int)

theorem tokens_congr {s s' : U} (h1 : s.pre = s'.pre) (h2 : s.suf = s'.suf) (x : Name) :
    s.tokens x = s'.tokens x := by simp [U.tokens, h1, h2]

theorem Loc.setTy {w x s a} (h : Loc w x s a) (hs : s.addr = true) (t : Option Ty) :
    Loc w x { s with ty := t } a := by
  obtain ⟨hb, e, r, hl, he, _, h2⟩ := h
  exact ⟨hb, e, r, hl, he, fun h => by simp_all, fun _ => h2 hs⟩

theorem Loc.address {w x s a} (h : Loc w x s a) (hs : s.addr = false) :
    Loc w x { (s.update .address .address).pushPre .address with addr := true } a := by
  obtain ⟨hb, e, r, hl, he, h1, _⟩ := h
  obtain ⟨t, rfl, _⟩ := h1 hs
  refine ⟨by simpa [U.pushPre] using hb, .addr e, .val a t, ?_, by simp [World.eval, he], by simp, ?_⟩
  · have := hl.update .address .address (by decide)
    have h3 : Lvl 1 (Tok.address :: (s.update .address .address).tokens x) (.addr e) := Un.addr this
    have h4 := tokens_pre (s.update .address .address) .address x
    rw [← h4] at h3
    simpa [U.pushPre, Tok.priority, U.tokens] using h3
  · intro _; rfl

theorem Loc.derefd {w x s a} (h : Loc w x s a) (hs : s.addr = true) :
    ∃ e t, Lvl 1 (((s.update .deref .deref).pushPre .deref).tokens x) e ∧ w.eval e = some (.obj a t) := by
  obtain ⟨hb, e, r, hl, he, _, h2⟩ := h
  refine ⟨.deref e, (w.value r).2, ?_, by simp [World.eval, he, h2 hs]⟩
  rw [tokens_pre]
  exact Un.deref (hl.update .deref .deref (by decide))

theorem value_val (w : World) (a : Int) (t : Option Ty) : w.value (.val a t) = (a, t) := rfl

theorem Loc.offset {w x s a} (h : Loc w x s a) (hs : s.addr = true) (off : Nat) (pos : Bool) :
    Loc w x { ((s.update .cast (if pos then Tok.add else .sub)).pushPre .cast).pushSuf
      [if pos then Tok.add else .sub, .uconst off] with ty := none } (a + sgn off pos) := by
  obtain ⟨hb, e, r, hl, he, _, h2⟩ := h
  have hp : ∀ b : Bool, Tok.priority (if b then Tok.add else .sub) = 0 := by decide
  have hc := hl.update .cast (if pos then Tok.add else .sub) (by decide)
  have h3 : Lvl 0 (((s.update .cast (if pos then Tok.add else .sub)).pushPre .cast).tokens x) (.cast e) := by
    rw [tokens_pre]; exact Sum.un (Un.cast hc)
  refine ⟨by simpa [U.pushPre, U.pushSuf] using hb, if pos then .add (.cast e) off else .sub (.cast e) off,
    .val (a + sgn off pos) (some (.base 1)), ?_, ?_, ?_, ?_⟩
  · have h4 : Lvl 0 ((((s.update .cast (if pos then Tok.add else .sub)).pushPre .cast).pushSuf
        [if pos then Tok.add else .sub, .uconst off]).tokens x)
        (if pos then .add (.cast e) off else .sub (.cast e) off) := by
      rw [tokens_suf]
      cases pos
      · exact Sum.sub off h3
      · exact Sum.add off h3
    simpa [U.pushPre, U.pushSuf, hp, U.tokens] using h4
  · cases pos <;> simp [World.eval, he, value_val, Ty.size, sgn, h2 hs]
    omega
  · simp [U.pushPre, U.pushSuf, hs]
  · intro _; rfl

theorem scalar_ok {w x s a} (h : Loc w x s a) (off : Nat) (pos : Bool) :
    Loc w x (scalar s off pos) (a + sgn off pos) := by
  unfold scalar
  split
  · rename_i h0; subst h0
    have : sgn 0 pos = 0 := by cases pos <;> simp [sgn]
    rw [this, Int.add_zero]; exact h
  · cases hs : s.addr
    · simpa using (h.address hs).offset rfl off pos
    · simpa using h.offset hs off pos

/-! ## Subscripts -/

theorem index_ok (tmpl : Bool) (l : Int) (k : Nat) :
    ∃ i, Sub (index tmpl l k) i ∧ i.getD 0 = l + k := by
  unfold index
  simp only
  split
  · rename_i h
    exact ⟨_, Sub.neg _, by simp; omega⟩
  · split
    · rename_i h
      exact ⟨_, Sub.unknown, by simp; omega⟩
    · exact ⟨_, Sub.pos _, by simp; omega⟩

theorem coeff_foldl (ds : List (Int × Nat)) (c : Nat) :
    ds.foldl (fun c d => (c * d.2) % 2 ^ 32) c % 2 ^ 32 = (c * (ds.map (·.2)).prod) % 2 ^ 32 := by
  induction ds generalizing c with
  | nil => simp
  | cons d ds ih => simp only [List.foldl_cons, List.map_cons, List.prod_cons, ih]; rw [Nat.mod_mul_mod, Nat.mul_assoc]

theorem coeff_lt (ds : List (Int × Nat)) (c : Nat) (hc : c < 2 ^ 32) :
    ds.foldl (fun c d => (c * d.2) % 2 ^ 32) c < 2 ^ 32 := by
  induction ds generalizing c with
  | nil => simpa
  | cons d ds ih => exact ih _ (Nat.mod_lt _ (by decide))

theorem coeff_eq (ds : List (Int × Nat)) (h : (ds.map (·.2)).prod < 2 ^ 32) :
    coeff ds = (ds.map (·.2)).prod := by
  have h1 := coeff_foldl ds 1
  rw [Nat.mod_eq_of_lt (coeff_lt ds 1 (by decide)), Nat.one_mul, Nat.mod_eq_of_lt h] at h1
  exact h1

theorem constDims_total {dims ds} (h : constDims dims = some ds) :
    Dim.total dims = some (ds.map (·.2)).prod := by
  induction dims generalizing ds with
  | nil => cases h; rfl
  | cons d dims ih =>
    obtain ⟨l, c⟩ := d
    cases l with
    | none => simp [constDims] at h
    | some l =>
      cases c with
      | none => simp [constDims] at h
      | some c =>
        cases hr : constDims dims with
        | none => simp [constDims, hr] at h
        | some r =>
          simp [constDims, hr] at h
          subst h
          have := ih hr
          simp only [Dim.total] at this
          simp [Dim.total, flat.count, this]

theorem constDims_some {dims : List Dim} {n} (h : Dim.total dims = some n) (hl : ∀ d ∈ dims, d.lower ≠ none) :
    ∃ ds, constDims dims = some ds := by
  induction dims generalizing n with
  | nil => exact ⟨_, rfl⟩
  | cons d dims ih =>
    obtain ⟨l, c⟩ := d
    cases c with
    | none => simp [Dim.total, flat.count] at h
    | some c =>
      cases hr : flat.count dims with
      | none => simp [Dim.total, flat.count, hr] at h
      | some m =>
        obtain ⟨ds, hds⟩ := ih (n := m) hr (fun d hd => hl d (List.mem_cons_of_mem _ hd))
        cases l with
        | none => exact absurd rfl (hl _ List.mem_cons_self)
        | some l => exact ⟨(l, c) :: ds, by simp [constDims, hds]⟩

theorem indices_ok (tmpl : Bool) (dims : List Dim) (ds : List (Int × Nat)) (h : constDims dims = some ds)
    (hne : dims ≠ [])
    (hok : ∀ ds d, d :: ds <:+ dims → ∀ n, Dim.total ds = some n → 0 < n ∧ n < 2 ^ 32) (k : Nat) :
    (indices tmpl ds k).2 = false ∧
      ∃ is, Subs (indices tmpl ds k).1 is ∧ flat dims is = some (k : Int) := by
  induction dims generalizing ds k with
  | nil => exact absurd rfl hne
  | cons d dims ih =>
    obtain ⟨l, c⟩ := d
    cases l with
    | none => simp [constDims] at h
    | some l =>
    cases c with
    | none => simp [constDims] at h
    | some c =>
    cases hr : constDims dims with
    | none => simp [constDims, hr] at h
    | some r =>
    simp [constDims, hr] at h
    subst h
    have ht := constDims_total hr
    have h1 := hok dims _ (List.suffix_refl _) _ ht
    have hc := coeff_eq r h1.2
    cases dims with
    | nil =>
      simp [constDims] at hr
      subst hr
      obtain ⟨i, hi, hv⟩ := index_ok tmpl l (k / coeff [])
      refine ⟨rfl, [i], Subs.one hi, ?_⟩
      have : coeff [] = 1 := rfl
      rw [this] at hv
      simp [flat, flat.count, hv]
      omega
    | cons d2 dims2 =>
      cases r with
      | nil =>
        obtain ⟨l2, c2⟩ := d2
        cases l2 <;> cases c2 <;> simp [constDims] at hr
        split at hr <;> simp at hr
      | cons r0 r1 =>
      obtain ⟨hb, is, hs, hf⟩ := ih (r0 :: r1) hr (by simp)
        (fun ds d hd => hok ds d (hd.trans (List.suffix_cons _ _))) (k % coeff (r0 :: r1))
      obtain ⟨i, hi, hv⟩ := index_ok tmpl l (k / coeff (r0 :: r1))
      refine ⟨?_, i :: is, Subs.cons hi hs, ?_⟩
      · simp only [indices, hb, Bool.or_false, decide_eq_false_iff_not]
        omega
      · simp only [Dim.total] at ht
        simp only [flat, hf, ht]
        rw [hv, ← hc]
        congr 1
        have := Nat.div_add_mod k (coeff (r0 :: r1))
        have h5 : ((k / coeff (r0 :: r1) : Nat) : Int) * (coeff (r0 :: r1) : Nat) +
            ((k % coeff (r0 :: r1) : Nat) : Int) = k := by
          rw [← Int.natCast_mul, ← Int.natCast_add, Nat.mul_comm]
          exact_mod_cast this
        rw [show l + ((k / coeff (r0 :: r1) : Nat) : Int) - l = ((k / coeff (r0 :: r1) : Nat) : Int) by omega]
        exact h5

end Tsar.Unparse
