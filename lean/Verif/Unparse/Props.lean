import Verif.Unparse.Inner
/-!
# A text designates the memory described by a debug location
-/
namespace Tsar.Unparse

/-! ## Offsets -/

/-- An absolute value and a sign. -/
def enc (o : Int) : Nat × Bool := (o.natAbs, decide (0 ≤ o))

theorem sgn_enc (o : Int) : sgn (enc o).1 (enc o).2 = o := by
  unfold enc sgn
  by_cases h : 0 ≤ o <;> simp [h] <;> omega

/-- An address after offsets separated by dereferences. -/
def follow (load : Int → Int) : Int → List Int → Int
  | a, [] => a
  | a, [o] => a + o
  | a, o :: os => follow load (load (a + o)) os

theorem segments_ne (ops : List Op) : ∃ o os, segments ops = o :: os := by
  induction ops using segments.induct <;> simp_all [segments, segments.bump]
  all_goals (obtain ⟨_, _, h⟩ := ‹∃ _ _, _›; simp [h, segments.bump])

theorem offset_enc (p n : Nat) (h : ((p : Int) - n) % 8 = 0) : offset p n = enc (((p : Int) - n) / 8) := by
  unfold offset enc
  split
  · rw [Prod.mk.injEq]
    refine ⟨by omega, ?_⟩
    symm; rw [decide_eq_true_eq]; omega
  · rw [Prod.mk.injEq]
    refine ⟨by omega, ?_⟩
    symm; rw [decide_eq_false_iff_not]; omega

theorem offsets_ok (load : Int → Int) (ops : List Op) (hal : ∀ o ∈ ops, aligned o) (p n c : Nat)
    (h8 : ((p : Int) - n) % 8 = 0) (a b : Int)
    (hd : dwarf load ops (a * 8 + (p - n)) none = some (b * 8)) :
    offsets ops p n c = ((segments.bump (p - n) (segments ops)).map (· / 8)).map enc ∧
      follow load a ((segments.bump (p - n) (segments ops)).map (· / 8)) = b := by
  match ops, hal, hd with
  | [], _, hd =>
    simp only [dwarf, Option.some.injEq] at hd
    refine ⟨by simp [offsets, segments, segments.bump, offset_enc p n h8], ?_⟩
    simp only [segments, segments.bump, List.map, follow]
    omega
  | .deref :: os, hal, hd =>
    have hm : (a * 8 + ((p : Int) - n)) % 8 = 0 := by omega
    simp only [dwarf, hm, if_true] at hd
    have h1 := offsets_ok load os (fun o ho => hal o (List.mem_cons_of_mem _ ho)) 0 0 c (by simp)
      (load ((a * 8 + ((p : Int) - n)) / 8)) b (by simpa using hd)
    obtain ⟨o, os', hso⟩ := segments_ne os
    have hb : segments.bump ((0 : Nat) - (0 : Nat)) (segments os) = segments os := by
      rw [hso]; simp [segments.bump]
    rw [hb] at h1
    refine ⟨by simp [offsets, segments, segments.bump, offset_enc p n h8, h1.1], ?_⟩
    have h2 := h1.2
    have h3 : (a * 8 + ((p : Int) - n)) / 8 = a + ((p : Int) - n) / 8 := by omega
    rw [h3] at h2
    simp only [segments, hso, segments.bump, List.map, follow, Int.zero_add] at h2 ⊢
    exact h2
  | .plusU k :: os, hal, hd =>
    have hk : k % 8 = 0 := hal _ List.mem_cons_self
    simp only [dwarf] at hd
    have h1 := offsets_ok load os (fun o ho => hal o (List.mem_cons_of_mem _ ho)) (p + k) n c (by omega) a b
      (by rw [← hd]; congr 1; omega)
    obtain ⟨o, os', hso⟩ := segments_ne os
    simp only [offsets, segments, hso, segments.bump] at h1 ⊢
    have : o + (k : Int) + ((p : Int) - n) = o + (((p + k : Nat) : Int) - n) := by omega
    rw [this]
    exact h1
  | .fragment k _ :: os, hal, hd =>
    have hk : k % 8 = 0 := hal _ List.mem_cons_self
    simp only [dwarf] at hd
    have h1 := offsets_ok load os (fun o ho => hal o (List.mem_cons_of_mem _ ho)) (p + k) n c (by omega) a b
      (by rw [← hd]; congr 1; omega)
    obtain ⟨o, os', hso⟩ := segments_ne os
    simp only [offsets, segments, hso, segments.bump] at h1 ⊢
    have : o + (k : Int) + ((p : Int) - n) = o + (((p + k : Nat) : Int) - n) := by omega
    rw [this]
    exact h1
  | .constu k :: .plus :: os, hal, hd =>
    have hk : k % 8 = 0 := hal _ List.mem_cons_self
    simp only [dwarf] at hd
    have h1 := offsets_ok load os (fun o ho => hal o (List.mem_cons_of_mem _ (List.mem_cons_of_mem _ ho)))
      (p + k) n k (by omega) a b (by rw [← hd]; congr 1; omega)
    obtain ⟨o, os', hso⟩ := segments_ne os
    simp only [offsets, segments, hso, segments.bump] at h1 ⊢
    have : o + (k : Int) + ((p : Int) - n) = o + (((p + k : Nat) : Int) - n) := by omega
    rw [this]
    exact h1
  | .constu k :: .minus :: os, hal, hd =>
    have hk : k % 8 = 0 := hal _ List.mem_cons_self
    simp only [dwarf] at hd
    have h1 := offsets_ok load os (fun o ho => hal o (List.mem_cons_of_mem _ (List.mem_cons_of_mem _ ho)))
      p (n + k) k (by omega) a b (by rw [← hd]; congr 1; omega)
    obtain ⟨o, os', hso⟩ := segments_ne os
    simp only [offsets, segments, hso, segments.bump] at h1 ⊢
    have : o + -(k : Int) + ((p : Int) - n) = o + ((p : Int) - ((n + k : Nat) : Int)) := by omega
    rw [this]
    exact h1
  | .constu k :: [], _, hd => simp [dwarf] at hd
  | .constu k :: .deref :: _, _, hd => simp [dwarf] at hd
  | .constu k :: .constu _ :: _, _, hd => simp [dwarf] at hd
  | .constu k :: .plusU _ :: _, _, hd => simp [dwarf] at hd
  | .constu k :: .fragment _ _ :: _, _, hd => simp [dwarf] at hd
  | .plus :: _, _, hd => simp [dwarf] at hd
  | .minus :: _, _, hd => simp [dwarf] at hd

/-! ## Steps -/

/-- A state before an offset is added. -/
def In (w : World) (x : Name) (s : U) (a : Int) : Prop :=
  (s.addr = false ∧ (∃ t, s.ty = some t) ∧ Loc w x s a) ∨
  (s.addr = true ∧ (s.ty = none ∨ s.ty = some (.ptr none)) ∧ Loc w x s a) ∨
  (s.addr = true ∧ ∃ k, s.ty = some (.ptr (some k)) ∧ s.bad = false ∧ ∃ e r, Lvl s.prio (s.tokens x) e ∧
    w.eval e = some r ∧ w.value r = (a, some (w.env k)) ∧ ∀ a' n el ds, r ≠ .obj a' (some (.array n el ds)))

theorem In.loc {w x s a} (h : In w x s a) : Loc w x s a := by
  rcases h with h | h | h
  · exact h.2.2
  · exact h.2.2
  · obtain ⟨hs, k, _, hb, e, r, h1, h2, h3, _⟩ := h
    exact ⟨hb, e, r, h1, h2, by simp [hs], fun _ => by rw [h3]⟩

/-- A state after a subscript expression for a pointer. -/
def sub (tmpl : Bool) (t : Ty) (s : U) (i : Nat) (pos : Bool) : U :=
  { ((({ s with ty := some t } : U).update .lb .rb).pushSuf (if i = 0 ∧ tmpl then [.lb, .unknown, .rb]
      else if pos then [.lb, .uconst i, .rb] else [.lb, .sub, .uconst i, .rb])) with addr := false }

theorem sub_ok {w x s a k} (tmpl : Bool) (hb : s.bad = false) {e r} (hl : Lvl s.prio (s.tokens x) e)
    (he : w.eval e = some r) (hv : w.value r = (a, some (w.env k)))
    (hna : ∀ a' n el ds, r ≠ .obj a' (some (.array n el ds))) (i : Nat) (pos : Bool) :
    Loc w x (sub tmpl (w.env k) s i pos) (a + sgn (i * (w.env k).size) pos) := by
  have hsub : ∃ us j, (if i = 0 ∧ tmpl then [Tok.lb, .unknown, .rb]
      else if pos then [.lb, .uconst i, .rb] else [.lb, .sub, .uconst i, .rb]) = .lb :: us ++ [.rb] ∧
      Sub us j ∧ j.getD 0 = sgn i pos := by
    by_cases h : i = 0 ∧ tmpl = true
    · refine ⟨_, _, by rw [if_pos h]; rfl, Sub.unknown, ?_⟩
      cases pos <;> simp [sgn, h.1]
    · cases pos
      · exact ⟨_, _, by rw [if_neg h]; rfl, Sub.neg i, by simp [sgn]⟩
      · exact ⟨_, _, by rw [if_neg h]; rfl, Sub.pos i, by simp [sgn]⟩
  obtain ⟨us, j, hus, hj, hji⟩ := hsub
  have hev : w.eval (.idx e [j]) = some (.obj (a + sgn (i * (w.env k).size) pos) (some (w.env k))) := by
    have : sgn (i * (w.env k).size) pos = j.getD 0 * (w.env k).size := by
      rw [hji]; cases pos <;> simp [sgn, Int.neg_mul]
    rw [this]
    cases r with
    | val a' t' => simp only [World.eval, he, hv]
    | obj a' t' =>
      cases t' with
      | none => simp only [World.eval, he, hv]
      | some t' =>
        cases t' with
        | array n el ds => exact absurd rfl (hna _ _ _ _)
        | _ => simp only [World.eval, he, hv]
  unfold sub
  rw [hus]
  refine ⟨by simpa [U.pushSuf] using hb, _, _, ?_, hev, ?_, ?_⟩
  · have hl' : Lvl ({ s with ty := some (w.env k) } : U).prio (({ s with ty := some (w.env k) } : U).tokens x) e := hl
    have h4 : Lvl 2 (((({ s with ty := some (w.env k) } : U).update .lb .rb).pushSuf (.lb :: us ++ [.rb])).tokens x)
        (.idx e [j]) := by
      rw [tokens_suf]
      have := Post.idx (hl'.update .lb .rb (by decide)) (Subs.one hj)
      rw [List.append_assoc] at this
      exact this
    simpa [U.pushSuf, Tok.priority, U.tokens] using h4
  · intro _
    exact ⟨_, rfl, fun τ hτ => by simpa [U.pushSuf] using hτ⟩
  · intro h; cases h

theorem step_ok {w x s a} (tmpl : Bool) (h : In w x s a) (henv : ∀ k, (w.env k).ok tmpl)
    (hok : s.addr = false → ∀ t, s.ty = some t → t.ok tmpl) (off : Nat) (pos : Bool) :
    Loc w x (step w.env tmpl s off pos) (a + sgn off pos) := by
  have hL := h.loc
  rcases h with ⟨hs, ⟨t, ht⟩, hloc⟩ | ⟨hs, ht, hloc⟩ | ⟨hs, k, ht, hb, e, r, hl, he, hv, hna⟩
  · unfold step
    rw [ht]
    cases t <;> simp only [hs, Bool.not_false, if_true]
    case ptr => exact scalar_ok hloc off pos
    all_goals exact inner_ok w x tmpl _ s a off pos hs ht (hok hs _ ht) hloc
  · unfold step
    rcases ht with ht | ht
    · rw [ht]; exact scalar_ok hloc off pos
    · rw [ht]; simp only
      rw [if_neg (by simp [hs])]
      exact scalar_ok (hloc.setTy hs none) off pos
  · unfold step
    rw [ht]
    simp only
    rw [if_neg (by simp [hs])]
    split
    · exact scalar_ok (hL.setTy hs _) off pos
    · have h1 := sub_ok (x := x) tmpl hb hl he hv hna (off / (w.env k).size) pos
      have h2 := inner_ok w x tmpl (w.env k) _ _ (off % (w.env k).size) pos (by simp [sub])
        (by simp [sub, U.pushSuf]) (henv k) h1
      have h3 : a + sgn (off / (w.env k).size * (w.env k).size) pos + sgn (off % (w.env k).size) pos
          = a + sgn off pos := by
        have := Nat.div_add_mod off (w.env k).size
        rw [Nat.mul_comm] at this
        cases pos <;> simp only [sgn, if_true, Bool.false_eq_true, if_false] <;> omega
      rw [h3] at h2
      exact h2

/-- An object which is not a structure or an array. -/
def Ty.isLeaf : Ty → Prop
  | .base _ | .ptr _ | .union _ => True
  | _ => False

theorem Leaf.isLeaf {t o t'} (h : Leaf t o t') : t'.isLeaf := by
  induction h with
  | base | ptr | union => trivial
  | struct _ _ ih => exact ih
  | array _ _ _ _ _ ih => exact ih

theorem deref_ok {w x s a t} (h : Loc w x s a) (hs : s.addr = false) (ht : s.ty = some t) (hl : t.isLeaf) :
    In w x (deref s) (w.load a) ∧ ∀ k, t = .ptr (some k) → (deref s).ty = some t ∧ (deref s).addr = true := by
  obtain ⟨hb, e, r, hlv, he, h1, _⟩ := h
  obtain ⟨t', rfl, h3⟩ := h1 hs
  have := h3 _ ht
  subst this
  unfold deref
  simp only [hs, Bool.false_eq_true, if_false, ht]
  cases t with
  | base n => exact ⟨.inr (.inl ⟨rfl, .inl rfl, hb, e, _, hlv, he, by simp, fun _ => rfl⟩), by simp⟩
  | union n => exact ⟨.inr (.inl ⟨rfl, .inl rfl, hb, e, _, hlv, he, by simp, fun _ => rfl⟩), by simp⟩
  | struct => exact hl.elim
  | array => exact hl.elim
  | ptr k =>
    cases k with
    | none => exact ⟨.inr (.inl ⟨rfl, .inr rfl, hb, e, _, hlv, he, by simp, fun _ => rfl⟩), by simp⟩
    | some k =>
      refine ⟨.inr (.inr ⟨rfl, k, rfl, hb, e, _, hlv, he, rfl, by simp⟩), fun _ _ => ⟨rfl, rfl⟩⟩

theorem step_leaf_obj {w : World} {s : U} {t t' : Ty} {o : Nat} (tmpl : Bool) (hs : s.addr = false)
    (ht : s.ty = some t) (hl : t.laid) (h : Leaf t o t') :
    (step w.env tmpl s o true).addr = false ∧ (step w.env tmpl s o true).ty = some t' := by
  have hi := inner_leaf tmpl h s hl hs ht
  unfold step
  rw [ht]
  cases t <;> simp only [hs, Bool.not_false, if_true]
  case ptr => simpa [inner] using hi
  all_goals exact hi

theorem step_leaf_ptr {w : World} {s : U} {t' : Ty} {k i r : Nat} (tmpl : Bool) (hs : s.addr = true)
    (ht : s.ty = some (.ptr (some k))) (hr : r < (w.env k).size) (hl : (w.env k).laid) (h : Leaf (w.env k) r t') :
    (step w.env tmpl s (i * (w.env k).size + r) true).addr = false ∧
      (step w.env tmpl s (i * (w.env k).size + r) true).ty = some t' := by
  unfold step
  rw [ht]
  simp only [hs, Bool.not_true, Bool.false_eq_true, if_false]
  rw [if_neg (by omega)]
  have hmod : (i * (w.env k).size + r) % (w.env k).size = r := by
    rw [Nat.mul_comm, Nat.mul_add_mod, Nat.mod_eq_of_lt hr]
  rw [hmod]
  exact inner_leaf tmpl h _ hl rfl (by simp [U.pushSuf])

/-- All offsets except the last one are processed. `off` is an actual offset, `o` is an offset from the beginning of
an object of the type `t`. -/
theorem walk_ok {w : World} {x : Name} (tmpl : Bool) (henv : ∀ k, (w.env k).ok tmpl)
    (hlenv : ∀ k, 0 < (w.env k).size → (w.env k).laid) {t : Ty} {os : List Int} (h : Typed w.env t os) :
    ∀ (o : Int) (rest : List Int), os = o :: rest → t.laid → ∀ (s : U) (a off : Int), In w x s a →
      (s.addr = false → ∀ t, s.ty = some t → t.ok tmpl) →
      (∀ n : Nat, o = n → ∃ m : Nat, off = m ∧ ∀ t', Leaf t n t' →
        (step w.env tmpl s m true).addr = false ∧ (step w.env tmpl s m true).ty = some t') →
      ∃ a', In w x (walk w.env tmpl s ((off :: rest).map enc).dropLast) a' ∧
        (((walk w.env tmpl s ((off :: rest).map enc).dropLast).addr = false) → rest = []) ∧
        ∃ q, (off :: rest).getLast? = some q ∧ a' + q = follow w.load a (off :: rest) := by
  have enat : ∀ m : Nat, enc (m : Int) = (m, true) := by intro m; simp [enc]
  induction h with
  | last t o =>
    intro o' rest ho _ s a off hin _ _
    cases ho
    exact ⟨a, by simpa [walk] using hin, fun _ => rfl, off, rfl, rfl⟩
  | @object t t' o k hlf =>
    intro o' rest ho hl s a off hin hsok hst
    cases ho
    obtain ⟨m, rfl, hm⟩ := hst o rfl
    obtain ⟨h1, h2⟩ := hm _ hlf
    have hstep := step_ok tmpl hin henv hsok m true
    obtain ⟨h3, h4⟩ := deref_ok hstep h1 h2 hlf.isLeaf
    refine ⟨_, by simpa [walk, enat] using h3, ?_, k, rfl, by simp [follow, sgn]⟩
    intro h5
    have : ∀ s : U, s.addr = false → (deref s).addr = true := by
      intro s hs; unfold deref; simp only [hs, Bool.false_eq_true, if_false]; split <;> rfl
    simp [walk, enat, this _ h1] at h5
  | @ptr t o k i r rest hlf hr htyp ih =>
    intro o' rest' ho hl s a off hin hsok hst
    cases ho
    obtain ⟨m, rfl, hm⟩ := hst o rfl
    obtain ⟨h1, h2⟩ := hm _ hlf
    have hstep := step_ok tmpl hin henv hsok m true
    obtain ⟨h3, h4⟩ := deref_ok hstep h1 h2 hlf.isLeaf
    obtain ⟨h5, h6⟩ := h4 _ rfl
    obtain ⟨a', h7, _, q, h9, h10⟩ := ih r rest rfl (hlenv k (by omega)) _ _ ((i * (w.env k).size + r : Nat) : Int) h3
      (fun h => by rw [h6] at h; cases h)
      (fun n hn => ⟨_, rfl, fun t' ht' => by
        have : n = r := by omega
        subst this
        exact step_leaf_ptr tmpl h6 h5 hr (hlenv k (by omega)) ht'⟩)
    refine ⟨a', by simpa [walk, enat] using h7, ?_, q, by simpa using h9, by simpa [follow, sgn] using h10⟩
    intro h11
    exfalso
    rename_i h8
    have h12 := h8 (by simpa [walk, enat] using h11)
    subst h12
    simp [walk, enat, h6] at h11

/-- A text designates the memory described by a debug location: it is an expression of the language, and it
designates an object at the address which is described by the location.

What is missing: the condition `Typed`, i.e. objects which are dereferenced, except the last one, have types of
pointers, and the condition on bounds of arrays for templates (it is in `Ty.ok`). The text may be wrong if there
are no such conditions, see `unparse_fails` and `unparse_template_fails`. -/
theorem unparse_partial (w : World) (x : Name) (tmpl minimal : Bool) (ops : List Op) (a : Int)
    (hal : ∀ o ∈ ops, aligned o) (hok : (w.type x).ok tmpl) (hl : (w.type x).laid) (henv : ∀ k, (w.env k).ok tmpl)
    (hlenv : ∀ k, 0 < (w.env k).size → (w.env k).laid)
    (ht : Typed w.env (w.type x) ((segments ops).map (· / 8))) (ha : w.address x ops a) :
    (unparseU w.env tmpl minimal x (w.type x) ops).bad = false ∧
      w.designates (unparse w.env tmpl minimal x (w.type x) ops) a := by
  have h0 := offsets_ok w.load ops hal 0 0 0 (by simp) (w.base x) a (by simpa [World.address] using ha)
  obtain ⟨o, os, hso⟩ := segments_ne ops
  have hb : segments.bump ((0 : Nat) - (0 : Nat)) (segments ops) = segments ops := by
    rw [hso]; simp [segments.bump]
  rw [hb] at h0
  obtain ⟨hoff, hfol⟩ := h0
  have hinit : Loc w x ⟨[], [], false, some (w.type x), Tok.priority (.ident x), false⟩ (w.base x) :=
    ⟨rfl, .var x, _, Prim.var x, rfl, fun _ => ⟨_, rfl, fun τ h => h⟩, by simp⟩
  have hseg : (segments ops).map (· / 8) = (o / 8) :: os.map (· / 8) := by rw [hso]; rfl
  rw [hseg] at hoff hfol ht
  obtain ⟨a', hin, haddr, q, hq, hfq⟩ := walk_ok tmpl henv hlenv ht _ _ rfl hl
    ⟨[], [], false, some (w.type x), Tok.priority (.ident x), false⟩ (w.base x) (o / 8)
    (.inl ⟨rfl, ⟨_, rfl⟩, hinit⟩) (fun _ t h => by cases h; exact hok)
    (fun n hn => ⟨n, hn, fun t' h => step_leaf_obj (w := w) tmpl rfl rfl hl h⟩)
  rw [hfol] at hfq
  have hlast : (offsets ops 0 0 0).getLast?.getD (0, true) = enc q := by
    rw [hoff, List.getLast?_map, hq]; rfl
  have hfin : ∀ s, Loc w x s a →
      (if s.addr then (s.update .deref .deref).pushPre .deref else s).bad = false ∧
      w.designates ((if s.addr then (s.update .deref .deref).pushPre .deref else s).tokens x) a := by
    intro s hs
    cases hc : s.addr with
    | true =>
      obtain ⟨e, t, h1, h2⟩ := hs.derefd hc
      exact ⟨by simpa [U.pushPre] using hs.1, e, h1.sum, t, h2⟩
    | false =>
      obtain ⟨hb, e, r, h1, h2, h3, _⟩ := hs
      obtain ⟨t, rfl, _⟩ := h3 hc
      exact ⟨hb, e, h1.sum, t, h2⟩
  unfold unparse
  unfold unparseU
  simp only [hlast]
  rw [hoff]
  generalize hw : walk w.env tmpl ⟨[], [], false, some (w.type x), Tok.priority (.ident x), false⟩
    (List.map enc (o / 8 :: List.map (· / 8) os)).dropLast = s at hin haddr
  have key : ∀ (c : Prop) [Decidable c], (¬ c → (enc q).1 = 0) →
      Loc w x (if c then step w.env tmpl s (enc q).1 (enc q).2 else s) a := by
    intro c _ hc
    split
    · have h5 := step_ok tmpl hin henv (fun h t hty => by
        have hr := haddr h
        rw [hr] at hw
        simp [walk] at hw
        subst hw
        cases hty; exact hok) (enc q).1 (enc q).2
      rw [sgn_enc, hfq] at h5
      exact h5
    · rename_i hnc
      have hz := hc hnc
      have : q = 0 := by unfold enc at hz; simp only at hz; omega
      subst this
      have := hin.loc
      rw [← hfq]
      simpa using this
  apply hfin
  apply key
  intro hc
  apply Classical.byContradiction
  intro hz
  exact hc (by simp [hz])

end Tsar.Unparse
