import Verif.Unparse.Lemmas
/-!
# Unparsing inside of an object
-/
namespace Tsar.Unparse

theorem find_names {ms : Mems} {x o t} (h : ms.find x = some (o, t)) : x ∈ ms.names := by
  induction ms using Mems.rec (motive_1 := fun _ => True) with
  | nil => simp [Mems.find] at h
  | cons m y o' t' rest _ ih =>
    simp only [Mems.find] at h
    split at h
    · rename_i hc
      simp only [Bool.and_eq_true, beq_iff_eq] at hc
      obtain ⟨rfl, rfl⟩ := hc
      simp [Mems.names]
    · cases m
      · simpa [Mems.names] using ih h
      · simp [Mems.names, ih h]
  | _ => trivial

theorem Loc.field {w x s a size all nm o t} (h : Loc w x s a) (hs : s.addr = false)
    (ht : s.ty = some (.struct size all)) (hf : all.find nm = some (o, t)) :
    Loc w x { (s.update .field .field).pushSuf [.field, .ident nm] with ty := some t } (a + o) := by
  obtain ⟨hb, e, r, hl, he, h1, _⟩ := h
  obtain ⟨t', rfl, h3⟩ := h1 hs
  have := h3 _ ht
  subst this
  refine ⟨by simpa [U.pushSuf] using hb, .field e nm, .obj (a + o) (some t), ?_, by simp [World.eval, he, hf], ?_, ?_⟩
  · have h4 : Lvl 2 (((s.update .field .field).pushSuf [.field, .ident nm]).tokens x) (.field e nm) := by
      rw [tokens_suf]
      exact Post.field nm (hl.update .field .field (by decide))
    simpa [U.pushSuf, Tok.priority, U.tokens] using h4
  · intro _
    exact ⟨_, rfl, fun τ hτ => hτ⟩
  · intro h5
    simp [U.pushSuf, hs] at h5

theorem Loc.subs {w x s a size el dims us is} {k : Int} (h : Loc w x s a) (hs : s.addr = false)
    (ht : s.ty = some (.array size el dims)) (hu : Subs us is) (hk : flat dims is = some k) (s' : U)
    (hp : s'.pre = s.pre) (hsf : s'.suf = s.suf) (hpr : s'.prio = s.prio) (ha : s'.addr = false)
    (hty : s'.ty = some el) (hbad : s'.bad = false) :
    Loc w x ((s'.update .lb .rb).pushSuf (.lb :: us ++ [.rb])) (a + k * el.size) := by
  obtain ⟨hb, e, r, hl, he, h1, _⟩ := h
  obtain ⟨t', rfl, h3⟩ := h1 hs
  have := h3 _ ht
  subst this
  refine ⟨by simpa [U.pushSuf] using hbad, .idx e is, .obj (a + k * el.size) (some el), ?_,
    by simp [World.eval, he, hk], ?_, ?_⟩
  · have hl' : Lvl s'.prio (s'.tokens x) e := by
      rw [hpr, tokens_congr hp hsf]; exact hl
    have h4 : Lvl 2 (((s'.update .lb .rb).pushSuf (.lb :: us ++ [.rb])).tokens x) (.idx e is) := by
      rw [tokens_suf]
      have := Post.idx (hl'.update .lb .rb (by decide)) hu
      rw [List.append_assoc] at this
      exact this
    simpa [U.pushSuf, Tok.priority] using h4
  · intro _
    refine ⟨_, rfl, fun τ hτ => ?_⟩
    simpa [U.pushSuf, hty] using hτ
  · intro h5
    simp [U.pushSuf, ha] at h5

/-- An array is used as an address. -/
theorem Loc.decay {w x s a size el dims} (h : Loc w x s a) (hs : s.addr = false)
    (ht : s.ty = some (.array size el dims)) : Loc w x { s with ty := some el, addr := true } a := by
  obtain ⟨hb, e, r, hl, he, h1, _⟩ := h
  obtain ⟨t', rfl, h3⟩ := h1 hs
  have := h3 _ ht
  subst this
  refine ⟨hb, e, _, hl, he, by simp, fun _ => ?_⟩
  cases dims with
  | nil => rfl
  | cons d ds => cases ds <;> rfl

mutual

theorem inner_ok (w : World) (x : Name) (tmpl : Bool) (t : Ty) (s : U) (a : Int) (off : Nat) (pos : Bool)
    (hs : s.addr = false) (ht : s.ty = some t) (hok : t.ok tmpl) (h : Loc w x s a) :
    Loc w x (inner tmpl t s off pos) (a + sgn off pos) := by
  match t, hok, ht with
  | .base _, _, _ => unfold inner; exact scalar_ok h off pos
  | .union _, _, _ => unfold inner; exact scalar_ok h off pos
  | .ptr _, _, _ => unfold inner; exact scalar_ok h off pos
  | .struct size ms, hok, ht =>
    unfold inner
    split
    · exact scalar_ok h off pos
    · rename_i hc
      cases hm : members tmpl ms s off none with
      | none => simp only; exact scalar_ok h off pos
      | some r =>
        simp only
        have hp : pos = true := by
          simp only [Bool.or_eq_true, Bool.not_eq_true', decide_eq_true_eq, not_or, Bool.not_eq_false] at hc
          exact hc.1
        subst hp
        have := members_ok w x tmpl ms s a off none r size ms hs ht hok.1 (fun _ _ _ h => h) hok.2 h
          (by simp) hm
        simpa [sgn] using this
  | .array size el dims, hok, ht =>
    unfold inner
    simp only
    have hd := h.decay hs ht
    split
    · exact scalar_ok hd off pos
    · rename_i hc
      simp only [Bool.or_eq_true, Bool.not_eq_true', decide_eq_true_eq, not_or, Bool.not_eq_false,
        List.isEmpty_iff] at hc
      obtain ⟨⟨⟨hne, rfl⟩, hlt⟩, hz⟩ := hc
      cases hcd : constDims dims with
      | none =>
        simp only
        split
        · rename_i hT
          obtain ⟨n, hn, hl⟩ := hok.2.2 hT
          obtain ⟨ds, hds⟩ := constDims_some hn hl
          rw [hcd] at hds; cases hds
        · exact scalar_ok hd off true
      | some ds =>
        simp only
        obtain ⟨hb, is, hsub, hf⟩ := indices_ok tmpl dims ds hcd hne hok.2.1 (off / el.size)
        have h1 := h.subs hs ht hsub hf { s with ty := some el, addr := false, bad := s.bad || (indices tmpl ds (off / el.size)).2 }
          rfl rfl rfl rfl rfl (by simp [hb, h.1])
        have h2 := inner_ok w x tmpl el _ _ (off % el.size) true (by simp [U.pushSuf]) (by simp [U.pushSuf]) hok.1 h1
        have h3 : a + ((off / el.size : Nat) : Int) * (el.size : Int) + sgn (off % el.size) true = a + sgn off true := by
          simp only [sgn, if_true]
          have := Nat.div_add_mod off el.size
          have h5 : ((off / el.size : Nat) : Int) * (el.size : Int) + ((off % el.size : Nat) : Int) = off := by
            rw [← Int.natCast_mul, ← Int.natCast_add, Nat.mul_comm]
            exact_mod_cast this
          omega
        rw [← h3]
        exact h2

theorem members_ok (w : World) (x : Name) (tmpl : Bool) (ms : Mems) (s : U) (a : Int) (off : Nat)
    (r : Option U) (r' : U) (size : Nat) (all : Mems) (hs : s.addr = false)
    (ht : s.ty = some (.struct size all)) (hn : ms.names.Nodup)
    (hf : ∀ nm o t, ms.find nm = some (o, t) → all.find nm = some (o, t)) (hok : ms.ok tmpl) (h : Loc w x s a)
    (hr : ∀ q, r = some q → Loc w x q (a + off)) (hm : members tmpl ms s off r = some r') :
    Loc w x r' (a + off) := by
  match ms, hn, hf, hok, hm with
  | .nil, _, _, _, hm => unfold members at hm; exact hr _ hm
  | .cons false nm mo t rest, hn, hf, hok, hm =>
    unfold members at hm
    simp only [Bool.not_false, if_true] at hm
    exact members_ok w x tmpl rest s a off r r' size all hs ht hn
      (fun nm o t h => hf nm o t (by simpa [Mems.find] using h)) hok.2 h hr hm
  | .cons true nm mo t rest, hn, hf, hok, hm =>
    unfold members at hm
    simp only [Bool.not_true, Bool.false_eq_true, if_false, hs] at hm
    split at hm
    · exact hr _ hm
    · rename_i hle
      have hn' : nm ∉ rest.names ∧ rest.names.Nodup := by simpa [Mems.names] using hn
      have h1 := h.field (nm := nm) (o := mo) (t := t) hs ht (hf _ _ _ (by simp [Mems.find]))
      have h2 := inner_ok w x tmpl t _ _ (off - mo) true (by simp [U.pushSuf, hs]) rfl hok.1 h1
      have h3 : a + (mo : Int) + sgn (off - mo) true = a + off := by
        simp only [sgn, if_true]; omega
      rw [h3] at h2
      split at hm
      · cases hm; exact h2
      · refine members_ok w x tmpl rest s a off _ r' size all hs ht hn'.2 (fun y o t' hy => hf y o t' ?_) hok.2 h ?_ hm
        · have : y ≠ nm := by
            rintro rfl; exact hn'.1 (find_names hy)
          simp [Mems.find, this, hy]
        · intro q hq; cases hq; exact h2

end

/-! ## Dereferenced objects -/

theorem laid_pos {t : Ty} (h : t.laid) : 0 < t.size := by
  cases t with
  | base => exact h
  | ptr => simp [Ty.size]
  | union => exact h
  | struct => exact h.1
  | array => exact h.1

theorem mem_laid {ms : Mems} {lo size o t} (h : ms.laid lo size) (hm : ms.Mem o t) :
    lo ≤ o ∧ o + t.size ≤ size ∧ t.laid := by
  induction hm generalizing lo with
  | here => exact ⟨h.1, h.2.1, h.2.2.1⟩
  | @there m x o1 t1 rest o' t' hm ih =>
    cases m
    · exact ih h
    · have := ih h.2.2.2
      exact ⟨by have := h.1; omega, this.2⟩

theorem leaf_lt {t : Ty} {o t'} (h : Leaf t o t') (hl : t.laid) : o < t.size := by
  induction h with
  | base => exact hl
  | ptr => simp [Ty.size]
  | union => exact hl
  | struct hm _ ih =>
    have := mem_laid hl.2 hm
    have := ih this.2.2
    simp only [Ty.size]; omega
  | @array size el dims n i k t' hn _ _ hi _ ih =>
    have h1 := ih hl.2.1
    have h2 := hl.2.2 _ hn
    show i * el.size + k < size
    have : (i + 1) * el.size ≤ n * el.size := Nat.mul_le_mul_right _ hi
    rw [Nat.add_mul] at this
    omega

theorem members_stop (tmpl : Bool) (ms : Mems) (s : U) (off lo size : Nat) (r : Option U)
    (hl : ms.laid lo size) (h : off < lo) : members tmpl ms s off r = r := by
  induction ms using Mems.rec (motive_1 := fun _ => True) generalizing lo with
  | nil => unfold members; rfl
  | cons m y o' t' rest _ ih =>
    unfold members
    cases m
    · simpa using ih lo hl h
    · have := hl.1
      simp only [Bool.not_true, Bool.false_eq_true, if_false]
      rw [if_pos (by omega)]
  | _ => trivial

theorem members_leaf (tmpl : Bool) (ms : Mems) (s : U) (lo size o k : Nat) (t : Ty) (r : Option U)
    (hs : s.addr = false) (hl : ms.laid lo size) (hm : ms.Mem o t) (hk : k < t.size) :
    ∃ s', s'.addr = false ∧ s'.ty = some t ∧ members tmpl ms s (o + k) r = some (inner tmpl t s' k true) := by
  induction hm generalizing lo r with
  | @here y o t rest =>
    refine ⟨{ (s.update .field .field).pushSuf [.field, .ident y] with ty := some t }, by simp [U.pushSuf, hs], rfl, ?_⟩
    unfold members
    simp only [Bool.not_true, Bool.false_eq_true, if_false, hs]
    rw [if_neg (by omega)]
    have h2 : o + k - o = k := by omega
    rw [h2]
    split
    · rfl
    · exact members_stop tmpl rest s (o + k) _ _ _ hl.2.2.2 (by omega)
  | @there m y o1 t1 rest o' t' hm ih =>
    unfold members
    cases m
    · simpa using ih lo r hl hk
    · have h1 := mem_laid hl.2.2.2 hm
      have h2 := laid_pos hl.2.2.1
      simp only [Bool.not_true, Bool.false_eq_true, if_false, hs]
      rw [if_neg (by omega), if_neg (by omega)]
      exact ih _ _ hl.2.2.2 hk

theorem inner_leaf (tmpl : Bool) {t t' : Ty} {off : Nat} (h : Leaf t off t') (s : U) (hl : t.laid)
    (hs : s.addr = false) (ht : s.ty = some t) :
    (inner tmpl t s off true).addr = false ∧ (inner tmpl t s off true).ty = some t' := by
  induction h generalizing s with
  | base => unfold inner; simp [scalar, hs, ht]
  | ptr => unfold inner; simp [scalar, hs, ht]
  | union => unfold inner; simp [scalar, hs, ht]
  | @struct size ms o t k t' hm hlf ih =>
    have h1 := mem_laid hl.2 hm
    have h2 := leaf_lt hlf h1.2.2
    obtain ⟨s', h3, h4, h5⟩ := members_leaf tmpl ms s 0 size o k t none hs hl.2 hm h2
    unfold inner
    simp only [Bool.not_true, Bool.false_or, decide_eq_true_eq]
    rw [if_neg (by omega), h5]
    exact ih s' h1.2.2 h3 h4
  | @array size el dims n i k t' hn hlo hne hi hlf ih =>
    have hlt := leaf_lt (Leaf.array (size := size) hn hlo hne hi hlf) hl
    have h2 := leaf_lt hlf hl.2.1
    obtain ⟨ds, hds⟩ := constDims_some hn hlo
    have hz : el.size ≠ 0 := by omega
    unfold inner
    replace hlt : i * el.size + k < size := hlt
    have hcond : (dims.isEmpty || !true || decide (size ≤ i * el.size + k) || decide (el.size = 0)) = false := by
      cases dims with
      | nil => exact absurd rfl hne
      | cons => simp [hz]; omega
    simp only [hcond, Bool.false_eq_true, if_false, hds]
    have hmod : (i * el.size + k) % el.size = k := by
      rw [Nat.mul_comm, Nat.mul_add_mod, Nat.mod_eq_of_lt h2]
    rw [hmod]
    exact ih _ hl.2.1 (by simp [U.pushSuf]) (by simp [U.pushSuf])

end Tsar.Unparse
