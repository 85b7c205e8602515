import Verif.Rename.Model
import Mathlib.Data.List.Nodup
import Mathlib.Data.Finset.Card
import Mathlib.Data.Nat.Digits.Lemmas

/-!
# Renaming of local objects keeps meaning of names
-/

namespace Tsar.Rename

/-! ## New names -/

theorem digits_inj {a b : Nat} (h : digits a = digits b) : a = b := by
  have hd : ∀ n, n ≠ 0 → Nat.digits 10 n ≠ [0] := by
    intro n hn e
    have := congrArg (Nat.ofDigits 10) e
    rw [Nat.ofDigits_digits] at this
    simp at this
    exact hn this
  have key : ∀ n, n ≠ 0 → ((Nat.digits 10 n).reverse.map (· + 48)) ≠ [48] := by
    intro n hn e
    rw [List.map_eq_singleton_iff] at e
    obtain ⟨x, h1, h2⟩ := e
    have : x = 0 := by omega
    subst this
    have := congrArg List.reverse h1
    simp at this
    exact hd n hn this
  unfold digits at h
  split at h <;> split at h
  next h1 h2 => omega
  next h1 h2 => exact absurd h.symm (key b h2)
  next h1 h2 => exact absurd h (key a h1)
  next h1 h2 =>
    have h3 := List.map_injective_iff.2 (fun x y (e : x + 48 = y + 48) => by omega) h
    exact Nat.digits_inj_iff.1 (List.reverse_injective h3)

theorem search_spec (ids : List Name) (n : Name) : ∀ fuel k,
    search ids n fuel k ∉ ids ∨
      (∀ j, k ≤ j → j < k + fuel → n ++ digits j ∈ ids) ∧ search ids n fuel k = n ++ digits (k + fuel)
  | 0, k => .inr ⟨fun j h1 h2 => by omega, rfl⟩
  | fuel + 1, k => by
    unfold search
    split
    next h =>
      rcases search_spec ids n fuel (k + 1) with h' | ⟨h1, h2⟩
      · exact .inl h'
      · refine .inr ⟨fun j hj1 hj2 => ?_, by rw [h2]; congr 2; omega⟩
        by_cases e : j = k
        · subst e; exact h
        · exact h1 j (by omega) (by omega)
    next h => exact .inl h

/-- The search of a new name succeeds. -/
theorem fresh_not_mem (ids : List Name) (n : Name) : fresh ids n ∉ ids := by
  unfold fresh
  rcases search_spec ids n ids.length 0 with h | ⟨h1, h2⟩
  · exact h
  · intro hm
    rw [h2] at hm
    have hall : ∀ j, j < ids.length + 1 → n ++ digits j ∈ ids := by
      intro j hj
      by_cases e : j = ids.length
      · subst e; simpa using hm
      · exact h1 j (by omega) (by omega)
    have hsub : (Finset.range (ids.length + 1)).image (fun j => n ++ digits j) ⊆ ids.toFinset := by
      intro x hx
      obtain ⟨j, hj, rfl⟩ := Finset.mem_image.1 hx
      exact List.mem_toFinset.2 (hall j (Finset.mem_range.1 hj))
    have hcard := Finset.card_le_card hsub
    rw [Finset.card_image_of_injective _ (fun a b e => digits_inj (List.append_cancel_left e)),
      Finset.card_range] at hcard
    have := List.toFinset_card_le ids
    omega

/-- Only digits are added to the old name. -/
theorem fresh_prefix (ids : List Name) (n : Name) : ∃ k, fresh ids n = n ++ digits k := by
  have : ∀ fuel k, ∃ j, search ids n fuel k = n ++ digits j := by
    intro fuel
    induction fuel with
    | zero => exact fun k => ⟨k, rfl⟩
    | succ fuel ih =>
      intro k
      unfold search
      split
      · exact ih (k + 1)
      · exact ⟨k, rfl⟩
  exact this _ _

/-! ## Lookup -/

theorem lookup_cons (n m : Name) (d : Nat) (env : Env) :
    lookup ((m, d) :: env) n = if m = n then some d else lookup env n := by
  unfold lookup
  by_cases h : m = n <;> simp [List.find?_cons, h]

/-- The new name of a declaration. -/
def new (change : Nat → Option Name) (p : Name × Nat) : Name × Nat := ((change p.2).getD p.1, p.2)

/-- Lookup of a new name among new names. -/
theorem lookup_new {change : Nat → Option Name} {O : List Name} {n : Name} (hn : n ∈ O) :
    ∀ (env : Env), (∀ p ∈ env, p.1 ∈ O) → (env.map (·.2)).Nodup →
      (∀ d m, change d = some m → m ∉ O) →
      (∀ d d' m, change d = some m → change d' = some m → d = d') →
      lookup (env.map (new change))
        (match lookup env n with | some d => (change d).getD n | none => n) = lookup env n := by
  intro env ho hnd hf hi
  induction env with
  | nil => simp [lookup]
  | cons p env ih =>
    obtain ⟨m, d⟩ := p
    have ho' : ∀ p ∈ env, p.1 ∈ O := fun p hp => ho p (by simp [hp])
    simp only [List.map_cons, List.nodup_cons] at hnd
    have ih := ih ho' hnd.2
    rw [lookup_cons]
    by_cases e : m = n
    · subst e
      simp [new, lookup_cons]
    · simp only [e, if_false]
      simp only [List.map_cons, new]
      rw [lookup_cons, if_neg, ih]
      intro h
      have hm : m ∈ O := ho (m, d) (by simp)
      cases hl : lookup env n with
      | none =>
        rw [hl] at h
        simp only at h
        cases hc : change d with
        | none => rw [hc] at h; exact e h
        | some w => rw [hc] at h; simp at h; subst h; exact hf d w hc hn
      | some d' =>
        rw [hl] at h
        simp only at h
        have hd' : d' ∈ env.map (·.2) := by
          unfold lookup at hl
          cases hx : env.find? fun p => p.1 == n with
          | none => rw [hx] at hl; simp at hl
          | some q =>
            rw [hx] at hl
            simp at hl
            exact List.mem_map.2 ⟨q, List.mem_of_find?_eq_some hx, hl⟩
        cases hc : change d with
        | none =>
          rw [hc] at h
          simp only [Option.getD_none] at h
          cases hc' : change d' with
          | none => rw [hc'] at h; exact e h
          | some w => rw [hc'] at h; simp at h; subst h; exact hf d' _ hc' hm
        | some w =>
          rw [hc] at h
          simp only [Option.getD_some] at h
          cases hc' : change d' with
          | none => rw [hc'] at h; simp at h; subst h; exact hf d _ hc hn
          | some w' =>
            rw [hc'] at h
            simp at h
            subst h
            have := hi d d' _ hc hc'
            subst this
            exact hnd.1 hd'

/-- A name which is resolved to a declaration with the old name is resolved to it among new names. -/
theorem lookup_old {change : Nat → Option Name} {O : List Name} {n : Name} (hn : n ∈ O)
    (env : Env) (ho : ∀ p ∈ env, p.1 ∈ O) (hnd : (env.map (·.2)).Nodup)
    (hf : ∀ d m, change d = some m → m ∉ O)
    (hi : ∀ d d' m, change d = some m → change d' = some m → d = d')
    (hl : ∀ d, lookup env n = some d → change d = none) :
    lookup (env.map (new change)) n = lookup env n := by
  have := lookup_new hn env ho hnd hf hi
  cases h : lookup env n with
  | none => rw [h] at this; exact this
  | some d => rw [h] at this; simpa [hl d h] using this

/-! ## The invariant -/

/-- Declarations of an environment are known, their names are original, `change` agrees with all
changes `c`. -/
structure EnvOK (O : List Name) (D : List Nat) (c change : Nat → Option Name) (env : Env) :
    Prop where
  names : ∀ p ∈ env, p.1 ∈ O
  known : ∀ p ∈ env, p.2 ∈ D
  nodup : (env.map (·.2)).Nodup
  agree : ∀ p ∈ env, change p.2 = c p.2

/-- `O`: original names, `D`: declarations which have been met, `c`: all changes, `T`: declarations
which may be changed. -/
structure Inv (O : List Name) (T : Nat → Prop) (D : List Nat) (c : Nat → Option Name) (st : St)
    (s s' : Sc) : Prop where
  env : st.env = s.env
  saved : st.saved = s.saved
  pend : st.pend = s.pend
  active : st.active = s.active
  env' : s'.env = s.env.map (new c)
  saved' : s'.saved = s.saved.map fun f => (f.1.map (new c), f.2)
  pend' : s'.pend = s.pend
  active' : s'.active = s.active
  ok : EnvOK O D c st.change s.env
  oks : ∀ f ∈ s.saved, EnvOK O D c st.change f.1
  off : s.active = false → ∀ p ∈ s.env, c p.2 = none
  offs : ∀ f ∈ s.saved, f.2 = false → ∀ p ∈ f.1, c p.2 = none
  mono : s.active = false → ∀ f ∈ s.saved, f.2 = false
  monos : s.saved.Pairwise fun f g => f.2 = false → g.2 = false
  ids : ∀ n ∈ O, n ∈ st.ids
  idsC : ∀ d m, c d = some m → m ∈ st.ids
  new : ∀ d m, c d = some m → m ∉ O
  inj : ∀ d d' m, c d = some m → c d' = some m → d = d'
  dom : ∀ d m, c d = some m → d ∈ D
  may : ∀ d m, c d = some m → T d
  domS : ∀ d, d ∉ D → st.change d = none

theorem EnvOK.update {O : List Name} {D : List Nat} {c change : Nat → Option Name} {env : Env}
    (h : EnvOK O D c change env) {id : Nat} (hid : id ∉ D) (m : Option Name) :
    EnvOK O (id :: D) (Function.update c id m) (Function.update change id m) env := by
  refine ⟨h.names, fun p hp => by simp [h.known p hp], h.nodup, fun p hp => ?_⟩
  have : p.2 ≠ id := fun e => hid (e ▸ h.known p hp)
  simp [Function.update_of_ne this, h.agree p hp]

theorem EnvOK.more {O : List Name} {D : List Nat} {c change : Nat → Option Name} {env : Env}
    (h : EnvOK O D c change env) (id : Nat) : EnvOK O (id :: D) c change env :=
  ⟨h.names, fun p hp => by simp [h.known p hp], h.nodup, h.agree⟩

theorem new_update {c : Nat → Option Name} {env : Env} {id : Nat} (m : Option Name)
    (h : ∀ p ∈ env, p.2 ≠ id) : env.map (new (Function.update c id m)) = env.map (new c) := by
  apply List.map_congr_left
  intro p hp
  simp [Rename.new, Function.update_of_ne (h p hp)]

/-- One event of the original text and of the new one. -/
structure Same (O : List Name) (x' x : Seen) : Prop where
  res : x'.to? = x.to?
  active : x'.active = x.active
  shape : x'.ev.shape = x.ev.shape
  off : x.active = false → x'.ev = x.ev
  fresh : ∀ d n, x.active = true → x'.ev = .decl d n → n ∉ O

theorem step_same {O : List Name} {T : Nat → Prop} {D : List Nat} {c : Nat → Option Name} {st : St}
    {s s' : Sc} (h : Inv O T D c st s s') {e : Ev} (hn : ∀ n, e.name? = some n → n ∈ O)
    (hid : ∀ id n, e = .decl id n → id ∉ D ∧ (s.active = true → T id))
    (hf : s.active = true → e ≠ .func)
    (ht : ∀ n d, e = .tref n → lookup s.env n = some d → ¬ T d) :
    Same O ⟨(step st e).1, s'.resolve (step st e).1, s'.active⟩ ⟨e, s.resolve e, s.active⟩ ∧
    ∃ c', Inv O T (decls [e] ++ D) c' (step st e).2 (s.next e) (s'.next (step st e).1) := by
  cases e with
  | func =>
    refine ⟨⟨rfl, h.active', rfl, fun _ => rfl, fun d n _ e => by simp [step] at e⟩, c, ?_⟩
    have hoff : s.active = false := by
      by_contra hne
      exact hf (by simpa using hne) rfl
    have hk : ∀ (env : Env), EnvOK O D c st.change env → (∀ p ∈ env, c p.2 = none) →
        EnvOK O D c (fun _ => none) env :=
      fun env he h0 => ⟨he.names, he.known, he.nodup, fun p hp => (h0 p hp).symm⟩
    exact { h with
      ok := hk _ h.ok (h.off hoff)
      oks := fun f hfm => hk _ (h.oks f hfm) (h.offs f hfm (h.mono hoff f hfm))
      pend := rfl
      pend' := rfl
      domS := fun _ _ => rfl }
  | pragma =>
    exact ⟨⟨rfl, h.active', rfl, fun _ => rfl, fun d n _ e => by simp [step] at e⟩, c,
      { h with pend := rfl, pend' := rfl }⟩
  | stmt =>
    exact ⟨⟨rfl, h.active', rfl, fun _ => rfl, fun d n _ e => by simp [step] at e⟩, c,
      { h with pend := rfl, pend' := rfl }⟩
  | enter loop mac =>
    refine ⟨⟨rfl, h.active', rfl, fun _ => rfl, fun d n _ e => by simp [step] at e⟩, c, ?_⟩
    refine { h with env := h.env, saved := ?_, pend := rfl, active := ?_, env' := h.env',
                    saved' := ?_, pend' := rfl, active' := ?_, oks := ?_, off := ?_, offs := ?_,
                    mono := ?_, monos := ?_ }
    · simp [step, Sc.next, h.env, h.active, h.saved]
    · simp [step, Sc.next, h.active, h.pend]
    · simp [step, Sc.next, h.env', h.active', h.saved']
    · simp [step, Sc.next, h.active', h.pend']
    · intro f hfm
      rcases List.mem_cons.1 hfm with rfl | hfm
      · exact h.ok
      · exact h.oks f hfm
    · intro ha
      simp [Sc.next] at ha
      exact h.off ha.1
    · intro f hfm
      rcases List.mem_cons.1 hfm with rfl | hfm
      · exact h.off
      · exact h.offs f hfm
    · intro ha f hfm
      simp [Sc.next] at ha
      rcases List.mem_cons.1 hfm with rfl | hfm
      · exact ha.1
      · exact h.mono ha.1 f hfm
    · exact List.pairwise_cons.2 ⟨fun g hg ha => h.mono ha g hg, h.monos⟩
  | leave =>
    refine ⟨⟨rfl, h.active', rfl, fun _ => rfl, fun d n _ e => by simp [step] at e⟩, c, ?_⟩
    cases hs : s.saved with
    | nil =>
      have h1 : st.saved = [] := by rw [h.saved, hs]
      have h2 : s'.saved = [] := by rw [h.saved', hs]; rfl
      exact { h with
        env := by simp [step, Sc.next, h1, hs, h.env]
        saved := by simp [step, Sc.next, h1, hs]
        active := by simp [step, Sc.next, h1, hs, h.active]
        env' := by simp [step, Sc.next, h2, hs, h.env']
        saved' := by simp [step, Sc.next, h2, hs]
        pend := h.pend
        pend' := h.pend'
        active' := by simp [step, Sc.next, h2, hs, h.active']
        ok := by simpa [step, Sc.next, hs, decls] using h.ok
        oks := by simp [Sc.next, hs]
        off := by simpa [step, Sc.next, hs] using h.off
        offs := by simp [Sc.next, hs]
        mono := by simp [Sc.next, hs]
        monos := by simp [Sc.next, hs] }
    | cons f fs =>
      have h1 : st.saved = f :: fs := by rw [h.saved, hs]
      have h2 : s'.saved = (f.1.map (Rename.new c), f.2) ::
          fs.map fun f => (f.1.map (Rename.new c), f.2) := by rw [h.saved', hs]; rfl
      have hm := h.monos
      rw [hs, List.pairwise_cons] at hm
      exact { h with
        env := by simp [step, Sc.next, h1, hs]
        saved := by simp [step, Sc.next, h1, hs]
        active := by simp [step, Sc.next, h1, hs]
        env' := by simp [step, Sc.next, h2, hs]
        saved' := by simp [step, Sc.next, h2, hs]
        pend := h.pend
        pend' := h.pend'
        active' := by simp [step, Sc.next, h2, hs]
        ok := by simpa [step, Sc.next, hs, decls] using h.oks f (by simp [hs])
        oks := fun g hg => by
          simp [Sc.next, hs] at hg
          exact h.oks g (by simp [hs, hg])
        off := by simpa [step, Sc.next, hs] using h.offs f (by simp [hs])
        offs := fun g hg => by
          simp [Sc.next, hs] at hg
          exact h.offs g (by simp [hs, hg])
        mono := by simpa [Sc.next, hs] using fun ha g b hg => hm.1 (g, b) hg ha
        monos := by simpa [Sc.next, hs] using hm.2 }
  | tref n =>
    refine ⟨⟨?_, h.active', rfl, fun _ => rfl, fun d n _ e => by simp [step] at e⟩, c, h⟩
    simp only [step, Sc.resolve]
    rw [h.env']
    refine lookup_old (hn n rfl) _ h.ok.names h.ok.nodup h.new h.inj fun d hd => ?_
    cases hc : c d with
    | none => rfl
    | some m => exact absurd (h.may d m hc) (ht n d rfl hd)
  | ref n =>
    have hpush : ∀ m, Inv O T D c { st with pend := false } (s.next (.ref n))
        (s'.next (.ref m)) := fun m => { h with pend := rfl, pend' := rfl }
    have hmem : ∀ d, lookup s.env n = some d → st.change d = c d := by
      intro d hl
      unfold lookup at hl
      cases hx : s.env.find? fun p => p.1 == n with
      | none => rw [hx] at hl; simp at hl
      | some q =>
        rw [hx] at hl
        simp at hl
        subst hl
        exact h.ok.agree q (List.mem_of_find?_eq_some hx)
    have key := lookup_new (hn n rfl) s.env h.ok.names h.ok.nodup h.new h.inj
    have hst : (step st (.ref n)).2 = { st with pend := false } := by
      simp only [step]
      split
      · split <;> rfl
      · rfl
    have hev : ∃ m, (step st (.ref n)).1 = .ref m := by
      simp only [step]
      split
      · split <;> exact ⟨_, rfl⟩
      · exact ⟨_, rfl⟩
    obtain ⟨m, hm⟩ := hev
    rw [hst, hm]
    refine ⟨⟨?_, h.active', rfl, ?_, fun d n _ e => by simp at e⟩, c, hpush m⟩
    · simp only [Sc.resolve]
      rw [h.env']
      simp only [step] at hm
      split at hm
      next ha =>
        rw [h.env] at hm
        split at hm
        next d hl =>
          simp at hm
          rw [hl] at key
          simp only at key
          rw [hl, ← key, ← hm, hmem d hl]
        next hl =>
          simp at hm
          rw [hl] at key
          simp only at key
          rw [hl, ← key, ← hm]
      next ha =>
        simp at hm
        rw [← hm]
        refine lookup_old (hn n rfl) _ h.ok.names h.ok.nodup h.new h.inj fun d hd => ?_
        unfold lookup at hd
        cases hx : s.env.find? fun p => p.1 == n with
        | none => rw [hx] at hd; simp at hd
        | some q =>
          rw [hx] at hd
          simp at hd
          subst hd
          refine h.off ?_ q (List.mem_of_find?_eq_some hx)
          rw [← h.active]
          simpa using ha
    · intro ha
      simp only at ha
      simp only [step, h.active, ha] at hm
      simp at hm
      simp [hm]
  | decl id n =>
    obtain ⟨hid1, hid2⟩ := hid id n rfl
    have hnO : n ∈ O := hn n rfl
    have hne : ∀ p ∈ s.env, p.2 ≠ id := fun p hp e => hid1 (e ▸ h.ok.known p hp)
    have hnes : ∀ f ∈ s.saved, ∀ p ∈ f.1, p.2 ≠ id :=
      fun f hf p hp e => hid1 (e ▸ (h.oks f hf).known p hp)
    have hcid : c id = none := by
      cases hc : c id with
      | none => rfl
      | some m => exact absurd (h.dom id m hc) hid1
    have hnd : ((n, id) :: s.env).map (·.2) |>.Nodup := by
      simp only [List.map_cons, List.nodup_cons]
      refine ⟨fun hm => ?_, h.ok.nodup⟩
      obtain ⟨p, hp, e⟩ := List.mem_map.1 hm
      exact hne p hp e
    by_cases ha : s.active = true
    · have hst : step st (.decl id n) = (.decl id (Rename.fresh st.ids n),
          { st with pend := false, env := (n, id) :: st.env, ids := Rename.fresh st.ids n :: st.ids,
                    change := Function.update st.change id (some (Rename.fresh st.ids n)) }) := by
        simp [step, h.active, ha, h.ids n hnO]
      rw [hst]
      have hfr := fresh_not_mem st.ids n
      generalize Rename.fresh st.ids n = m at hfr
      have hmO : m ∉ O := fun hm => hfr (h.ids m hm)
      refine ⟨⟨rfl, h.active', rfl, ?_, ?_⟩, Function.update c id (some m), ?_⟩
      · intro h0
        exact absurd ha (by simpa using h0)
      · intro d k _ e
        simp at e
        obtain ⟨_, rfl⟩ := e
        exact hmO
      · refine
          { env := by simp [Sc.next, h.env], saved := h.saved, pend := rfl, active := h.active,
            env' := ?_, saved' := ?_, pend' := rfl, active' := h.active', ok := ?_, oks := ?_,
            off := ?_, offs := ?_, mono := h.mono, monos := h.monos, ids := ?_, idsC := ?_,
            new := ?_, inj := ?_, dom := ?_, may := ?_, domS := ?_ }
        · simp only [Sc.next, List.map_cons, h.env', new_update _ hne]
          simp [Rename.new]
        · simp only [Sc.next, h.saved']
          apply List.map_congr_left
          intro f hf
          rw [new_update _ (hnes f hf)]
        · have h1 := h.ok.update hid1 (some m)
          refine ⟨?_, ?_, hnd, ?_⟩
          · intro p hp
            rcases List.mem_cons.1 hp with rfl | hp
            · exact hnO
            · exact h1.names p hp
          · intro p hp
            rcases List.mem_cons.1 hp with rfl | hp
            · simp [decls]
            · simpa [decls] using h1.known p hp
          · intro p hp
            rcases List.mem_cons.1 hp with rfl | hp
            · simp
            · exact h1.agree p hp
        · intro f hf
          exact (h.oks f hf).update hid1 (some m)
        · intro h0
          exact absurd ha (by simpa [Sc.next] using h0)
        · intro f hf h0 p hp
          rw [Function.update_of_ne (hnes f hf p hp)]
          exact h.offs f hf h0 p hp
        · intro x hx
          simp [h.ids x hx]
        · intro d x hx
          by_cases e : d = id
          · subst e; simp at hx; simp [hx]
          · rw [Function.update_of_ne e] at hx
            simp [h.idsC d x hx]
        · intro d x hx
          by_cases e : d = id
          · subst e; simp at hx; subst hx; exact hmO
          · rw [Function.update_of_ne e] at hx
            exact h.new d x hx
        · intro d d' x hx hx'
          by_cases e : d = id <;> by_cases e' : d' = id
          · rw [e, e']
          · subst e
            simp at hx
            rw [Function.update_of_ne e'] at hx'
            subst hx
            exact absurd (h.idsC d' m hx') hfr
          · subst e'
            simp at hx'
            rw [Function.update_of_ne e] at hx
            subst hx'
            exact absurd (h.idsC d m hx) hfr
          · rw [Function.update_of_ne e] at hx
            rw [Function.update_of_ne e'] at hx'
            exact h.inj d d' x hx hx'
        · intro d x hx
          by_cases e : d = id
          · subst e; simp [decls]
          · rw [Function.update_of_ne e] at hx
            simp [decls, h.dom d x hx]
        · intro d x hx
          by_cases e : d = id
          · subst e; exact hid2 ha
          · rw [Function.update_of_ne e] at hx
            exact h.may d x hx
        · intro d hd
          simp only [decls, List.cons_append, List.nil_append, List.mem_cons, not_or] at hd
          simp only
          rw [Function.update_of_ne hd.1]
          exact h.domS d hd.2
    · have ha' : s.active = false := by simpa using ha
      have hst : step st (.decl id n) = (.decl id n,
          { st with pend := false, env := (n, id) :: st.env }) := by
        simp [step, h.active, ha']
      rw [hst]
      refine ⟨⟨rfl, h.active', rfl, fun _ => rfl, fun d k h1 _ => absurd h1 ha⟩, c, ?_⟩
      have hc' : ∀ p ∈ (n, id) :: s.env, c p.2 = none := by
        intro p hp
        rcases List.mem_cons.1 hp with rfl | hp
        · exact hcid
        · exact h.off ha' p hp
      exact
        { env := by simp [Sc.next, h.env], saved := h.saved, pend := rfl, active := h.active,
          env' := by simp [Sc.next, h.env', Rename.new, hcid]
          saved' := h.saved', pend' := rfl, active' := h.active'
          ok :=
            { names := fun p hp => by
                rcases List.mem_cons.1 hp with rfl | hp
                · exact hnO
                · exact h.ok.names p hp
              known := fun p hp => by
                rcases List.mem_cons.1 hp with rfl | hp
                · simp [decls]
                · simp [decls, h.ok.known p hp]
              nodup := hnd
              agree := fun p hp => by
                rcases List.mem_cons.1 hp with rfl | hp
                · simp only [hcid]; exact h.domS id hid1
                · exact h.ok.agree p hp }
          oks := fun f hf => (h.oks f hf).more id
          off := fun _ => hc'
          offs := h.offs, mono := h.mono, monos := h.monos, ids := h.ids, idsC := h.idsC
          new := h.new, inj := h.inj
          dom := fun d m hd => by simp [decls, h.dom d m hd]
          may := h.may
          domS := fun d hd => by
            simp only [decls, List.cons_append, List.nil_append, List.mem_cons, not_or] at hd
            exact h.domS d hd.2 }

theorem decls_cons (e : Ev) (es : List Ev) : decls (e :: es) = decls [e] ++ decls es := by
  cases e <;> rfl

theorem run_same {O : List Name} {T : Nat → Prop} : ∀ (es : List Ev) (D : List Nat)
    (c : Nat → Option Name) (st : St) (s s' : Sc), Inv O T D c st s s' →
    (∀ e ∈ es, ∀ n, e.name? = some n → n ∈ O) → (decls es).Nodup → (∀ d ∈ decls es, d ∉ D) →
    (∀ x ∈ walk s es, ∀ d n, x.ev = .decl d n → x.active = true → T d) →
    (∀ x ∈ walk s es, x.active = true → x.ev ≠ .func) →
    (∀ x ∈ walk s es, ∀ n d, x.ev = .tref n → x.to? = some d → ¬ T d) →
    List.Forall₂ (Same O) (walk s' (run st es)) (walk s es)
  | [], _, _, _, _, _, _, _, _, _, _, _, _ => .nil
  | e :: es, D, c, st, s, s', h, hn, hnd, hD, hT, hf, ht => by
    rw [decls_cons] at hnd hD
    obtain ⟨h1, c', h2⟩ := step_same h (e := e) (hn e (by simp))
      (fun id n he => by
        refine ⟨hD id (by subst he; simp [decls]), fun ha => ?_⟩
        exact hT ⟨e, s.resolve e, s.active⟩ (by simp [walk]) id n he ha)
      (fun ha => hf ⟨e, s.resolve e, s.active⟩ (by simp [walk]) ha)
      (fun n d he hl => ht ⟨e, s.resolve e, s.active⟩ (by simp [walk]) n d he (by
        subst he; exact hl))
    refine .cons h1 (run_same es _ c' _ _ _ h2 (fun e he => hn e (by simp [he]))
      (List.nodup_append.1 hnd).2.1 ?_ (fun x hx => hT x (by simp [walk, hx]))
      (fun x hx => hf x (by simp [walk, hx])) (fun x hx => ht x (by simp [walk, hx])))
    intro d hd hm
    rcases List.mem_append.1 hm with hm | hm
    · exact (List.nodup_append.1 hnd).2.2 d hm d hd rfl
    · exact hD d (by simp [hd]) hm

theorem start_inv (O : List Name) (T : Nat → Prop) :
    Inv O T [] (fun _ => none) { ids := O } {} {} where
  env := rfl
  saved := rfl
  pend := rfl
  active := rfl
  env' := rfl
  saved' := rfl
  pend' := rfl
  active' := rfl
  ok := ⟨by simp, by simp, by simp, by simp⟩
  oks := by simp
  off := by simp
  offs := by simp
  mono := by simp
  monos := by simp
  ids := fun _ h => h
  idsC := by simp
  new := by simp
  inj := by simp
  dom := by simp
  may := by simp
  domS := by simp

theorem rename_same {ids : List Name} {es : List Ev}
    (hn : ∀ e ∈ es, ∀ n, e.name? = some n → n ∈ ids) (hd : (decls es).Nodup) (hp : Plain es) :
    List.Forall₂ (Same ids) (walk {} (rename ids es)) (walk {} es) := by
  refine run_same (T := fun d => ∃ y ∈ walk {} es, ∃ m, y.ev = .decl d m ∧ y.active = true) es [] _ _
    _ _ (start_inv _ _) hn hd (by simp) ?_ hp.1 ?_
  · exact fun x hx d n he ha => ⟨x, hx, n, he, ha⟩
  · rintro x hx n d he hl ⟨y, hy, m, hm, ha⟩
    have := hp.2 x hx y hy n d m he hl hm
    rw [ha] at this
    simp at this

/-! ## Theorems -/

theorem walk_ev (s : Sc) (es : List Ev) : (walk s es).map (·.ev) = es := by
  induction es generalizing s with
  | nil => rfl
  | cons e es ih => simp [walk, ih]

theorem forall₂_map {α β γ : Type} {R : α → β → Prop} {f : α → γ} {g : β → γ}
    (hr : ∀ a b, R a b → f a = g b) {l : List α} {l' : List β} (h : List.Forall₂ R l l') :
    l.map f = l'.map g := by
  induction h with
  | nil => rfl
  | cons h _ ih => simp [hr _ _ h, ih]

/-- **Renaming keeps meaning of names**: each name in the new text is resolved to the same
declaration.  Missing: declarations of functions in a scope where names are changed, and names of
types and members which are declared in such a scope (`Plain`). -/
theorem rename_resolve_partial {ids : List Name} {es : List Ev}
    (hn : ∀ e ∈ es, ∀ n, e.name? = some n → n ∈ ids) (hd : (decls es).Nodup) (hp : Plain es) :
    (walk {} (rename ids es)).map (·.to?) = (walk {} es).map (·.to?) :=
  forall₂_map (fun _ _ h => h.res) (rename_same hn hd hp)

theorem step_shape (st : St) (e : Ev) : (step st e).1.shape = e.shape := by
  cases e with
  | decl id n => simp only [step]; split <;> rfl
  | ref n =>
    simp only [step]
    split
    · split <;> rfl
    · rfl
  | _ => rfl

/-- Only names are changed. -/
theorem rename_shape (ids : List Name) (es : List Ev) :
    (rename ids es).map Ev.shape = es.map Ev.shape := by
  have : ∀ (es : List Ev) (st : St), (run st es).map Ev.shape = es.map Ev.shape := by
    intro es
    induction es with
    | nil => exact fun _ => rfl
    | cons e es ih => intro st; simp [run, step_shape, ih]
  exact this es _

/-- Scopes which the visitor sees. -/
structure Sync (st : St) (s : Sc) : Prop where
  env : st.env = s.env
  saved : st.saved = s.saved
  pend : st.pend = s.pend
  active : st.active = s.active

theorem step_sync {st : St} {s : Sc} (h : Sync st s) (e : Ev) : Sync (step st e).2 (s.next e) := by
  cases e with
  | ref n =>
    simp only [step]
    split
    · split <;> exact ⟨h.env, h.saved, rfl, h.active⟩
    · exact ⟨h.env, h.saved, rfl, h.active⟩
  | decl id n =>
    simp only [step]
    split <;> exact ⟨by simp [Sc.next, h.env], h.saved, rfl, h.active⟩
  | enter l m =>
    exact ⟨h.env, by simp [step, Sc.next, h.env, h.saved, h.active], rfl,
      by simp [step, Sc.next, h.active, h.pend]⟩
  | leave =>
    exact ⟨by simp [step, Sc.next, h.env, h.saved], by simp [step, Sc.next, h.saved], h.pend,
      by simp [step, Sc.next, h.active, h.saved]⟩
  | tref n => exact h
  | func => exact ⟨h.env, h.saved, rfl, h.active⟩
  | pragma => exact ⟨h.env, h.saved, rfl, h.active⟩
  | stmt => exact ⟨h.env, h.saved, rfl, h.active⟩

/-- **Nothing is changed outside of scopes marked with the directive** (and inside of scopes with
macros), whatever the program is. -/
theorem rename_outside (ids : List Name) (es : List Ev) :
    ∀ (k : Nat) (x : Seen), (walk {} es)[k]? = some x → x.active = false → (rename ids es)[k]? = some x.ev := by
  have : ∀ (es : List Ev) (st : St) (s : Sc), Sync st s → ∀ (k : Nat) (x : Seen),
      (walk s es)[k]? = some x → x.active = false → (run st es)[k]? = some x.ev := by
    intro es
    induction es with
    | nil => intro st s _ k x h; simp [walk] at h
    | cons e es ih =>
      intro st s h k x hx ha
      cases k with
      | zero =>
        simp [walk] at hx
        subst hx
        simp only at ha
        have hoff : st.active = false := by rw [h.active, ha]
        cases e <;> simp [run, step, hoff]
      | succ k =>
        simp [walk] at hx
        simpa [run] using ih _ _ (step_sync h e) k x hx ha
  exact this es { ids := ids } {} ⟨rfl, rfl, rfl, rfl⟩

/-- New names of declarations in scopes marked with the directive. -/
def newNames : List Seen → List Name
  | [] => []
  | ⟨.decl _ n, _, true⟩ :: xs => n :: newNames xs
  | _ :: xs => newNames xs

/-- **New names are unique**: names of declarations in scopes marked with the directive are
different and do not coincide with any name in the original text, whatever the program is. -/
theorem rename_unique {ids : List Name} {es : List Ev}
    (hn : ∀ e ∈ es, ∀ n, e.name? = some n → n ∈ ids) :
    (newNames (walk {} (rename ids es))).Nodup ∧ ∀ n ∈ newNames (walk {} (rename ids es)), n ∉ ids := by
  have : ∀ (es : List Ev) (st : St) (s' : Sc), (∀ e ∈ es, ∀ n, e.name? = some n → n ∈ st.ids) →
      st.active = s'.active → st.pend = s'.pend → st.saved.map (·.2) = s'.saved.map (·.2) →
      (newNames (walk s' (run st es))).Nodup ∧
        ∀ n ∈ newNames (walk s' (run st es)), n ∉ st.ids := by
    intro es
    induction es with
    | nil => intro st s' _ _ _ _; simp [run, walk, newNames]
    | cons e es ih =>
      intro st s' hn ha hp hs
      have hn' : ∀ e' ∈ es, ∀ n, e'.name? = some n → n ∈ st.ids := fun e' he => hn e' (by simp [he])
      cases e with
      | decl id n =>
        have hni : n ∈ st.ids := hn (.decl id n) (by simp) n rfl
        by_cases hact : st.active = true
        · have hst : step st (.decl id n) = (.decl id (fresh st.ids n),
              { st with pend := false, env := (n, id) :: st.env, ids := fresh st.ids n :: st.ids,
                        change := Function.update st.change id (some (fresh st.ids n)) }) := by
            simp [step, hact, hni]
          simp only [run, walk, hst, ← ha, hact, newNames]
          obtain ⟨h1, h2⟩ := ih
            { st with pend := false, env := (n, id) :: st.env, ids := fresh st.ids n :: st.ids,
                      change := Function.update st.change id (some (fresh st.ids n)) }
            (s'.next (.decl id (fresh st.ids n)))
            (fun e' he m hm => by simp [hn' e' he m hm]) ha rfl hs
          rw [hact] at h1 h2
          refine ⟨List.nodup_cons.2 ⟨fun hm => by simpa using h2 _ hm, h1⟩, ?_⟩
          intro m hm
          rcases List.mem_cons.1 hm with rfl | hm
          · exact fresh_not_mem _ _
          · intro hi
            exact h2 m hm (by simp [hi])
        · have hact' : st.active = false := by simpa using hact
          simp only [run, walk, step, hact', ← ha, newNames, Bool.false_and, Bool.false_eq_true,
            if_false]
          exact ih _ _ hn' (by simp [Sc.next, ← ha, hact']) rfl hs
      | ref n =>
        have hst : ∃ m, step st (.ref n) = (.ref m, { st with pend := false }) := by
          simp only [step]
          split
          · split <;> exact ⟨_, rfl⟩
          · exact ⟨_, rfl⟩
        obtain ⟨m, hst⟩ := hst
        simp only [run, walk, hst, newNames]
        exact ih _ _ hn' ha rfl hs
      | leave =>
        simp only [run, walk, step, newNames]
        refine ih _ _ hn' ?_ hp ?_
        · simp only [Sc.next]
          cases h1 : st.saved <;> cases h2 : s'.saved <;> simp [h1, h2] at hs ⊢
          · exact ha
          · exact hs.1
        · simp only [Sc.next]
          cases h1 : st.saved <;> cases h2 : s'.saved <;> simp [h1, h2] at hs ⊢
          exact hs.2
      | enter l m =>
        simp only [run, walk, step, newNames]
        refine ih _ _ hn' ?_ rfl ?_
        · simp [Sc.next, ha, hp]
        · simp [Sc.next, ha, hs]
      | tref n => exact ih _ _ hn' ha hp hs
      | func => exact ih _ _ hn' ha rfl hs
      | pragma => exact ih _ _ hn' ha rfl hs
      | stmt => exact ih _ _ hn' ha rfl hs
  exact this es { ids := ids } {} hn rfl rfl rfl

end Tsar.Rename
