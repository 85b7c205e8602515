import Verif.Inline.SimM
/-!
# Compiled callees behave as calls
-/
namespace Tsar.Inline

/-- Local declarations of functions. -/
def Decl (P : Prog) (st : List Name) (x : Name) : Prop := ∃ h ∈ st, ∃ H, P h = some H ∧ x ∈ H.decls

/-! ## Names which are mentioned in a function -/

mutual

theorem freeE_uses {b : List Name} : ∀ (e : Expr), ∀ x ∈ freeE b e, x ∈ usesE e ∨ x ∈ fnsE e
  | .val _, x, h => by simp [freeE] at h
  | .var y, x, h => by
    simp only [freeE] at h
    split at h
    · cases h
    · exact .inl h
  | .assign y e, x, h => by
    simp only [freeE, List.mem_append] at h
    rcases h with h | h
    · split at h
      · cases h
      · simp only [List.mem_singleton] at h; subst h; exact .inl (by simp [usesE])
    · exact (freeE_uses e x h).imp (fun h => by simp [usesE, h]) (fun h => by simp [fnsE, h])
  | .bin _ l r, x, h => by
    simp only [freeE, List.mem_append] at h
    simp only [usesE, fnsE, List.mem_append]
    rcases h with h | h
    · rcases freeE_uses l x h with h | h <;> simp [h]
    · rcases freeE_uses r x h with h | h <;> simp [h]
  | .land l r, x, h => by
    simp only [freeE, List.mem_append] at h
    simp only [usesE, fnsE, List.mem_append]
    rcases h with h | h
    · rcases freeE_uses l x h with h | h <;> simp [h]
    · rcases freeE_uses r x h with h | h <;> simp [h]
  | .lor l r, x, h => by
    simp only [freeE, List.mem_append] at h
    simp only [usesE, fnsE, List.mem_append]
    rcases h with h | h
    · rcases freeE_uses l x h with h | h <;> simp [h]
    · rcases freeE_uses r x h with h | h <;> simp [h]
  | .comma l r, x, h => by
    simp only [freeE, List.mem_append] at h
    simp only [usesE, fnsE, List.mem_append]
    rcases h with h | h
    · rcases freeE_uses l x h with h | h <;> simp [h]
    · rcases freeE_uses r x h with h | h <;> simp [h]
  | .cond c l r, x, h => by
    simp only [freeE, List.mem_append] at h
    simp only [usesE, fnsE, List.mem_append]
    rcases h with h | h | h
    · rcases freeE_uses c x h with h | h <;> simp [h]
    · rcases freeE_uses l x h with h | h <;> simp [h]
    · rcases freeE_uses r x h with h | h <;> simp [h]
  | .elvis l r, x, h => by
    simp only [freeE, List.mem_append] at h
    simp only [usesE, fnsE, List.mem_append]
    rcases h with h | h
    · rcases freeE_uses l x h with h | h <;> simp [h]
    · rcases freeE_uses r x h with h | h <;> simp [h]
  | .size e, x, h => by
    simp only [freeE] at h
    simpa only [usesE, fnsE] using freeE_uses e x h
  | .call _ f as, x, h => by
    simp only [freeE, List.mem_append] at h
    simp only [usesE, fnsE]
    rcases h with h | h
    · split at h
      · cases h
      · simp only [List.mem_singleton] at h; subst h; simp
    · rcases freeL_uses as x h with h | h <;> simp [h]

theorem freeL_uses {b : List Name} : ∀ (es : List Expr), ∀ x ∈ freeL b es, x ∈ usesL es ∨ x ∈ fnsL es
  | [], x, h => by simp [freeL] at h
  | e :: es, x, h => by
    simp only [freeL, List.mem_append] at h
    simp only [usesL, fnsL, List.mem_append]
    rcases h with h | h
    · rcases freeE_uses e x h with h | h <;> simp [h]
    · rcases freeL_uses es x h with h | h <;> simp [h]

end

/-- A name is mentioned in expressions. -/
def Mentioned (x : Name) (es : List Expr) : Prop := ∃ e ∈ es, x ∈ usesE e ∨ x ∈ fnsE e

theorem Mentioned.sub {x : Name} {es es₁ : List Expr} (h : Mentioned x es) (hs : ∀ e ∈ es, e ∈ es₁) :
    Mentioned x es₁ := by
  obtain ⟨e, he, h⟩ := h
  exact ⟨e, hs e he, h⟩

theorem mentioned {b : List Name} {x : Name} {e : Expr} {es : List Expr} (h : x ∈ freeE b e) (he : e ∈ es) :
    Mentioned x es := ⟨e, he, freeE_uses e x h⟩

theorem freeD_uses : ∀ (ds : List Init) {b : List Name}, ∀ x ∈ freeD b ds, Mentioned x (exprsD ds)
  | [], _, x, h => by simp [freeD] at h
  | (y, none) :: ds, b, x, h => by
    simp only [freeD] at h
    exact (freeD_uses ds x h).sub (by simp [exprsD])
  | (y, some e) :: ds, b, x, h => by
    simp only [freeD, List.mem_append] at h
    rcases h with h | h
    · exact mentioned h (by simp [exprsD])
    · refine (freeD_uses ds x h).sub fun e he => ?_
      simp only [exprsD, List.filterMap_cons, List.mem_cons]
      exact .inr he

mutual

theorem freeS_uses : ∀ (s : Stmt) {b : List Name}, ∀ x ∈ freeS b s, Mentioned x (exprsS s)
  | .skip, _, x, h => by simp [freeS] at h
  | .bad, _, x, h => by simp [freeS] at h
  | .expr e, _, x, h => mentioned (by simpa only [freeS] using h) (by simp [exprsS])
  | .decl ds, _, x, h => by
    simp only [freeS] at h
    simpa only [exprsS] using freeD_uses ds x h
  | .static _ _, _, x, h => by simp [freeS] at h
  | .ift c t, _, x, h => by
    simp only [freeS, List.mem_append] at h
    rcases h with h | h
    · exact mentioned h (by simp [exprsS])
    · exact (freeS_uses t x h).sub fun e he => by simp [exprsS, he]
  | .ifte c t f, _, x, h => by
    simp only [freeS, List.mem_append] at h
    rcases h with h | h | h
    · exact mentioned h (by simp [exprsS])
    · exact (freeS_uses t x h).sub fun e he => by simp [exprsS, he]
    · exact (freeS_uses f x h).sub fun e he => by simp [exprsS, he]
  | .loop c t, _, x, h => by
    simp only [freeS, List.mem_append] at h
    rcases h with h | h
    · exact mentioned h (by simp [exprsS])
    · exact (freeS_uses t x h).sub fun e he => by simp [exprsS, he]
  | .doloop t c, _, x, h => by
    simp only [freeS, List.mem_append] at h
    rcases h with h | h
    · exact (freeS_uses t x h).sub fun e he => by simp [exprsS, he]
    · exact mentioned h (by simp [exprsS])
  | .for i c n t, _, x, h => by
    simp only [freeS, List.mem_append] at h
    rcases h with h | h | h | h
    · exact (freeS_uses i x h).sub fun e he => by simp [exprsS, he]
    · exact mentioned h (by simp [exprsS])
    · exact mentioned h (by simp [exprsS])
    · exact (freeS_uses t x h).sub fun e he => by simp [exprsS, he]
  | .block ss, _, x, h => by
    simp only [freeS] at h
    simpa only [exprsS] using freeSs_uses ss x h
  | .ret none, _, x, h => by simp [freeS] at h
  | .ret (some e), _, x, h => mentioned (by simpa only [freeS] using h) (by simp [exprsS])
  | .brk, _, x, h => by simp [freeS] at h
  | .goto _, _, x, h => by simp [freeS] at h
  | .label _ s, _, x, h => by
    simp only [freeS] at h
    simpa only [exprsS] using freeS_uses s x h

theorem freeSs_uses : ∀ (ss : List Stmt) {b : List Name}, ∀ x ∈ freeSs b ss, Mentioned x (exprsSs ss)
  | [], _, x, h => by simp [freeSs] at h
  | s :: ss, _, x, h => by
    simp only [freeSs, List.mem_append] at h
    rcases h with h | h
    · exact (freeS_uses s x h).sub fun e he => by simp [exprsSs, he]
    · exact (freeSs_uses ss x h).sub fun e he => by simp [exprsSs, he]

end

/-! ## Parameters -/

theorem setF_same {l : Frame} {x : Name} {v : Val} (h : find l x = some (.auto v)) : setF l x v = l := by
  induction l with
  | nil => cases h
  | cons a l ih =>
    obtain ⟨y, c⟩ := a
    simp only [find] at h
    simp only [setF]
    split
    · rename_i hy
      rw [if_pos hy] at h
      cases h; rfl
    · rename_i hy
      rw [if_neg hy] at h
      rw [ih h]

theorem freshes_spec {fr : Name → Ids → Name} (hfr : ∀ p ids, fr p ids ∉ ids) :
    ∀ (xs : List Name) (ids : Ids), (freshes fr xs ids).1.length = xs.length ∧
    (∀ y ∈ ids, y ∈ (freshes fr xs ids).2) ∧
    (∀ y ∈ (freshes fr xs ids).1, y ∉ ids ∧ y ∈ (freshes fr xs ids).2) ∧ (freshes fr xs ids).1.Nodup
  | [], ids => by simp [freshes]
  | x :: xs, ids => by
    obtain ⟨h₁, h₂, h₃, h₄⟩ := freshes_spec hfr xs (fr x ids :: ids)
    simp only [freshes]
    refine ⟨by simp [h₁], fun y hy => h₂ y (.tail _ hy), ?_, ?_⟩
    · intro y hy
      rcases List.mem_cons.1 hy with rfl | hy
      · exact ⟨hfr x ids, h₂ _ (.head _)⟩
      · exact ⟨fun h => (h₃ y hy).1 (.tail _ h), (h₃ y hy).2⟩
    · exact List.nodup_cons.2 ⟨fun h => (h₃ _ h).1 (.head _), h₄⟩

/-- The shape of a frame with parameters. -/
def pairs (qs : List (Name × Name)) : Shape := qs.map fun q => .pair q.1 q.2

theorem pairs_mOf (qs : List (Name × Name)) (x : Name) : mOf (pairs qs) x = ren qs x := by
  induction qs with
  | nil => rfl
  | cons q qs ih =>
    obtain ⟨y, z⟩ := q
    simp only [pairs, List.map_cons, mOf, ren] at ih ⊢
    rw [ih]

theorem pairs_news (qs : List (Name × Name)) : news (pairs qs) = qs.map Prod.snd := by
  simp [news, pairs, Ent.new]

theorem pairs_olds (qs : List (Name × Name)) : olds (pairs qs) = qs.map Prod.fst := by
  induction qs with
  | nil => rfl
  | cons q qs ih => simpa [olds, pairs, Ent.old, List.filterMap_cons] using ih

theorem pairs_wf {Old : Name → Prop} {K : Frame} {qs : List (Name × Name)} (ho : ∀ q ∈ qs, Old q.1)
    (hn : ∀ q ∈ qs, ¬ Old q.2 ∧ q.2 ∉ names K) (hd : (qs.map Prod.snd).Nodup) : WF Old K (pairs qs) := by
  induction qs with
  | nil => trivial
  | cons q qs ih =>
    obtain ⟨y, z⟩ := q
    simp only [List.map_cons, List.nodup_cons] at hd
    refine ⟨⟨ho _ (.head _), fun h => absurd h (hn _ (.head _)).1⟩, fun _ => ⟨?_, (hn _ (.head _)).2⟩,
      ih (fun q hq => ho q (.tail _ hq)) (fun q hq => hn q (.tail _ hq)) hd.2⟩
    have := pairs_news qs
    simp only [pairs] at this
    rw [this]
    exact hd.1

theorem pairs_frame {K : Frame} : ∀ (qs : List (Name × Name)) (vs : List Val), qs.length = vs.length →
    FR K (pairs qs) ((qs.zip vs).map fun p => (p.1.1, Cell.auto p.2))
      (((qs.zip vs).map fun p => (p.1.2, Cell.auto p.2)) ++ K)
  | [], vs, _ => by simp [pairs, FR]
  | q :: qs, [], h => by simp at h
  | q :: qs, v :: vs, h => by
    have := pairs_frame (K := K) qs vs (by simpa using h)
    exact ⟨_, _, _, rfl, rfl, this⟩

theorem zip_reverse {α β : Type} : ∀ (as : List α) (bs : List β), as.length = bs.length →
    as.reverse.zip bs.reverse = (as.zip bs).reverse := by
  intro as bs h
  rw [List.zip_eq_zipWith, List.zip_eq_zipWith, List.reverse_zipWith h]

theorem frame_pairs {K : Frame} {xs ys : List Name} {vs : List Val} (hx : xs.length = vs.length)
    (hy : ys.length = xs.length) :
    FR K (pairs (xs.zip ys).reverse) (frame xs vs) (frame ys vs ++ K) := by
  have := pairs_frame (K := K) (xs.zip ys).reverse vs.reverse (by simp [hx, hy])
  rw [zip_reverse _ _ (by simp [hx, hy])] at this
  have e₁ : frame xs vs = ((xs.zip ys).zip vs).reverse.map fun p => (p.1.1, Cell.auto p.2) := by
    unfold frame
    rw [← List.map_reverse, List.map_reverse, List.map_reverse]
    congr 1
    clear this
    induction xs generalizing ys vs with
    | nil => simp
    | cons x xs ih =>
      cases ys with
      | nil => simp at hy
      | cons y ys =>
        cases vs with
        | nil => simp at hx
        | cons v vs =>
          simp only [List.zip_cons_cons, List.map_cons]
          rw [ih (by simpa using hx) (by simpa using hy)]
  have e₂ : frame ys vs = ((xs.zip ys).zip vs).reverse.map fun p => (p.1.2, Cell.auto p.2) := by
    unfold frame
    rw [List.map_reverse]
    congr 1
    clear this e₁
    induction xs generalizing ys vs with
    | nil => 
      have : ys = [] := List.eq_nil_of_length_eq_zero (by simpa using hy)
      subst this; simp
    | cons x xs ih =>
      cases ys with
      | nil => simp at hy
      | cons y ys =>
        cases vs with
        | nil => simp at hx
        | cons v vs =>
          simp only [List.zip_cons_cons, List.map_cons]
          rw [ih (by simpa using hx) (by simpa using hy)]
  rw [e₁, e₂]
  exact this

/-! ## Callees -/

theorem Out.call_bot (r : Out) (n : Nat) : (r.bot n).call = r.call := by
  cases r <;> rfl

variable {P : Prog} {en : Name → Bool} {fr : Name → Ids → Name} {ids₀ : Ids} {X C' : Calls}

theorem inline_id (hfr : ∀ p ids, fr p ids ∉ ids) (hG : ∀ f F, P f = some F → Good P en ids₀ f F) :
    ∀ (d : Nat) (st : List Name), InlId (inline P en fr d st)
  | 0, st => by intro f ids T ids₁ h; cases h
  | d + 1, st => by
    intro f ids T ids₁ h
    simp only [inline] at h
    split at h
    · cases h
    · rename_i F hF
      split at h
      · obtain ⟨h₁, h₂, h₃, h₄⟩ := freshes_spec hfr F.params ids
        have hid := pSs_id (fr := fr) (inline_id hfr hG d (f :: st)) F.body true
          (rt := some (fr prefixR (fr prefixL (freshes fr F.params ids).2 :: (freshes fr F.params ids).2),
            fr prefixL (freshes fr F.params ids).2, F.void))
          (ren (F.params.zip (freshes fr F.params ids).1).reverse) (fr prefixR
            (fr prefixL (freshes fr F.params ids).2 :: (freshes fr F.params ids).2) ::
            fr prefixL (freshes fr F.params ids).2 :: (freshes fr F.params ids).2) (hG f F hF).shape
        cases h
        exact ⟨fun y hy => hid.1 _ (.tail _ (.tail _ (h₂ y hy))),
          fun h => hfr _ _ (h₂ _ h)⟩
      · cases h

theorem inline_ok (hfr : ∀ p ids, fr p ids ∉ ids) (hG : ∀ f F, P f = some F → Good P en ids₀ f F)
    (hC : ∀ f vs g t r, C' f vs g t r → Runs P X f vs g t r) :
    ∀ (d : Nat) (st : List Name), InlOk (· ∈ ids₀) (Decl P st) (cand P en) (isVoid P) (hasLab P)
      (Runs P X) C' (inline P en fr d st)
  | 0, st => by intro f ids T ids₁ h; cases h
  | d + 1, st => by
    intro f ids T ids₁ h
    simp only [inline] at h
    split at h
    · cases h
    · rename_i F hF
      have hGF := hG f F hF
      split at h
      · rename_i hen
        simp only [Bool.and_eq_true] at hen
        obtain ⟨hen, hvis⟩ := hen
        obtain ⟨h₁, h₂, h₃, h₄⟩ := freshes_spec hfr F.params ids
        generalize hps : freshes fr F.params ids = ps at *
        generalize hL : fr prefixL ps.2 = L at *
        generalize hRe : fr prefixR (L :: ps.2) = R at *
        have hL' : L ∉ ps.2 := by rw [← hL]; exact hfr _ _
        have hR' : R ∉ L :: ps.2 := by rw [← hRe]; exact hfr _ _
        have hid := pSs_id (fr := fr) (rt := some (R, L, F.void)) (inline_id hfr hG d (f :: st)) F.body
          true (ren (F.params.zip ps.1).reverse) (R :: L :: ps.2) hGF.shape
        have ih := inline_ok hfr hG hC d (f :: st)
        generalize hB : pSs fr (inline P en fr d) (f :: st) (some (R, L, F.void))
          (ren (F.params.zip ps.1).reverse) true F.body (R :: L :: ps.2) = B at *
        cases h
        refine ⟨by simp [cand, hen, hF], by simp [isVoid, hF], by simp [hasLab, hF], ?_⟩
        refine ⟨fun y hy => hid.1 _ (.tail _ (.tail _ (h₂ y hy))),
          fun y hy => ⟨(h₃ y hy).1, hid.1 _ (.tail _ (.tail _ (h₃ y hy).2))⟩, h₄,
          ⟨fun h => hR' (.tail _ (h₂ _ h)), hid.1 _ (.head _)⟩, fun h => hR' (.tail _ (h₃ _ h).2),
          fun h => hL' (h₂ _ h), hid.2 _ (.tail _ (.head _)), ?_⟩
        intro hold K g vs t r' hlen hK hKd hKR hE
        simp only at hlen hK hKR hE ⊢
        have hlen' : F.params.length = vs.length := by rw [hlen, h₁]
        -- names in scope
        have hmem : ∀ q ∈ (F.params.zip ps.1).reverse, q.1 ∈ F.params ∧ q.2 ∈ ps.1 := by
          intro q hq
          have := List.of_mem_zip (a := q.1) (b := q.2) (List.mem_reverse.1 hq)
          exact this
        have hnK : ∀ y ∈ ps.1, y ∉ names K := by
          intro y hy h
          rcases List.mem_cons.1 (hK y h) with rfl | h
          · exact hR' (.tail _ (h₃ _ hy).2)
          · exact (h₃ y hy).1 h
        have hwf : WF (· ∈ ids₀) K (pairs (F.params.zip ps.1).reverse) := by
          refine pairs_wf (fun q hq => hGF.decls _ (by simp [Fun.decls, (hmem q hq).1]))
            (fun q hq => ⟨fun h => (h₃ _ (hmem q hq).2).1 (hold _ h), hnK _ (hmem q hq).2⟩) ?_
          rw [List.map_reverse, (List.reverse_perm _).nodup_iff]
          have : (F.params.zip ps.1).map Prod.snd = ps.1 := List.map_snd_zip (by omega)
          rw [this]
          exact h₄
        have hnews : ∀ y ∈ news (pairs (F.params.zip ps.1).reverse), y ∈ ps.1 := by
          rw [pairs_news]
          intro y hy
          obtain ⟨q, hq, rfl⟩ := List.mem_map.1 hy
          exact (hmem q hq).2
        have holds : ∀ x, x ∈ olds (pairs (F.params.zip ps.1).reverse) ↔ x ∈ F.params := by
          intro x
          rw [pairs_olds, List.map_reverse, List.mem_reverse]
          have : (F.params.zip ps.1).map Prod.fst = F.params := List.map_fst_zip (by omega)
          rw [this]
        have hx : Ctx (· ∈ ids₀) (Decl P (f :: st)) F.decls (some (R, L, F.void)) K
            (ren (F.params.zip ps.1).reverse) (R :: L :: ps.2) (pairs (F.params.zip ps.1).reverse) := by
          refine ⟨⟨hwf, fun x hx => .tail _ (.tail _ (h₂ _ (hold x hx))),
            fun y hy => .tail _ (.tail _ (h₃ y (hnews y hy)).2), ?_, ?_, ?_, ?_⟩,
            fun x _ => (pairs_mOf _ _).symm, ?_⟩
          · intro y hy
            rcases List.mem_cons.1 (hK y hy) with rfl | h
            · exact .head _
            · exact .tail _ (.tail _ (h₂ _ h))
          · intro x hx
            simp [Fun.decls, (holds x).1 hx]
          · intro x hx
            exact ⟨f, .head _, F, hF, hx⟩
          · intro y hy ho
            obtain ⟨h, hh, H, hH, hy⟩ := hKd y hy ho
            exact ⟨h, .tail _ hh, H, hH, hy⟩
          · intro R₁ L₁ w e
            cases e
            exact .tail _ (.head _)
        have hnm : NmL (· ∈ ids₀) F.decls K F.params F.body := by
          refine ⟨hGF.uses, hGF.fns, ?_, fun x hx => ?_⟩
          · intro x hx hk
            obtain ⟨e, he, hm⟩ := freeSs_uses F.body x hx
            have ho : x ∈ ids₀ := hm.elim (hGF.uses e he x) fun h => (hGF.fns e he x h).1
            obtain ⟨h, hh, H, hH, hd⟩ := hKd x hk ho
            unfold visible at hvis
            have := List.all_eq_true.1 hvis h hh
            rw [hH] at this
            have := List.all_eq_true.1 this x hd
            simp [Fun.forward] at this
            exact this hx
          · have : x ∈ F.decls := by simp [Fun.decls, hx]
            exact ⟨this, hGF.decls x this⟩
        have hRt : RtOk (· ∈ ids₀) K (some (R, L, F.void)) := by
          intro R₁ L₁ e
          simp only [Option.some.injEq, Prod.mk.injEq] at e
          obtain ⟨rfl, rfl, hv⟩ := e
          exact ⟨⟨none, hKR hv⟩, fun h => hR' (.tail _ (h₂ _ (hold _ h)))⟩
        have hs : SR K (pairs (F.params.zip ps.1).reverse) ⟨g, frame F.params vs⟩
            ⟨g, frame ps.1 vs ++ K⟩ := ⟨rfl, frame_pairs hlen' h₁⟩
        rw [← hB] at hE
        obtain ⟨⟨r, k₁, k₂⟩, k₃⟩ := simSs hC ih (inline_id hfr hG d (f :: st)) hRt F.body true hGF.shape
          (fun R₁ L₁ w e => by cases e; exact hGF.body hen) hx hnm (fun x h => (holds x).2 h) hs hE
        have hrun : Runs P X f vs g t r.call := by
          have := Runs.of_body hF hlen' (Exec.ofL k₁ k₂.not_jump)
          rwa [Out.call_bot] at this
        have haf : ∀ v, after (some (R, L, F.void)) K v =
            Tpl.after ⟨ps.1, R, L, needLab F.body, F.void, B.1⟩ K v := by
          intro v
          unfold after Tpl.after
          cases F.void <;> rfl
        cases k₂ with
        | norm h =>
          obtain ⟨sh₂, h⟩ := h
          obtain ⟨Y, hY⟩ := tail_frame h
          refine .inl ⟨none, _, Y, .inl ?_, hrun⟩
          rw [hY]
          congr 2
          unfold Tpl.after
          split
          · rfl
          · rename_i hv
            rw [setF_same (hKR (by simpa using hv))]
        | brk h => exact absurd rfl (k₁.noBrk (noBrks_mem (hGF.brk hen)) _)
        | ret hr _ => cases hr
        | jump hr =>
          cases hr
          exact .inl ⟨_, _, _, .inr ⟨k₃ rfl ⟨_, _, rfl⟩, by rw [haf]⟩, hrun⟩
        | last hr hl =>
          exact .inl ⟨_, _, _, .inl (by rw [haf]), hrun⟩
        | halt h => exact .inr ⟨_, rfl, hrun⟩
      · cases h

end Tsar.Inline
