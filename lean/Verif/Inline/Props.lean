import Verif.Inline.Compile
/-!
# Expansion of calls preserves behavior
-/
namespace Tsar.Inline

variable {P : Prog} {en : Name → Bool} {fr : Name → Ids → Name} {ids₀ : Ids} {X C' : Calls}

/-- A function of the expanded program is the original one after processing with some identifiers. -/
theorem expand_fun {d : Nat} : ∀ (order : List Name) {ids : Ids},
    (∀ f F, P f = some F → okSs (cand P en) (isVoid P) (hasLab P) F.body = true) →
    (∀ st, InlId (inline P en fr d st)) → ∀ f,
    (expand P en fr d order ids f = P f) ∨ ∃ F ids₁, P f = some F ∧ (∀ y ∈ ids, y ∈ ids₁) ∧
      expand P en fr d order ids f =
        some ⟨F.params, F.void, (pSs fr (inline P en fr d) [f] none id false F.body ids₁).1⟩
  | [], ids, _, _, f => .inl rfl
  | h :: hs, ids, hk, hId, f => by
    simp only [expand]
    cases hH : P h with
    | none => exact expand_fun hs hk hId f
    | some H =>
      simp only
      split
      · rename_i he
        subst he
        exact .inr ⟨H, ids, hH, fun y hy => hy, rfl⟩
      · rcases expand_fun hs (ids := (pSs fr (inline P en fr d) [h] none id false H.body ids).2) hk hId f with
          e | ⟨F, ids₁, h₁, h₂, h₃⟩
        · exact .inl e
        · have := (pSs_id (fr := fr) (rt := none) (hId [h]) H.body false id ids (hk h H hH)).1
          exact .inr ⟨F, ids₁, h₁, fun y hy => h₂ y (this y hy), h₃⟩

/-- Correspondence of the initial frame of a function. -/
theorem frame_ids (xs : List Name) (vs : List Val) (h : xs.length = vs.length) :
    FR [] (pairs (xs.zip xs).reverse) (frame xs vs) (frame xs vs) := by
  simpa using frame_pairs (K := []) h rfl

theorem pairs_wf_id {Old : Name → Prop} {qs : List (Name × Name)} (h : ∀ q ∈ qs, Old q.1 ∧ q.2 = q.1) :
    WF Old [] (pairs qs) := by
  induction qs with
  | nil => trivial
  | cons q qs ih =>
    obtain ⟨y, z⟩ := q
    obtain ⟨ho, he⟩ := h _ (.head _)
    simp only at ho he
    subst he
    exact ⟨⟨ho, fun _ => rfl⟩, fun hn => absurd ho hn, ih fun q hq => h q (.tail _ hq)⟩

theorem ren_id {qs : List (Name × Name)} (h : ∀ q ∈ qs, q.2 = q.1) (x : Name) : ren qs x = x := by
  induction qs with
  | nil => rfl
  | cons q qs ih =>
    obtain ⟨y, z⟩ := q
    have he := h _ (.head _)
    simp only at he
    subst he
    simp only [ren]
    split
    · rename_i hx; exact hx.symm
    · exact ih fun q hq => h q (.tail _ hq)

theorem zip_self {xs : List Name} {q : Name × Name} (h : q ∈ xs.zip xs) : q.1 ∈ xs ∧ q.2 = q.1 := by
  induction xs with
  | nil => cases h
  | cons x xs ih =>
    simp only [List.zip_cons_cons, List.mem_cons] at h
    rcases h with rfl | h
    · exact ⟨.head _, rfl⟩
    · exact ⟨.tail _ (ih h).1, (ih h).2⟩

/-- One function: its body after expansion of calls. -/
theorem body_ok (hfr : ∀ p ids, fr p ids ∉ ids) (hG : ∀ f F, P f = some F → Good P en ids₀ f F)
    (hC : ∀ f vs g t r, C' f vs g t r → Runs P X f vs g t r) {d : Nat} {f : Name} {F : Fun} {ids : Ids}
    (hF : P f = some F) (hids : ∀ y ∈ ids₀, y ∈ ids) {vs : List Val} (hl : F.params.length = vs.length)
    {g : Glob} {t : List Ev} {r' : Out}
    (h : Exec C' (.block (pSs fr (inline P en fr d) [f] none id false F.body ids).1)
      ⟨g, frame F.params vs⟩ t r') : Runs P X f vs g t r'.call := by
  have hGF := hG f F hF
  have hmem : ∀ q ∈ (F.params.zip F.params).reverse, q.1 ∈ F.params ∧ q.2 = q.1 :=
    fun q hq => zip_self (List.mem_reverse.1 hq)
  have holds : ∀ x, x ∈ olds (pairs (F.params.zip F.params).reverse) ↔ x ∈ F.params := by
    intro x
    rw [pairs_olds, List.map_reverse, List.mem_reverse]
    have : (F.params.zip F.params).map Prod.fst = F.params := List.map_fst_zip (by omega)
    rw [this]
  have hd : ∀ x ∈ F.params, x ∈ F.decls := fun x hx => by simp [Fun.decls, hx]
  have hx : Ctx (· ∈ ids₀) (Decl P [f]) F.decls none [] id ids (pairs (F.params.zip F.params).reverse) := by
    refine ⟨⟨pairs_wf_id fun q hq => ⟨hGF.decls _ (hd _ (hmem q hq).1), (hmem q hq).2⟩, hids, ?_, ?_, ?_, ?_, ?_⟩,
      fun x _ => ?_, ?_⟩
    · intro y hy
      rw [pairs_news] at hy
      obtain ⟨q, hq, rfl⟩ := List.mem_map.1 hy
      rw [(hmem q hq).2]
      exact hids _ (hGF.decls _ (hd _ (hmem q hq).1))
    · intro y hy; cases hy
    · intro x hx; exact hd x ((holds x).1 hx)
    · intro x hx; exact ⟨f, .head _, F, hF, hx⟩
    · intro y hy; cases hy
    · rw [pairs_mOf, ren_id fun q hq => (hmem q hq).2]; rfl
    · intro R L v e; cases e
  have hnm : NmL (· ∈ ids₀) F.decls [] F.params F.body :=
    ⟨hGF.uses, hGF.fns, fun _ _ h => (List.not_mem_nil h), fun x hx =>
      have h : x ∈ F.decls := by simp [Fun.decls, hx]
      ⟨h, hGF.decls x h⟩⟩
  have hs : SR [] (pairs (F.params.zip F.params).reverse) ⟨g, frame F.params vs⟩
      ⟨g, frame F.params vs⟩ := ⟨rfl, frame_ids _ _ hl⟩
  cases h with
  | cut => exact ⟨0, rfl, rfl⟩
  | block hb =>
    have key : ∀ {t r'}, ExecL C' (pSs fr (inline P en fr d) [f] none id false F.body ids).1
        ⟨g, frame F.params vs⟩ t r' → _ := fun h =>
      (simSs hC (inline_ok hfr hG hC d [f]) (inline_id hfr hG d [f]) (fun R L e => by cases e) F.body false
        hGF.shape (fun R₁ L₁ w e => by cases e) hx hnm (fun x h => (holds x).2 h) hs h).1
    have h := hb.once fun {t l σ₁} hj => by
      obtain ⟨r, _, h₂⟩ := key hj
      cases h₂ with
      | jump hr => cases hr
    obtain ⟨r, k₁, k₂⟩ := key h
    have hrun := Runs.of_body hF hl (Exec.ofL k₁ k₂.not_jump)
    rw [Out.call_bot] at hrun ⊢
    cases k₂ with
    | norm hN => obtain ⟨_, hN⟩ := hN; simp only [Out.call] at hrun ⊢; rw [← hN.g]; exact hrun
    | brk h => exact hrun
    | ret hr hg => simp only [Out.call] at hrun ⊢; rw [← hg]; exact hrun
    | jump hr' => cases hr'
    | last hr _ => exact absurd rfl hr
    | halt h => exact hrun

/-- **C105** (partial). Each behavior of the program after expansion of calls is a behavior of the original
program: the same calls of external functions with the same arguments in the same order, the same
values of global variables, the same result. It holds for functions which satisfy `Good`. -/
theorem inline_partial (P : Prog) (en : Name → Bool) (fr : Name → Ids → Name) (ids₀ : Ids)
    (hfr : ∀ p ids, fr p ids ∉ ids) (hG : ∀ f F, P f = some F → Good P en ids₀ f F)
    (d : Nat) (order : List Name) (X : Calls) :
    ∀ f vs g t r, Runs (expand P en fr d order ids₀) X f vs g t r → Runs P X f vs g t r := by
  intro f vs g t r ⟨n, h⟩
  induction n generalizing f vs g t r with
  | zero => exact ⟨0, h⟩
  | succ n ih =>
    rcases h with ⟨rfl, rfl⟩ | h
    · exact ⟨0, rfl, rfl⟩
    · rcases expand_fun (fr := fr) (d := d) order (ids := ids₀) (fun f F hF => (hG f F hF).shape)
        (inline_id hfr hG d) f with e | ⟨F, ids₁, hF, hids, e⟩
      · rw [e] at h
        cases hF : P f with
        | none =>
          rw [hF] at h
          refine ⟨1, .inr ?_⟩
          rw [hF]
          exact h
        | some F =>
          rw [hF] at h
          simp only at h
          split at h
          · rename_i hl
            obtain ⟨r, h, rfl⟩ := h
            exact Runs.of_body hF hl (Exec.mono ih h)
          · rename_i hl
            refine ⟨1, .inr ?_⟩
            rw [hF]
            simp only [if_neg hl]
            exact h
      · rw [e] at h
        simp only at h
        split at h
        · rename_i hl
          obtain ⟨r, h, rfl⟩ := h
          exact body_ok hfr hG ih hF hids hl h
        · rename_i hl
          refine ⟨1, .inr ?_⟩
          rw [hF]
          simp only [if_neg hl]
          exact h

end Tsar.Inline
