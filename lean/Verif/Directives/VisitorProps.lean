/-
Properties of the visitor of clauses (C69).
-/
import Verif.Directives.Props
import Verif.Directives.Simulation

namespace Tsar.Directives

/-! ### Properties of the language -/

/-- A list of expressions in a repetition is a sequence. -/
def Mode.base : Mode → Mode
  | .rep => .seq
  | m => m

theorem lang_head {m es w out} (h : Lang m es w out) :
    (w = [] → nullable m es = true) ∧
    (∀ tk w', w = tk :: w' → tk.kind ∈ first m.base es) := by
  induction h with
  | nil => exact ⟨fun _ => rfl, by simp⟩
  | @tok k r tk w out hk _ _ =>
    refine ⟨by simp, ?_⟩
    rintro _ _ ⟨⟩
    simp [Mode.base, first, hk]
  | zeroOrOneNo _ ih =>
    refine ⟨fun h => by simpa [nullable] using ih.1 h, fun tk w' h => ?_⟩
    have := ih.2 tk w' h
    simp only [Mode.base, first, List.mem_append] at this ⊢
    exact .inr this
  | @zeroOrOneYes b r w₁ w₂ o₁ o₂ _ _ ih1 ih2 =>
    refine ⟨fun h => ?_, fun tk w' h => ?_⟩
    · simp only [nullable]; exact ih2.1 (List.append_eq_nil_iff.1 h).2
    · simp only [Mode.base, first, List.mem_append]
      cases w₁ with
      | nil => exact .inr (ih2.2 tk w' h)
      | cons x xs => cases h; exact .inl (ih1.2 _ _ rfl)
  | @zeroOrMore b r w₁ w₂ o₁ o₂ _ _ ih1 ih2 =>
    refine ⟨fun h => ?_, fun tk w' h => ?_⟩
    · simp only [nullable]; exact ih2.1 (List.append_eq_nil_iff.1 h).2
    · simp only [Mode.base, first, List.mem_append]
      cases w₁ with
      | nil => exact .inr (ih2.2 tk w' h)
      | cons x xs => cases h; exact .inl (ih1.2 _ _ rfl)
  | @oneOrMore b r w₀ w₁ w₂ o₀ o₁ o₂ _ _ _ ih0 ih1 ih2 =>
    refine ⟨fun h => ?_, fun tk w' h => ?_⟩
    · have h1 := List.append_eq_nil_iff.1 h
      have h2 := List.append_eq_nil_iff.1 h1.2
      simp only [nullable, Bool.and_eq_true]
      exact ⟨ih0.1 h1.1, ih2.1 h2.2⟩
    · simp only [Mode.base, first, List.mem_append]
      cases w₀ with
      | cons x xs => cases h; exact .inl (ih0.2 _ _ rfl)
      | nil =>
        cases w₁ with
        | cons x xs => cases h; exact .inl (ih1.2 _ _ rfl)
        | nil =>
          right; rw [if_pos (ih0.1 rfl)]; exact ih2.2 tk w' h
  | @one b r w₁ w₂ o₁ o₂ _ _ ih1 ih2 =>
    refine ⟨fun h => ?_, fun tk w' h => ?_⟩
    · have h1 := List.append_eq_nil_iff.1 h
      simp only [nullable, Bool.and_eq_true]
      exact ⟨ih1.1 h1.1, ih2.1 h1.2⟩
    · simp only [Mode.base, first, List.mem_append]
      cases w₁ with
      | nil => right; rw [if_pos (ih1.1 rfl)]; exact ih2.2 tk w' h
      | cons x xs => cases h; exact .inl (ih1.2 _ _ rfl)
  | @oneOf b r w₁ w₂ o₁ o₂ _ _ ih1 ih2 =>
    refine ⟨fun h => ?_, fun tk w' h => ?_⟩
    · have h1 := List.append_eq_nil_iff.1 h
      simp only [nullable, Bool.and_eq_true]
      exact ⟨ih1.1 h1.1, ih2.1 h1.2⟩
    · simp only [Mode.base, first, List.mem_append]
      cases w₁ with
      | nil => right; rw [if_pos (ih1.1 rfl)]; exact ih2.2 tk w' h
      | cons x xs => cases h; exact .inl (ih1.2 _ _ rfl)
  | repNil => exact ⟨fun _ => by simp [nullable], by simp⟩
  | @repCons b w₁ w₂ o₁ o₂ _ _ ih1 ih2 =>
    refine ⟨fun _ => by simp [nullable], fun tk w' h => ?_⟩
    cases w₁ with
    | nil => exact ih2.2 tk w' h
    | cons x xs => cases h; exact ih1.2 _ _ rfl
  | @altTok k r tk hk =>
    refine ⟨by simp, ?_⟩
    rintro _ _ ⟨⟩
    simp [Mode.base, first, hk]
  | altTokLater _ ih =>
    refine ⟨fun h => by simpa [nullable] using ih.1 h, fun tk w' h => ?_⟩
    have := ih.2 tk w' h
    simp only [Mode.base, first, List.mem_cons] at this ⊢
    exact .inr this
  | @altBlock k b r w out _ ih =>
    refine ⟨fun h => ?_, fun tk w' h => ?_⟩
    · have := ih.1 h
      cases k <;> simp [nullable] at this ⊢ <;> exact .inl this
    · have := ih.2 tk w' h
      simp only [Mode.base, first, List.mem_append]
      left
      cases k <;> simpa [Mode.base, first] using this
  | @altBlockLater k b r w out _ ih =>
    refine ⟨fun h => ?_, fun tk w' h => ?_⟩
    · have := ih.1 h
      cases k <;> simp [nullable] <;> exact .inr this
    · simp only [Mode.base, first, List.mem_append]
      exact .inr (ih.2 tk w' h)

/-! ### Processing always finishes -/

theorem parse_rep_total {b : Exprs} (hb : ∀ ts, ∃ o, Parse .seq b ts o)
    (hn : nullable .seq b = false) (n : Nat) :
    ∀ ts : List Token, ts.length ≤ n → ∃ p, Parse .rep b ts (some p) := by
  induction n with
  | zero =>
    intro ts hts
    obtain ⟨o, ho⟩ := hb ts
    cases o with
    | none => exact ⟨_, .repNo ho⟩
    | some p =>
      obtain ⟨rest, out⟩ := p
      obtain ⟨w, rfl, hw⟩ := parse_sound ho _ _ rfl
      have : w = [] := by cases w <;> simp at hts ⊢
      have := (lang_head hw).1 this
      rw [hn] at this; cases this
  | succ n ih =>
    intro ts hts
    obtain ⟨o, ho⟩ := hb ts
    cases o with
    | none => exact ⟨_, .repNo ho⟩
    | some p =>
      obtain ⟨rest, out⟩ := p
      obtain ⟨w, rfl, hw⟩ := parse_sound ho _ _ rfl
      have hne : w ≠ [] := fun h => by
        have := (lang_head hw).1 h
        rw [hn] at this; cases this
      obtain ⟨q, hq⟩ := ih rest (by
        have := List.length_pos_iff.2 hne
        simp at hts; omega)
      exact ⟨_, .repYes ho hq⟩

theorem parse_total (es : Exprs) :
    (∀ inOne, supported .seq inOne es = true → ∀ ts, ∃ o, Parse .seq es ts o) ∧
    (supported .alt false es = true → ∀ ts, ∃ o, Parse .alt es ts o) := by
  induction es with
  | nil => exact ⟨fun _ _ ts => ⟨_, .nil⟩, fun _ ts => ⟨_, .altNil⟩⟩
  | tok k r ih =>
    refine ⟨fun inOne hs ts => ?_, fun hs ts => ?_⟩
    · by_cases hk : headIs (getTokenKind k) ts
      · cases ts with
        | nil => exact hk.elim
        | cons tk ts =>
          obtain ⟨o, ho⟩ := ih.1 inOne (by simpa [supported] using hs) ts
          exact ⟨_, .tokYes hk ho⟩
      · exact ⟨_, .tokNo hk⟩
    · by_cases hk : headIs (getTokenKind k) ts
      · cases ts with
        | nil => exact hk.elim
        | cons tk ts => exact ⟨_, .altTokYes hk⟩
      · obtain ⟨o, ho⟩ := ih.2 (by simpa [supported] using hs) ts
        exact ⟨_, .altTokNo hk ho⟩
  | block b body r ih1 ih2 =>
    refine ⟨fun inOne hs ts => ?_, fun hs ts => ?_⟩
    · cases b with
      | ZeroOrOne =>
        simp only [supported, Bool.and_eq_true] at hs
        obtain ⟨o, ho⟩ := ih1.1 false hs.1 ts
        cases o with
        | none => obtain ⟨o', ho'⟩ := ih2.1 inOne hs.2 ts; exact ⟨_, .zoNo ho ho'⟩
        | some p => obtain ⟨o', ho'⟩ := ih2.1 inOne hs.2 p.1; exact ⟨_, .zoYes ho ho'⟩
      | ZeroOrMore =>
        simp only [supported, Bool.and_eq_true, Bool.not_eq_true'] at hs
        obtain ⟨p, hp⟩ := parse_rep_total (ih1.1 false hs.1.1) hs.1.2 ts.length ts (Nat.le_refl _)
        obtain ⟨o', ho'⟩ := ih2.1 inOne hs.2 p.1
        exact ⟨_, .zm hp ho'⟩
      | OneOrMore =>
        simp only [supported, Bool.and_eq_true, Bool.not_eq_true'] at hs
        obtain ⟨o, ho⟩ := ih1.1 false hs.1.1.2 ts
        cases o with
        | none => exact ⟨_, .omNo ho⟩
        | some q =>
          obtain ⟨p, hp⟩ := parse_rep_total (ih1.1 false hs.1.1.2) hs.1.2 q.1.length q.1
            (Nat.le_refl _)
          obtain ⟨o', ho'⟩ := ih2.1 inOne hs.2 p.1
          exact ⟨_, .omYes ho hp ho'⟩
      | One =>
        simp only [supported, Bool.and_eq_true] at hs
        obtain ⟨o, ho⟩ := ih1.1 true hs.1.2 ts
        cases o with
        | none => exact ⟨_, .oneNo ho⟩
        | some p => obtain ⟨o', ho'⟩ := ih2.1 inOne hs.2 p.1; exact ⟨_, .oneYes ho ho'⟩
      | OneOf =>
        simp only [supported, Bool.and_eq_true] at hs
        obtain ⟨o, ho⟩ := ih1.2 hs.1.2 ts
        cases o with
        | none => exact ⟨_, .oneOfNo ho⟩
        | some p => obtain ⟨o', ho'⟩ := ih2.1 inOne hs.2 p.1; exact ⟨_, .oneOfYes ho ho'⟩
    · simp only [supported, Bool.and_eq_true, beq_iff_eq] at hs
      obtain ⟨⟨rfl, hb⟩, hr⟩ := hs
      obtain ⟨o, ho⟩ := ih1.1 true hb ts
      cases o with
      | none => obtain ⟨o', ho'⟩ := ih2.2 hr ts; exact ⟨_, .altOneNo ho ho'⟩
      | some p => exact ⟨_, .altOneYes ho⟩

/-! ### Completeness -/

theorem parse_none_of_first (tk : Token) (ts : List Token) (es : Exprs) :
    (∀ inOne, supported .seq inOne es = true → tk.kind ∉ first .seq es →
      (nullable .seq es = false → Parse .seq es (tk :: ts) none) ∧
      (nullable .seq es = true → ∃ out, Parse .seq es (tk :: ts) (some (tk :: ts, out)))) ∧
    (supported .alt false es = true → tk.kind ∉ first .alt es →
      (nullable .alt es = false → Parse .alt es (tk :: ts) none) ∧
      (nullable .alt es = true → ∃ out, Parse .alt es (tk :: ts) (some (tk :: ts, out)))) := by
  induction es with
  | nil =>
    exact ⟨fun _ _ _ => ⟨by simp [nullable], fun _ => ⟨_, .nil⟩⟩,
      fun _ _ => ⟨fun _ => .altNil, by simp [nullable]⟩⟩
  | tok k r ih =>
    refine ⟨fun inOne _ hf => ⟨fun _ => ?_, by simp [nullable]⟩, fun hs hf => ?_⟩
    · refine .tokNo ?_
      simpa [first, headIs] using hf
    · simp only [first, List.mem_cons, not_or] at hf
      have hh : ¬headIs (getTokenKind k) (tk :: ts) := hf.1
      have := ih.2 (by simpa [supported] using hs) hf.2
      refine ⟨fun hn => .altTokNo hh (this.1 (by simpa [nullable] using hn)), fun hn => ?_⟩
      obtain ⟨out, ho⟩ := this.2 (by simpa [nullable] using hn)
      exact ⟨out, .altTokNo hh ho⟩
  | block b body r ih1 ih2 =>
    refine ⟨fun inOne hs hf => ?_, fun hs hf => ?_⟩
    · cases b with
      | ZeroOrOne =>
        simp only [supported, Bool.and_eq_true] at hs
        simp only [first, List.mem_append, not_or] at hf
        have h1 := ih1.1 false hs.1 hf.1
        have h2 := ih2.1 inOne hs.2 hf.2
        cases hb : nullable .seq body with
        | false =>
          refine ⟨fun hn => .zoNo (h1.1 hb) (h2.1 (by simpa [nullable] using hn)), fun hn => ?_⟩
          obtain ⟨out, ho⟩ := h2.2 (by simpa [nullable] using hn)
          exact ⟨out, .zoNo (h1.1 hb) ho⟩
        | true =>
          obtain ⟨out₁, ho₁⟩ := h1.2 hb
          refine ⟨fun hn => .zoYes ho₁ (h2.1 (by simpa [nullable] using hn)), fun hn => ?_⟩
          obtain ⟨out, ho⟩ := h2.2 (by simpa [nullable] using hn)
          exact ⟨_, .zoYes ho₁ ho⟩
      | ZeroOrMore =>
        simp only [supported, Bool.and_eq_true, Bool.not_eq_true'] at hs
        simp only [first, List.mem_append, not_or] at hf
        have h1 := Parse.repNo ((ih1.1 false hs.1.1 hf.1).1 hs.1.2)
        have h2 := ih2.1 inOne hs.2 hf.2
        refine ⟨fun hn => .zm h1 (h2.1 (by simpa [nullable] using hn)), fun hn => ?_⟩
        obtain ⟨out, ho⟩ := h2.2 (by simpa [nullable] using hn)
        exact ⟨_, .zm h1 ho⟩
      | OneOrMore =>
        simp only [supported, Bool.and_eq_true, Bool.not_eq_true'] at hs
        simp only [first, List.mem_append, not_or] at hf
        refine ⟨fun _ => .omNo ((ih1.1 false hs.1.1.2 hf.1).1 hs.1.2), fun hn => ?_⟩
        simp [nullable, hs.1.2] at hn
      | One =>
        simp only [supported, Bool.and_eq_true] at hs
        simp only [first, List.mem_append, not_or] at hf
        have h1 := ih1.1 true hs.1.2 hf.1
        cases hb : nullable .seq body with
        | false => exact ⟨fun _ => .oneNo (h1.1 hb), fun hn => by simp [nullable, hb] at hn⟩
        | true =>
          obtain ⟨out₁, ho₁⟩ := h1.2 hb
          have h2 := ih2.1 inOne hs.2 (by simpa [hb] using hf.2)
          refine ⟨fun hn => .oneYes ho₁ (h2.1 (by simpa [nullable, hb] using hn)), fun hn => ?_⟩
          obtain ⟨out, ho⟩ := h2.2 (by simpa [nullable, hb] using hn)
          exact ⟨_, .oneYes ho₁ ho⟩
      | OneOf =>
        simp only [supported, Bool.and_eq_true] at hs
        simp only [first, List.mem_append, not_or] at hf
        have h1 := ih1.2 hs.1.2 hf.1
        cases hb : nullable .alt body with
        | false => exact ⟨fun _ => .oneOfNo (h1.1 hb), fun hn => by simp [nullable, hb] at hn⟩
        | true =>
          obtain ⟨out₁, ho₁⟩ := h1.2 hb
          have h2 := ih2.1 inOne hs.2 (by simpa [hb] using hf.2)
          refine ⟨fun hn => .oneOfYes ho₁ (h2.1 (by simpa [nullable, hb] using hn)), fun hn => ?_⟩
          obtain ⟨out, ho⟩ := h2.2 (by simpa [nullable, hb] using hn)
          exact ⟨_, .oneOfYes ho₁ ho⟩
    · simp only [supported, Bool.and_eq_true, beq_iff_eq] at hs
      obtain ⟨⟨rfl, hsb⟩, hsr⟩ := hs
      simp only [first, List.mem_append, not_or, reduceCtorEq, if_false] at hf
      have h1 := ih1.1 true hsb hf.1
      have h2 := ih2.2 hsr hf.2
      cases hb : nullable .seq body with
      | false =>
        refine ⟨fun hn => .altOneNo (h1.1 hb) (h2.1 (by simpa [nullable, hb] using hn)), fun hn => ?_⟩
        obtain ⟨out, ho⟩ := h2.2 (by simpa [nullable, hb] using hn)
        exact ⟨_, .altOneNo (h1.1 hb) ho⟩
      | true =>
        obtain ⟨out₁, ho₁⟩ := h1.2 hb
        exact ⟨fun hn => by simp [nullable, hb] at hn, fun _ => ⟨_, .altOneYes ho₁⟩⟩

/-- The first token belongs to a set. -/
def HeadIn (F : TokKind → Bool) (ts : List Token) : Prop :=
  ∃ tk ts', ts = tk :: ts' ∧ F tk.kind = true

theorem headIn_follow {r : Exprs} {w out rest : List Token} {F : TokKind → Bool}
    (h : Lang .seq r w out) (hr : HeadIn F rest) : HeadIn (followOf r F) (w ++ rest) := by
  have hh := lang_head h
  cases w with
  | nil =>
    obtain ⟨tk, ts, rfl, hF⟩ := hr
    exact ⟨tk, ts, rfl, by simp [followOf, hh.1 rfl, hF]⟩
  | cons x xs =>
    refine ⟨x, _, rfl, ?_⟩
    have := hh.2 x xs rfl
    simp only [Mode.base] at this
    simp [followOf, this]

theorem headIn_rep {b : Exprs} {w out rest : List Token} {F : TokKind → Bool}
    (h : Lang .rep b w out) (hr : HeadIn F rest) :
    HeadIn (fun k => (first .seq b).contains k || F k) (w ++ rest) := by
  have hh := lang_head h
  cases w with
  | nil =>
    obtain ⟨tk, ts, rfl, hF⟩ := hr
    exact ⟨tk, ts, rfl, by simp [hF]⟩
  | cons x xs =>
    refine ⟨x, _, rfl, ?_⟩
    have := hh.2 x xs rfl
    simp only [Mode.base] at this
    simp [this]

theorem parse_skip {b : Exprs} {F : TokKind → Bool} {ts : List Token} {inOne : Bool}
    (hs : supported .seq inOne b = true) (hn : nullable .seq b = false)
    (hd : (first .seq b).all (fun k => !F k) = true) (hr : HeadIn F ts) : Parse .seq b ts none := by
  obtain ⟨tk, ts', rfl, hF⟩ := hr
  refine ((parse_none_of_first tk ts' b).1 inOne hs fun hm => ?_).1 hn
  have := List.all_eq_true.1 hd _ hm
  simp [hF] at this

theorem followOf_nil (F : TokKind → Bool) : followOf .nil F = F := by
  funext k; simp [followOf, first, nullable]

theorem nullable_alt {es : Exprs} {F : TokKind → Bool} :
    supported .alt false es = true → deterministic .alt es F = true →
      nullable .alt es = false := by
  induction es with
  | nil => intros; rfl
  | tok k r ih =>
    intro hs hd
    simp only [deterministic, Bool.and_eq_true] at hd
    simpa [nullable] using ih (by simpa [supported] using hs) hd.2
  | block k b r _ ih =>
    intro hs hd
    simp only [supported, Bool.and_eq_true, beq_iff_eq] at hs
    simp only [deterministic, Bool.and_eq_true, Bool.not_eq_true'] at hd
    obtain ⟨⟨rfl, hsb⟩, hsr⟩ := hs
    simp [nullable, hd.1.1.1, ih hsr hd.2]

theorem parse_complete {m es w out} (h : Lang m es w out) :
    ∀ (F : TokKind → Bool) (rest : List Token), HeadIn F rest →
      (m = .seq → ∀ inOne, supported .seq inOne es = true → deterministic .seq es F = true →
        Parse .seq es (w ++ rest) (some (rest, out))) ∧
      (m = .alt → supported .alt false es = true → deterministic .alt es F = true →
        Parse .alt es (w ++ rest) (some (rest, out))) ∧
      (m = .rep → supported .seq false es = true → nullable .seq es = false →
        (first .seq es).all (fun k => !F k) = true →
        deterministic .seq es (fun k => (first .seq es).contains k || F k) = true →
        Parse .rep es (w ++ rest) (some (rest, out))) := by
  induction h with
  | nil => intro F rest _; exact ⟨fun _ _ _ _ => .nil, nofun, nofun⟩
  | @tok k r tk w out hk _ ih =>
    intro F rest hr
    refine ⟨fun _ inOne hs hd => ?_, nofun, nofun⟩
    exact .tokYes hk ((ih F rest hr).1 rfl inOne (by simpa [supported] using hs)
      (by simpa [deterministic] using hd))
  | @zeroOrOneNo b r w out hl ih =>
    intro F rest hr
    refine ⟨fun _ inOne hs hd => ?_, nofun, nofun⟩
    simp only [supported, Bool.and_eq_true] at hs
    simp only [deterministic, Bool.and_eq_true, Bool.not_eq_true'] at hd
    exact .zoNo (parse_skip hs.1 hd.1.1.1 hd.1.1.2 (headIn_follow hl hr))
      ((ih F rest hr).1 rfl inOne hs.2 hd.2)
  | @zeroOrOneYes b r w₁ w₂ o₁ o₂ _ hl2 ih1 ih2 =>
    intro F rest hr
    refine ⟨fun _ inOne hs hd => ?_, nofun, nofun⟩
    simp only [supported, Bool.and_eq_true] at hs
    simp only [deterministic, Bool.and_eq_true, Bool.not_eq_true'] at hd
    rw [List.append_assoc]
    exact .zoYes ((ih1 (followOf r F) (w₂ ++ rest) (headIn_follow hl2 hr)).1 rfl false hs.1 hd.1.2)
      ((ih2 F rest hr).1 rfl inOne hs.2 hd.2)
  | @zeroOrMore b r w₁ w₂ o₁ o₂ _ hl2 ih1 ih2 =>
    intro F rest hr
    refine ⟨fun _ inOne hs hd => ?_, nofun, nofun⟩
    simp only [supported, Bool.and_eq_true, Bool.not_eq_true'] at hs
    simp only [deterministic, Bool.and_eq_true, Bool.not_eq_true'] at hd
    rw [List.append_assoc]
    exact .zm ((ih1 (followOf r F) (w₂ ++ rest) (headIn_follow hl2 hr)).2.2 rfl hs.1.1 hs.1.2
      hd.1.1.2 hd.1.2) ((ih2 F rest hr).1 rfl inOne hs.2 hd.2)
  | @oneOrMore b r w₀ w₁ w₂ o₀ o₁ o₂ _ hl1 hl2 ih0 ih1 ih2 =>
    intro F rest hr
    refine ⟨fun _ inOne hs hd => ?_, nofun, nofun⟩
    simp only [supported, Bool.and_eq_true, Bool.not_eq_true'] at hs
    simp only [deterministic, Bool.and_eq_true, Bool.not_eq_true'] at hd
    rw [List.append_assoc, List.append_assoc]
    have hf2 := headIn_follow hl2 hr
    exact .omYes ((ih0 _ _ (headIn_rep hl1 hf2)).1 rfl false hs.1.1.2 hd.1.2)
      ((ih1 (followOf r F) (w₂ ++ rest) hf2).2.2 rfl hs.1.1.2 hs.1.2 hd.1.1.2 hd.1.2)
      ((ih2 F rest hr).1 rfl inOne hs.2 hd.2)
  | @one b r w₁ w₂ o₁ o₂ _ hl2 ih1 ih2 =>
    intro F rest hr
    refine ⟨fun _ inOne hs hd => ?_, nofun, nofun⟩
    simp only [supported, Bool.and_eq_true] at hs
    simp only [deterministic, Bool.and_eq_true] at hd
    rw [List.append_assoc]
    have := Parse.oneYes ((ih1 (followOf r F) (w₂ ++ rest) (headIn_follow hl2 hr)).1 rfl true
      hs.1.2 hd.1) ((ih2 F rest hr).1 rfl inOne hs.2 hd.2)
    simpa [addOut] using this
  | @oneOf b r w₁ w₂ o₁ o₂ _ hl2 ih1 ih2 =>
    intro F rest hr
    refine ⟨fun _ inOne hs hd => ?_, nofun, nofun⟩
    simp only [supported, Bool.and_eq_true] at hs
    simp only [deterministic, Bool.and_eq_true] at hd
    rw [List.append_assoc]
    exact .oneOfYes ((ih1 (followOf r F) (w₂ ++ rest) (headIn_follow hl2 hr)).2.1 rfl hs.1.2 hd.1)
      ((ih2 F rest hr).1 rfl inOne hs.2 hd.2)
  | repNil =>
    intro F rest hr
    refine ⟨nofun, nofun, fun _ hs hn hf _ => ?_⟩
    exact .repNo (parse_skip hs hn hf hr)
  | @repCons b w₁ w₂ o₁ o₂ _ hl2 ih1 ih2 =>
    intro F rest hr
    refine ⟨nofun, nofun, fun _ hs hn hf hd => ?_⟩
    rw [List.append_assoc]
    exact .repYes ((ih1 _ _ (headIn_rep hl2 hr)).1 rfl false hs hd)
      ((ih2 F rest hr).2.2 rfl hs hn hf hd)
  | altTok hk =>
    intro F rest _
    exact ⟨nofun, fun _ _ _ => .altTokYes hk, nofun⟩
  | @altTokLater k r w out hl ih =>
    intro F rest hr
    refine ⟨nofun, fun _ hs hd => ?_, nofun⟩
    simp only [deterministic, Bool.and_eq_true, Bool.not_eq_true'] at hd
    have hs' : supported .alt false r = true := by simpa [supported] using hs
    refine .altTokNo ?_ ((ih F rest hr).2.1 rfl hs' hd.2)
    cases w with
    | nil =>
      have := (lang_head hl).1 rfl
      rw [nullable_alt hs' hd.2] at this; cases this
    | cons x xs =>
      have := (lang_head hl).2 x xs rfl
      simp only [Mode.base] at this
      intro hx
      simp only [List.cons_append, headIs] at hx
      rw [hx] at this
      simp [this] at hd
  | @altBlock k b r w out hl ih =>
    intro F rest hr
    refine ⟨nofun, fun _ hs hd => ?_, nofun⟩
    simp only [supported, Bool.and_eq_true, beq_iff_eq] at hs
    simp only [deterministic, Bool.and_eq_true, Bool.not_eq_true'] at hd
    obtain ⟨⟨rfl, hsb⟩, hsr⟩ := hs
    have := (ih F rest hr).1 rfl false (by simp [supported, hsb])
      (by simp [deterministic, followOf_nil, hd.1.2])
    generalize ho : some (rest, out) = o at this
    cases this with
    | oneNo _ => cases ho
    | oneYes h1 h2 =>
      cases h2
      cases ho
      simpa [addOut] using Parse.altOneYes (r := r) h1
  | @altBlockLater k b r w out hl ih =>
    intro F rest hr
    refine ⟨nofun, fun _ hs hd => ?_, nofun⟩
    simp only [supported, Bool.and_eq_true, beq_iff_eq] at hs
    simp only [deterministic, Bool.and_eq_true, Bool.not_eq_true'] at hd
    obtain ⟨⟨rfl, hsb⟩, hsr⟩ := hs
    refine .altOneNo ?_ ((ih F rest hr).2.1 rfl hsr hd.2)
    cases w with
    | nil =>
      have := (lang_head hl).1 rfl
      rw [nullable_alt hsr hd.2] at this; cases this
    | cons x xs =>
      have hx := (lang_head hl).2 x xs rfl
      simp only [Mode.base] at hx
      refine ((parse_none_of_first x (xs ++ rest) b).1 true hsb fun hm => ?_).1 hd.1.1.1
      have := List.all_eq_true.1 hd.1.1.2 _ hm
      simp [hx] at this

/-! ### The visitor -/

theorem steps_accept (P : List EK) (toks : List Token) (n : Nat) (s : St) :
    steps P toks n (.accept s) = .accept s := by
  induction n with
  | zero => rfl
  | succ n ih => exact ih

theorem steps_reject (P : List EK) (toks : List Token) (n : Nat) (s : St) :
    steps P toks n (.reject s) = .reject s := by
  induction n with
  | zero => rfl
  | succ n ih => exact ih

theorem finishes_accept {P toks pos tok repl s}
    (h : Reach P toks (.run ⟨0, pos, tok, [], [pos], repl⟩) (.accept s)) :
    Finishes P toks pos tok repl (.accept s) := by
  obtain ⟨N, hN⟩ := h
  refine ⟨N, fun n hn => ?_⟩
  obtain ⟨k, rfl⟩ := Nat.exists_eq_add_of_le hn
  rw [visitBody, steps_add, hN, steps_accept]

theorem finishes_reject {P toks pos tok repl s}
    (h : Reach P toks (.run ⟨0, pos, tok, [], [pos], repl⟩) (.reject s)) :
    Finishes P toks pos tok repl (.reject s) := by
  obtain ⟨N, hN⟩ := h
  refine ⟨N, fun n hn => ?_⟩
  obtain ⟨k, rfl⟩ := Nat.exists_eq_add_of_le hn
  rw [visitBody, steps_add, hN, steps_reject]

theorem finishes_unique {P toks pos tok repl c c'} (h : Finishes P toks pos tok repl c)
    (h' : Finishes P toks pos tok repl c') : c = c' := by
  obtain ⟨N, hN⟩ := h
  obtain ⟨N', hN'⟩ := h'
  rw [← hN (max N N') (Nat.le_max_left _ _), hN' _ (Nat.le_max_right _ _)]

theorem visit_of_parse {es : Exprs} {toks : List Token} {pos : Nat} {tok : Token}
    {repl : List Token} {inOne : Bool} {o : Option (List Token × List Token)}
    (hs : supported .seq inOne es = true)
    (he : HasEod (toks.drop pos)) (h : Parse .seq es (toks.drop pos) o) :
    (∀ rest out, o = some (rest, out) → ∃ pos', toks.drop pos' = rest ∧ pos ≤ pos' ∧
      Accepts (flatten es) toks pos tok repl pos' out) ∧
    (o = none → Rejects (flatten es) toks pos tok repl) := by
  have hsim := simulation (flatten es) toks h
  refine ⟨fun rest out ho => ?_, fun ho => ?_⟩
  · subst ho
    obtain ⟨pos', tok', h1, h2, h3⟩ := hsim inOne [] [] pos tok [] [pos] repl (by simp) rfl he hs rfl
    refine ⟨pos', h1, h2, ?_⟩
    refine ⟨⟨(flatten es).length, pos', tok', [], [], repl ++ out⟩, finishes_accept ?_, rfl, rfl,
      rfl, rfl⟩
    refine h3.trans (.of_step ?_)
    simp [step, stepRun]
  · subst ho
    rcases hsim inOne [] [] pos tok [] pos [] repl (by simp) rfl he hs rfl (Nat.le_refl _) with
      ⟨-, s', h1, h2, h3⟩ | ⟨j, pos', tok', junk, pre', es', -, -, -, h1⟩
    · exact ⟨s', finishes_reject h1, h2, h3⟩
    · exact ⟨⟨j, pos', tok', [], [], repl ++ junk⟩, finishes_reject (h1.trans (.of_step rfl)), rfl,
        rfl⟩

theorem pos_of_drop {toks w : List Token} {pos pos' : Nat} (he : HasEod (toks.drop pos'))
    (h : toks.drop pos = w ++ toks.drop pos') : pos' = pos + w.length := by
  have hl := congrArg List.length h
  simp only [List.length_drop, List.length_append] at hl
  obtain ⟨tk, hm, _⟩ := he
  have := List.length_pos_of_mem hm
  simp only [List.length_drop] at this
  omega

/-- **C69 (termination and safety)**. Whatever tokens a line contains, a visit of a clause
terminates, it recognizes the clause or emits a diagnostic, and it does not leave levels of
expressions which are not finished or positions which are not released. There is no configuration
in which an assertion fails or an empty stack is accessed. -/
theorem visit_total {es : Exprs} (hs : supported .seq false es = true) (toks : List Token)
    (pos : Nat) (tok : Token) (repl : List Token) (he : HasEod (toks.drop pos)) :
    (∃ pos' out, Accepts (flatten es) toks pos tok repl pos' out) ∨
      Rejects (flatten es) toks pos tok repl := by
  obtain ⟨o, ho⟩ := (parse_total es).1 false hs (toks.drop pos)
  have hv := visit_of_parse (tok := tok) (repl := repl) hs he ho
  cases o with
  | none => exact .inr (hv.2 rfl)
  | some p =>
    obtain ⟨pos', _, _, h⟩ := hv.1 p.1 p.2 rfl
    exact .inl ⟨pos', p.2, h⟩

theorem accepts_not_rejects {P toks pos tok repl pos' out}
    (h : Accepts P toks pos tok repl pos' out) : ¬Rejects P toks pos tok repl := by
  rintro ⟨s', h', -⟩
  obtain ⟨s, h, -⟩ := h
  cases finishes_unique h h'

theorem accepts_unique {P toks pos tok repl pos' out pos₁ out₁}
    (h : Accepts P toks pos tok repl pos' out) (h' : Accepts P toks pos tok repl pos₁ out₁) :
    pos' = pos₁ ∧ out = out₁ := by
  obtain ⟨s, h, h2, h3, -⟩ := h
  obtain ⟨s', h', h2', h3', -⟩ := h'
  cases finishes_unique h h'
  refine ⟨h2.symm.trans h2', ?_⟩
  rw [h3] at h3'
  exact List.append_cancel_left h3'

/-- **C69 (soundness)**. If a clause is recognized then the consumed tokens belong to the
language of its prototype and the replacement is the representation of these tokens: exactly these
tokens are consumed. -/
theorem visit_sound {es : Exprs} (hs : supported .seq false es = true) {toks : List Token}
    {pos : Nat} {tok : Token} {repl : List Token} (he : HasEod (toks.drop pos)) {pos' : Nat}
    {out : List Token} (h : Accepts (flatten es) toks pos tok repl pos' out) :
    ∃ w, Lang .seq es w out ∧ toks.drop pos = w ++ toks.drop pos' ∧ pos' = pos + w.length := by
  obtain ⟨o, ho⟩ := (parse_total es).1 false hs (toks.drop pos)
  have hv := visit_of_parse (tok := tok) (repl := repl) hs he ho
  cases o with
  | none => exact absurd (hv.2 rfl) (accepts_not_rejects h)
  | some p =>
    obtain ⟨rest, out₁⟩ := p
    obtain ⟨pos₁, h1, _, h2⟩ := hv.1 rest out₁ rfl
    obtain ⟨rfl, rfl⟩ := accepts_unique h h2
    obtain ⟨w, hw, hl⟩ := parse_sound ho _ _ rfl
    have he' := parse_hasEod ho he
    rw [← h1] at hw he'
    exact ⟨w, hl, hw, pos_of_drop he' hw⟩

/-- **C69 (completeness)**. If the next tokens belong to the language of a prototype and they are
followed by a token which may follow a clause then the clause is recognized, exactly these tokens
are consumed, and the replacement represents them. -/
theorem visit_complete {es : Exprs} (hs : supported .seq false es = true) {F : TokKind → Bool}
    (hd : deterministic .seq es F = true) {toks : List Token} {pos : Nat} (tok : Token)
    (repl : List Token) (he : HasEod (toks.drop pos)) {w out rest : List Token}
    (hl : Lang .seq es w out) (hw : toks.drop pos = w ++ rest) (hr : HeadIn F rest) :
    Accepts (flatten es) toks pos tok repl (pos + w.length) out := by
  have hp := (parse_complete hl F rest hr).1 rfl false hs hd
  rw [← hw] at hp
  obtain ⟨pos', h1, _, h2⟩ := (visit_of_parse (tok := tok) (repl := repl) hs he hp).1 rest out rfl
  have he' := parse_hasEod hp he
  rw [← h1] at hw he'
  rwa [pos_of_drop he' hw] at h2

/-- **C69**. A clause which is described by a prototype and which is followed by an allowed token
is recognized if and only if it belongs to the language of the prototype. -/
theorem visit_iff {es : Exprs} (hs : supported .seq false es = true) {F : TokKind → Bool}
    (hd : deterministic .seq es F = true) (toks : List Token) (pos : Nat) (tok : Token)
    (repl : List Token) (he : HasEod (toks.drop pos)) (pos' : Nat) (out : List Token)
    (hr : HeadIn F (toks.drop pos')) :
    Accepts (flatten es) toks pos tok repl pos' out ↔
      ∃ w, Lang .seq es w out ∧ toks.drop pos = w ++ toks.drop pos' ∧
        pos' = pos + w.length := by
  constructor
  · exact visit_sound hs he
  · rintro ⟨w, hl, hw, rfl⟩
    exact visit_complete hs hd tok repl he hl hw hr

/-- **C69 (diagnostics)**. If a diagnostic is emitted then no beginning of the rest of the line is
a clause followed by an allowed token. -/
theorem visit_rejects {es : Exprs} (hs : supported .seq false es = true) {F : TokKind → Bool}
    (hd : deterministic .seq es F = true) {toks : List Token} {pos : Nat} {tok : Token}
    {repl : List Token} (he : HasEod (toks.drop pos))
    (h : Rejects (flatten es) toks pos tok repl) {w out rest : List Token}
    (hw : toks.drop pos = w ++ rest) (hr : HeadIn F rest) : ¬Lang .seq es w out := fun hl =>
  accepts_not_rejects (visit_complete hs hd tok repl he hl hw hr) h

/-- Two ways to read a clause give the same result. -/
theorem lang_unique {es : Exprs} (hs : supported .seq false es = true) {F : TokKind → Bool}
    (hd : deterministic .seq es F = true) {w w' out out' rest rest' : List Token}
    (he : HasEod (w ++ rest)) (h : Lang .seq es w out) (h' : Lang .seq es w' out')
    (hw : w ++ rest = w' ++ rest') (hr : HeadIn F rest) (hr' : HeadIn F rest') :
    w = w' ∧ out = out' := by
  have a := visit_complete hs hd (mk .eod) [] (toks := w ++ rest) (pos := 0) (by simpa using he) h
    (by simp) hr
  have b := visit_complete hs hd (mk .eod) [] (toks := w ++ rest) (pos := 0) (by simpa using he) h'
    (by simpa using hw) hr'
  obtain ⟨h1, h2⟩ := accepts_unique a b
  exact ⟨(List.append_inj hw (by omega)).1, h2⟩

/-! ### Replacements -/

/-- A sequence of statements: a simple statement is a sequence of tokens without semicolons and
braces, it is finished with a semicolon; a compound statement is a sequence of statements in
braces. -/
inductive Stmts : List Token → Prop
  | nil : Stmts []
  | simple {ts rest} :
      (∀ tk ∈ ts, tk.kind ≠ .semi ∧ tk.kind ≠ .lBrace ∧ tk.kind ≠ .rBrace) →
      Stmts rest → Stmts (ts ++ mk .semi :: rest)
  | compound {body rest} : Stmts body → Stmts rest →
      Stmts (mk .lBrace :: (body ++ mk .rBrace :: rest))

theorem Stmts.append {a b : List Token} (ha : Stmts a) (hb : Stmts b) : Stmts (a ++ b) := by
  induction ha with
  | nil => exact hb
  | simple h _ ih => rw [List.append_assoc, List.cons_append]; exact .simple h ih
  | compound h1 _ _ ih2 =>
    rw [List.cons_append, List.append_assoc, List.cons_append]; exact .compound h1 ih2

theorem visitSingle_stmts (k : Single) (tk : Token) (h : tk.kind = getTokenKind k) :
    Stmts (visitSingle k tk) := by
  cases k <;> try exact .nil
  · refine Stmts.simple (ts := [mk .lParen, mk (.keyword "void"), mk .rParen, mk .lParen,
      mk (.keyword "sizeof"), mk .lParen, mk .amp, tk, mk .rParen, mk .rParen]) ?_ .nil
    simp [mk, h, getTokenKind]
  · refine Stmts.simple (ts := [mkString tk.text]) ?_ .nil
    simp [mkString]
  · refine Stmts.simple (ts := [mk .lParen, mk (.keyword "void"), mk .rParen, tk]) ?_ .nil
    simp [mk, h, getTokenKind]

/-- **C69 (replacement)**. A replacement of a clause is a sequence of statements of the language
C, hence each brace which has been opened is closed. -/
theorem lang_stmts {m es w out} (h : Lang m es w out) : Stmts out := by
  induction h with
  | nil => exact .nil
  | tok hk _ ih => exact (visitSingle_stmts _ _ hk).append ih
  | zeroOrOneNo _ ih => exact ih
  | zeroOrOneYes _ _ h1 h2 => exact h1.append h2
  | zeroOrMore _ _ h1 h2 => exact h1.append h2
  | oneOrMore _ _ _ h0 h1 h2 => exact h0.append (h1.append h2)
  | one _ _ h1 h2 => exact .compound h1 h2
  | oneOf _ _ h1 h2 => exact h1.append h2
  | repNil => exact .nil
  | repCons _ _ h1 h2 => exact h1.append h2
  | altTok hk => exact visitSingle_stmts _ _ hk
  | altTokLater _ ih => exact ih
  | altBlock _ ih => exact ih
  | altBlockLater _ ih => exact ih

/-! ### Prototypes of TSAR -/

/-- A token which may follow a clause: a name of the next clause or the end of the line. -/
def nameOrEod : TokKind → Bool
  | .eod => true
  | .identifier => true
  | .keyword _ => true
  | _ => false

/-- Each prototype which is used in TSAR is supported by the visitor and it is deterministic. -/
theorem tsar_prototypes : ∀ c ∈ tsar.clauses,
    supported .seq false c.exprs = true ∧ deterministic .seq c.exprs nameOrEod = true := by
  decide +kernel

/-- A prototype of a clause is obtained from the tables with a number of the clause. -/
theorem tsar_prototype {i : Nat} {c : ClauseRec} (h : tsar.clauses[i]? = some c) :
    prototype tsar (i + 1) = some (flatten c.exprs) ∧
      supported .seq false c.exprs = true ∧ deterministic .seq c.exprs nameOrEod = true :=
  ⟨prototype_eq tsar i c h, tsar_prototypes c (List.mem_of_getElem? h)⟩

/-- **C69**. For all clauses of TSAR (the prototype is obtained from the generated tables) and for
all lines: a visit of the clause terminates with a success or with a diagnostic. A clause which is
followed by a name of a clause or by the end of the line is recognized if and only if it belongs
to the language of the clause, and a replacement is a sequence of statements which represents the
clause. -/
theorem tsar_clause {i : Nat} {c : ClauseRec} (hc : tsar.clauses[i]? = some c) {P : List EK}
    (hP : prototype tsar (i + 1) = some P) (toks : List Token) (pos : Nat) (tok : Token)
    (repl : List Token) (he : HasEod (toks.drop pos)) :
    ((∃ pos' out, Accepts P toks pos tok repl pos' out) ∨ Rejects P toks pos tok repl) ∧
    (∀ pos' out, Accepts P toks pos tok repl pos' out → Stmts out) ∧
    (∀ pos' out, HeadIn nameOrEod (toks.drop pos') →
      (Accepts P toks pos tok repl pos' out ↔
        ∃ w, Lang .seq c.exprs w out ∧ toks.drop pos = w ++ toks.drop pos' ∧
          pos' = pos + w.length)) := by
  obtain ⟨hp, hs, hd⟩ := tsar_prototype hc
  cases hp.symm.trans hP
  refine ⟨visit_total hs toks pos tok repl he, fun pos' out h => ?_, fun pos' out hr =>
    visit_iff hs hd toks pos tok repl he pos' out hr⟩
  obtain ⟨w, hl, -⟩ := visit_sound hs he h
  exact lang_stmts hl

/-! ### Examples -/

/-- `private(A, B)` (the clause of `spf analysis`) is recognized, two statements represent it. -/
example : ∃ P, prototype tsar 35 = some P ∧
    Accepts P [mk .lParen, ⟨.identifier, "A"⟩, mk .comma, ⟨.identifier, "B"⟩, mk .rParen, mk .eod]
      0 (mk .eod) [] 5 (visitSingle .Identifier ⟨.identifier, "A"⟩ ++
        visitSingle .Identifier ⟨.identifier, "B"⟩) := by
  refine ⟨flatten idList, by decide +kernel, ?_⟩
  exact visit_complete (es := idList) (F := nameOrEod) (by decide +kernel) (by decide +kernel)
    (pos := 0) _ _ ⟨mk .eod, by simp, rfl⟩
    (w := [mk .lParen, ⟨.identifier, "A"⟩, mk .comma, ⟨.identifier, "B"⟩, mk .rParen])
    (Lang.tok (k := .LParen) rfl (.tok (k := .Identifier) rfl (Lang.zeroOrMore (b := _)
      (w₁ := [mk .comma, ⟨.identifier, "B"⟩]) (w₂ := [mk .rParen])
      (o₁ := visitSingle .Identifier ⟨.identifier, "B"⟩) (o₂ := [])
      (.repCons (w₂ := []) (o₂ := []) (.tok (k := .Comma) rfl (.tok (k := .Identifier) rfl .nil))
        .repNil)
      (.tok (k := .RParen) rfl .nil)))) rfl ⟨mk .eod, [], rfl, rfl⟩

/-- A parenthesis is lost in `private(A`: there is a diagnostic. -/
example : Rejects (flatten idList) [mk .lParen, ⟨.identifier, "A"⟩, mk .eod] 0 (mk .eod) [] := by
  exact ⟨⟨6, 2, mk .eod, [], [], visitSingle .Identifier ⟨.identifier, "A"⟩⟩,
    finishes_reject ⟨40, by decide +kernel⟩, rfl, rfl⟩

/-! ### Prototypes which are not supported

There are no such prototypes in TSAR now. -/

/-- `OneOf<One<OneOf<Comma, Colon>>, One<LParen>>`. -/
def nestedOne : Exprs := E [oneOf [one [oneOf [t .Comma, t .Colon]], one [t .LParen]]]

/-- `EK_OneOf` inside `EK_One`: an alternative which matches is not tried and a diagnostic is
emitted although `(` belongs to the language (ClauseVisitor.h:290-295). -/
theorem visit_complete_fails : deterministic .seq nestedOne nameOrEod = true ∧
    Lang .seq nestedOne [mk .lParen] [mk .lBrace, mk .rBrace] ∧
    Rejects (flatten nestedOne) [mk .lParen, mk .eod] 0 (mk .eod) [] := by
  refine ⟨by decide +kernel, ?_, ⟨6, 0, mk .eod, [], [], [mk .lBrace]⟩,
    finishes_reject ⟨40, by decide +kernel⟩, rfl, rfl⟩
  exact Lang.oneOf (w₁ := [mk .lParen]) (w₂ := []) (o₁ := [mk .lBrace, mk .rBrace]) (o₂ := [])
    (.altBlockLater (.altBlock (Lang.one (w₁ := [mk .lParen]) (w₂ := []) (o₁ := []) (o₂ := [])
      (.tok (k := .LParen) rfl .nil) .nil))) .nil

/-- `ZeroOrMore<ZeroOrOne<Comma>>`. -/
def emptyRep : Exprs := E [zm [zo [t .Comma]]]

/-- If a body of a repetition may be empty then the visitor does not terminate. -/
theorem visit_total_fails (n : Nat) : ∀ s,
    visitBody (flatten emptyRep) [mk .eod] 0 (mk .eod) [] n ≠ .accept s ∧
    visitBody (flatten emptyRep) [mk .eod] 0 (mk .eod) [] n ≠ .reject s := by
  let P := flatten emptyRep
  let toks := [mk .eod]
  let at5 := steps P toks 5 (.run ⟨0, 0, mk .eod, [], [0], []⟩)
  have hc : steps P toks 4 at5 = at5 := by decide +kernel
  have hper : ∀ k, steps P toks (4 * k) at5 = at5 := by
    intro k
    induction k with
    | zero => rfl
    | succ k ih => rw [Nat.mul_succ, steps_add, ih, hc]
  have key : ∀ r, r < 9 → ∀ s, visitBody P toks 0 (mk .eod) [] r ≠ .accept s ∧
      visitBody P toks 0 (mk .eod) [] r ≠ .reject s := by
    intro r hr s
    match r, hr with
    | 0, _ | 1, _ | 2, _ | 3, _ | 4, _ | 5, _ | 6, _ | 7, _ | 8, _ => exact ⟨nofun, nofun⟩
  intro s
  by_cases hn : n < 9
  · exact key n hn s
  · have : n = 5 + (4 * ((n - 5) / 4) + (n - 5) % 4) := by omega
    have e : visitBody P toks 0 (mk .eod) [] n = visitBody P toks 0 (mk .eod) [] (5 + (n - 5) % 4) := by
      rw [this, visitBody, steps_add, steps_add]
      change steps P toks ((n - 5) % 4) (steps P toks (4 * ((n - 5) / 4)) at5) = _
      rw [hper, visitBody, ← this, steps_add]
    change visitBody P toks 0 (mk .eod) [] n ≠ _ ∧ visitBody P toks 0 (mk .eod) [] n ≠ _
    rw [e]
    exact key _ (by omega) s

end Tsar.Directives
