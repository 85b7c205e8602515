/-
The visitor of clauses behaves as a recognizer with ordered choices: auxiliary
relation `Parse` and the simulation of this relation by the visitor.
-/
import Verif.Directives.Spec
import Verif.Directives.Props

namespace Tsar.Directives

/-- Adds tokens to the beginning of a replacement. -/
def addOut (o : List Token) (r : Option (List Token × List Token)) :
    Option (List Token × List Token) :=
  r.map (fun p => (p.1, o ++ p.2))

/-- Is the head of a list a token of a specified kind? -/
def headIs (k : TokKind) : List Token → Prop
  | [] => False
  | tk :: _ => tk.kind = k

/-- `Parse m es ts r`: greedy processing of tokens `ts` without reconsideration
of decisions. The result is `none` if processing fails, otherwise the result is
the remaining tokens and the replacement. -/
inductive Parse : Mode → Exprs → List Token → Option (List Token × List Token) → Prop
  | nil {ts} : Parse .seq .nil ts (some (ts, []))
  | tokNo {k r ts} : ¬headIs (getTokenKind k) ts → Parse .seq (.tok k r) ts none
  | tokYes {k r tk ts o} : tk.kind = getTokenKind k → Parse .seq r ts o →
      Parse .seq (.tok k r) (tk :: ts) (addOut (visitSingle k tk) o)
  | zoNo {b r ts o} : Parse .seq b ts none → Parse .seq r ts o →
      Parse .seq (.block .ZeroOrOne b r) ts o
  | zoYes {b r ts ts' out o} : Parse .seq b ts (some (ts', out)) → Parse .seq r ts' o →
      Parse .seq (.block .ZeroOrOne b r) ts (addOut out o)
  | zm {b r ts ts' out o} : Parse .rep b ts (some (ts', out)) → Parse .seq r ts' o →
      Parse .seq (.block .ZeroOrMore b r) ts (addOut out o)
  | omNo {b r ts} : Parse .seq b ts none → Parse .seq (.block .OneOrMore b r) ts none
  | omYes {b r ts ts₀ ts' out₀ out o} : Parse .seq b ts (some (ts₀, out₀)) →
      Parse .rep b ts₀ (some (ts', out)) → Parse .seq r ts' o →
      Parse .seq (.block .OneOrMore b r) ts (addOut out₀ (addOut out o))
  | oneNo {b r ts} : Parse .seq b ts none → Parse .seq (.block .One b r) ts none
  | oneYes {b r ts ts' out o} : Parse .seq b ts (some (ts', out)) → Parse .seq r ts' o →
      Parse .seq (.block .One b r) ts (addOut (mk .lBrace :: (out ++ [mk .rBrace])) o)
  | oneOfNo {b r ts} : Parse .alt b ts none → Parse .seq (.block .OneOf b r) ts none
  | oneOfYes {b r ts ts' out o} : Parse .alt b ts (some (ts', out)) → Parse .seq r ts' o →
      Parse .seq (.block .OneOf b r) ts (addOut out o)
  | repNo {b ts} : Parse .seq b ts none → Parse .rep b ts (some (ts, []))
  | repYes {b ts ts' out o} : Parse .seq b ts (some (ts', out)) → Parse .rep b ts' o →
      Parse .rep b ts (addOut out o)
  | altNil {ts} : Parse .alt .nil ts none
  | altTokNo {k r ts o} : ¬headIs (getTokenKind k) ts → Parse .alt r ts o →
      Parse .alt (.tok k r) ts o
  | altTokYes {k r tk ts} : tk.kind = getTokenKind k →
      Parse .alt (.tok k r) (tk :: ts) (some (ts, visitSingle k tk))
  | altOneNo {b r ts o} : Parse .seq b ts none → Parse .alt r ts o →
      Parse .alt (.block .One b r) ts o
  | altOneYes {b r ts ts' out} : Parse .seq b ts (some (ts', out)) →
      Parse .alt (.block .One b r) ts (some (ts', mk .lBrace :: (out ++ [mk .rBrace])))

/-! ### Soundness -/

theorem parse_sound {m es ts o} (h : Parse m es ts o) :
    ∀ rest out, o = some (rest, out) → ∃ w, ts = w ++ rest ∧ Lang m es w out := by
  induction h with
  | nil => rintro _ _ ⟨⟩; exact ⟨[], rfl, .nil⟩
  | tokNo => rintro _ _ ⟨⟩
  | @tokYes k r tk ts o hk _ ih =>
    intro rest out ho
    cases o with
    | none => cases ho
    | some p =>
      obtain ⟨rest', out'⟩ := p
      simp only [addOut, Option.map_some, Option.some.injEq, Prod.mk.injEq] at ho
      obtain ⟨rfl, rfl⟩ := ho
      obtain ⟨w, rfl, hw⟩ := ih _ _ rfl
      exact ⟨_, rfl, .tok hk hw⟩
  | zoNo _ _ _ ih =>
    intro rest out ho
    obtain ⟨w, rfl, hw⟩ := ih _ _ ho
    exact ⟨w, rfl, .zeroOrOneNo hw⟩
  | @zoYes b r ts ts' out' o _ _ ih1 ih2 =>
    intro rest out ho
    obtain ⟨w1, rfl, hw1⟩ := ih1 _ _ rfl
    cases o with
    | none => cases ho
    | some p =>
      simp only [addOut, Option.map_some, Option.some.injEq, Prod.mk.injEq] at ho
      obtain ⟨rfl, rfl⟩ := ho
      obtain ⟨w2, rfl, hw2⟩ := ih2 _ _ rfl
      exact ⟨w1 ++ w2, by simp, .zeroOrOneYes hw1 hw2⟩
  | @zm b r ts ts' out' o _ _ ih1 ih2 =>
    intro rest out ho
    obtain ⟨w1, rfl, hw1⟩ := ih1 _ _ rfl
    cases o with
    | none => cases ho
    | some p =>
      simp only [addOut, Option.map_some, Option.some.injEq, Prod.mk.injEq] at ho
      obtain ⟨rfl, rfl⟩ := ho
      obtain ⟨w2, rfl, hw2⟩ := ih2 _ _ rfl
      exact ⟨w1 ++ w2, by simp, .zeroOrMore hw1 hw2⟩
  | omNo => rintro _ _ ⟨⟩
  | @omYes b r ts ts0 ts' out0 out' o _ _ _ ih0 ih1 ih2 =>
    intro rest out ho
    obtain ⟨w0, rfl, hw0⟩ := ih0 _ _ rfl
    obtain ⟨w1, rfl, hw1⟩ := ih1 _ _ rfl
    cases o with
    | none => cases ho
    | some p =>
      simp only [addOut, Option.map_some, Option.some.injEq, Prod.mk.injEq] at ho
      obtain ⟨rfl, rfl⟩ := ho
      obtain ⟨w2, rfl, hw2⟩ := ih2 _ _ rfl
      exact ⟨w0 ++ (w1 ++ w2), by simp, .oneOrMore hw0 hw1 hw2⟩
  | oneNo => rintro _ _ ⟨⟩
  | @oneYes b r ts ts' out' o _ _ ih1 ih2 =>
    intro rest out ho
    obtain ⟨w1, rfl, hw1⟩ := ih1 _ _ rfl
    cases o with
    | none => cases ho
    | some p =>
      simp only [addOut, Option.map_some, Option.some.injEq, Prod.mk.injEq] at ho
      obtain ⟨rfl, rfl⟩ := ho
      obtain ⟨w2, rfl, hw2⟩ := ih2 _ _ rfl
      refine ⟨w1 ++ w2, by simp, ?_⟩
      have := Lang.one hw1 hw2
      simpa using this
  | oneOfNo => rintro _ _ ⟨⟩
  | @oneOfYes b r ts ts' out' o _ _ ih1 ih2 =>
    intro rest out ho
    obtain ⟨w1, rfl, hw1⟩ := ih1 _ _ rfl
    cases o with
    | none => cases ho
    | some p =>
      simp only [addOut, Option.map_some, Option.some.injEq, Prod.mk.injEq] at ho
      obtain ⟨rfl, rfl⟩ := ho
      obtain ⟨w2, rfl, hw2⟩ := ih2 _ _ rfl
      exact ⟨w1 ++ w2, by simp, .oneOf hw1 hw2⟩
  | repNo => rintro _ _ ⟨⟩; exact ⟨[], rfl, .repNil⟩
  | @repYes b ts ts' out' o _ _ ih1 ih2 =>
    intro rest out ho
    obtain ⟨w1, rfl, hw1⟩ := ih1 _ _ rfl
    cases o with
    | none => cases ho
    | some p =>
      simp only [addOut, Option.map_some, Option.some.injEq, Prod.mk.injEq] at ho
      obtain ⟨rfl, rfl⟩ := ho
      obtain ⟨w2, rfl, hw2⟩ := ih2 _ _ rfl
      exact ⟨w1 ++ w2, by simp, .repCons hw1 hw2⟩
  | altNil => rintro _ _ ⟨⟩
  | altTokNo _ _ ih =>
    intro rest out ho
    obtain ⟨w, rfl, hw⟩ := ih _ _ ho
    exact ⟨w, rfl, .altTokLater hw⟩
  | @altTokYes k r tk ts hk => rintro _ _ ⟨⟩; exact ⟨[tk], rfl, .altTok hk⟩
  | altOneNo _ _ _ ih =>
    intro rest out ho
    obtain ⟨w, rfl, hw⟩ := ih _ _ ho
    exact ⟨w, rfl, .altBlockLater hw⟩
  | altOneYes _ ih =>
    rintro _ _ ⟨⟩
    obtain ⟨w, rfl, hw⟩ := ih _ _ rfl
    refine ⟨w, rfl, .altBlock ?_⟩
    have := Lang.one hw Lang.nil
    simpa using this

theorem getTokenKind_ne_eod (k : Single) : getTokenKind k ≠ .eod := by cases k <;> decide

theorem lang_no_eod {m es w out} (h : Lang m es w out) : ∀ tk ∈ w, tk.kind ≠ .eod := by
  induction h with
  | nil => simp
  | @tok k r tk w out hk _ ih =>
    intro x hx
    rcases List.mem_cons.1 hx with rfl | hx
    · rw [hk]; exact getTokenKind_ne_eod k
    · exact ih x hx
  | zeroOrOneNo _ ih => exact ih
  | zeroOrOneYes _ _ ih1 ih2 => intro x hx; exact (List.mem_append.1 hx).elim (ih1 x) (ih2 x)
  | zeroOrMore _ _ ih1 ih2 => intro x hx; exact (List.mem_append.1 hx).elim (ih1 x) (ih2 x)
  | oneOrMore _ _ _ ih0 ih1 ih2 =>
    intro x hx
    rcases List.mem_append.1 hx with h | h
    · exact ih0 x h
    · exact (List.mem_append.1 h).elim (ih1 x) (ih2 x)
  | one _ _ ih1 ih2 => intro x hx; exact (List.mem_append.1 hx).elim (ih1 x) (ih2 x)
  | oneOf _ _ ih1 ih2 => intro x hx; exact (List.mem_append.1 hx).elim (ih1 x) (ih2 x)
  | repNil => simp
  | repCons _ _ ih1 ih2 => intro x hx; exact (List.mem_append.1 hx).elim (ih1 x) (ih2 x)
  | @altTok k r tk hk =>
    intro x hx
    rw [List.mem_singleton.1 hx, hk]; exact getTokenKind_ne_eod k
  | altTokLater _ ih => exact ih
  | altBlock _ ih => exact ih
  | altBlockLater _ ih => exact ih

/-- There is the end of the directive in a list of tokens. -/
def HasEod (ts : List Token) : Prop := ∃ tk ∈ ts, tk.kind = .eod

theorem parse_hasEod {m es ts rest out} (h : Parse m es ts (some (rest, out)))
    (he : HasEod ts) : HasEod rest := by
  obtain ⟨w, rfl, hw⟩ := parse_sound h _ _ rfl
  obtain ⟨tk, hm, hk⟩ := he
  rcases List.mem_append.1 hm with hm | hm
  · exact absurd hk (lang_no_eod hw tk hm)
  · exact ⟨tk, hm, hk⟩

/-! ### Steps of the visitor -/

/-- The configuration `c'` is reachable from `c`. -/
def Reach (P : List EK) (toks : List Token) (c c' : Conf) : Prop := ∃ n, steps P toks n c = c'

theorem steps_add (P : List EK) (toks : List Token) (m n : Nat) (c : Conf) :
    steps P toks (m + n) c = steps P toks n (steps P toks m c) := by
  induction m generalizing c with
  | zero => simp [steps]
  | succ m ih => rw [Nat.succ_add]; simp only [steps]; exact ih _

theorem Reach.refl {P toks c} : Reach P toks c c := ⟨0, rfl⟩

theorem Reach.trans {P toks c c' c''} (h1 : Reach P toks c c') (h2 : Reach P toks c' c'') :
    Reach P toks c c'' := by
  obtain ⟨m, rfl⟩ := h1
  obtain ⟨n, rfl⟩ := h2
  exact ⟨m + n, steps_add _ _ _ _ _⟩

theorem Reach.head {P toks c c''} (h2 : Reach P toks (step P toks c) c'') : Reach P toks c c'' := by
  obtain ⟨n, hn⟩ := h2
  exact ⟨n + 1, hn⟩

theorem Reach.of_step {P toks c c'} (h : step P toks c = c') : Reach P toks c c' := ⟨1, h⟩

theorem get_mid {α} (pre post : List α) (a : α) : (pre ++ a :: post)[pre.length]? = some a := by
  rw [List.getElem?_append_right (Nat.le_refl _)]; simp

theorem get_mid' {α} {P pre post : List α} {a : α} {i : Nat} (h : P = pre ++ a :: post)
    (hi : i = pre.length) : P[i]? = some a := by
  subst h hi; exact get_mid _ _ _

theorem drop_pos {toks : List Token} {pos : Nat} {tk : Token} {ts : List Token}
    (h : toks.drop pos = tk :: ts) : toks[pos]? = some tk ∧ toks.drop (pos + 1) = ts := by
  constructor
  · have : (toks.drop pos)[0]? = some tk := by rw [h]; rfl
    rwa [List.getElem?_drop, Nat.add_zero] at this
  · rw [← List.drop_drop, h]; rfl

theorem skipToAnchor_flatten {P : List EK} (es : Exprs) (fuel : Nat) (pre post : List EK) (j : Nat)
    (hP : P = pre ++ (flatten es ++ .anchor :: post)) (hj : pre.length = j + 1)
    (hf : (flatten es).length < fuel) :
    skipToAnchor P fuel j = some (pre.length + (flatten es).length) := by
  induction es generalizing fuel pre j with
  | nil =>
    obtain ⟨fuel, rfl⟩ : ∃ k, fuel = k + 1 := ⟨fuel - 1, by omega⟩
    have hP' : P = pre ++ .anchor :: post := by simpa [flatten] using hP
    simp only [skipToAnchor]
    rw [get_mid' hP' hj.symm]
    simp only [isSingle, if_true]
    rw [← hj, hP', findAnchor_anchor]; simp [flatten]
  | tok k r _ =>
    obtain ⟨fuel, rfl⟩ : ∃ k, fuel = k + 1 := ⟨fuel - 1, by omega⟩
    have hP' : P = pre ++ .single k :: (flatten r ++ .anchor :: post) := by
      simpa [flatten] using hP
    simp only [skipToAnchor]
    rw [get_mid' hP' hj.symm]
    simp only [isSingle, if_true]
    rw [← hj, hP', findAnchor_single]; simp [flatten]; omega
  | block b body r _ ih2 =>
    obtain ⟨fuel, rfl⟩ : ∃ k, fuel = k + 1 := ⟨fuel - 1, by omega⟩
    have hP' : P = pre ++ .block b :: (flatten body ++ .anchor :: (flatten r ++ .anchor :: post)) := by
      simpa [flatten] using hP
    simp only [skipToAnchor]
    rw [get_mid' hP' hj.symm]
    simp only [isSingle, Bool.false_eq_true, if_false]
    have hfa : findAnchor P (j + 1) = some (pre.length + 1 + (flatten body).length) := by
      rw [← hj, hP', findAnchor_block]
    rw [hfa]
    simp only
    rw [ih2 fuel (pre ++ .block b :: (flatten body ++ [.anchor])) _ (by simp [hP'])
      (by simp; omega) (by simp [flatten] at hf; omega)]
    simp [flatten]; omega

/-! ### Simulation -/

/-- The visitor at the beginning of a sequence. -/
def SimSeq (P : List EK) (toks : List Token) (es : Exprs) (ts : List Token) :
    Option (List Token × List Token) → Prop
  | some (rest, out) => ∀ inOne pre post pos tok levels bts repl,
      P = pre ++ (flatten es ++ post) → toks.drop pos = ts → HasEod ts →
      supported .seq inOne es = true → topIsOneOf P levels = false →
      ∃ pos' tok', toks.drop pos' = rest ∧ pos ≤ pos' ∧
        Reach P toks (.run ⟨pre.length, pos, tok, levels, bts, repl⟩)
          (.run ⟨pre.length + (flatten es).length, pos', tok', levels, bts, repl ++ out⟩)
  | none => ∀ inOne pre post pos tok levels b bts repl,
      P = pre ++ (flatten es ++ post) → toks.drop pos = ts → HasEod ts →
      supported .seq inOne es = true → topIsOneOf P levels = false → b ≤ pos →
      (levels = [] ∧ ∃ s', Reach P toks (.run ⟨pre.length, pos, tok, levels, b :: bts, repl⟩)
          (.reject s') ∧ s'.levels = [] ∧ s'.bts = bts) ∨
      ∃ j pos' tok' junk pre' es', P = pre' ++ (flatten es' ++ post) ∧ pre'.length = j + 1 ∧
        (inOne = true → ∃ pre'' k, pre' = pre'' ++ [.single k]) ∧
        Reach P toks (.run ⟨pre.length, pos, tok, levels, b :: bts, repl⟩)
          (.fail ⟨j, pos', tok', levels, b :: bts, repl ++ junk⟩)

/-- The visitor at the beginning of an alternative. -/
def SimAlt (P : List EK) (toks : List Token) (es : Exprs) (ts : List Token)
    (o : Option (List Token × List Token)) : Prop :=
  ∀ pre post pos tok L ls bts repl,
    es ≠ .nil → P = pre ++ (flatten es ++ .anchor :: post) → toks.drop pos = ts → HasEod ts →
    supported .alt false es = true → levelKind P L = some .OneOf →
    findAnchor P L.ptr = some (pre.length + (flatten es).length) →
    topIsOneOf P ls = false → L.replIdx = repl.length →
    (∀ rest out, o = some (rest, out) → ∃ pos' tok', toks.drop pos' = rest ∧ pos ≤ pos' ∧
      Reach P toks (.run ⟨pre.length, pos, tok, L :: ls, pos :: bts, repl⟩)
        (.run ⟨pre.length + (flatten es).length + 1, pos', tok', ls, bts, repl ++ out⟩)) ∧
    (o = none → ∃ junk,
      Reach P toks (.run ⟨pre.length, pos, tok, L :: ls, pos :: bts, repl⟩)
        (.fail ⟨pre.length + (flatten es).length, pos, L.tok, ls, bts, repl ++ junk⟩))

/-- The visitor at the beginning of a body of a repetition. -/
def SimRep (P : List EK) (toks : List Token) (es : Exprs) (ts : List Token)
    (o : Option (List Token × List Token)) : Prop :=
  ∀ k pre post pos tok L ls bts repl,
    (k = .ZeroOrMore ∨ (k = .OneOrMore ∧ L.occ = true)) →
    P = pre ++ .block k :: (flatten es ++ .anchor :: post) → toks.drop pos = ts → HasEod ts →
    supported .seq false es = true → L.ptr = pre.length → L.replIdx = repl.length →
    ∃ rest out pos' tok', o = some (rest, out) ∧ toks.drop pos' = rest ∧ pos ≤ pos' ∧
      Reach P toks (.run ⟨pre.length + 1, pos, tok, L :: ls, pos :: bts, repl⟩)
        (.run ⟨pre.length + 1 + (flatten es).length + 1, pos', tok', ls, bts, repl ++ out⟩)

/-- Simulation in each mode. -/
def Sim (P : List EK) (toks : List Token) (m : Mode) (es : Exprs) (ts : List Token)
    (o : Option (List Token × List Token)) : Prop :=
  match m with
  | .seq => SimSeq P toks es ts o
  | .alt => SimAlt P toks es ts o
  | .rep => SimRep P toks es ts o

theorem levelKind_at {P : List EK} {L : Level} {b : Block} {pre post : List EK}
    (h : P = pre ++ .block b :: post) (hp : L.ptr = pre.length) : levelKind P L = some b := by
  unfold levelKind; rw [get_mid' h hp]

theorem hasEod_cons {tk ts} (h : HasEod (tk :: ts)) (hk : tk.kind ≠ .eod) : HasEod ts := by
  obtain ⟨x, hx, hxk⟩ := h
  rcases List.mem_cons.1 hx with rfl | hx
  · exact absurd hxk hk
  · exact ⟨x, hx, hxk⟩

theorem hasEod_ne_nil {ts} (h : HasEod ts) : ∃ tk ts', ts = tk :: ts' := by
  obtain ⟨x, hx, -⟩ := h
  cases ts with
  | nil => simp at hx
  | cons a l => exact ⟨a, l, rfl⟩

theorem popOneOf_stop {P : List EK} {ls : List Level} {bts : List Nat} (i : Nat)
    (h : topIsOneOf P ls = false) : popOneOf P i ls bts = some (i, ls, bts) := by
  cases ls with
  | nil => rfl
  | cons L ls =>
    have : levelKind P L ≠ some .OneOf := by simpa [topIsOneOf] using h
    simp [popOneOf, this]

/-- Entering of a block. -/
theorem step_block {P : List EK} {toks : List Token} {pre post : List EK} {b : Block}
    {pos tok levels bts repl} (h : P = pre ++ .block b :: post) :
    step P toks (.run ⟨pre.length, pos, tok, levels, bts, repl⟩) =
      .run ⟨pre.length + 1, pos, tok, ⟨pre.length, false, repl.length, tok⟩ :: levels, pos :: bts,
        if b = .One then repl ++ [mk .lBrace] else repl⟩ := by
  simp only [step, stepRun]
  rw [get_mid' h rfl]

/-- Failure at a single token. -/
theorem step_single_no {P : List EK} {toks : List Token} {pre post : List EK} {k : Single}
    {pos tok levels bts repl tk} (h : P = pre ++ .single k :: post) (ht : toks[pos]? = some tk)
    (hk : tk.kind ≠ getTokenKind k) (hl : ¬(levels = [] ∧ tk.kind = .eod)) :
    step P toks (.run ⟨pre.length, pos, tok, levels, bts, repl⟩) =
      .fail ⟨pre.length, pos + 1, tk, levels, bts, repl⟩ := by
  simp only [step, stepRun]
  rw [get_mid' h rfl]
  simp only [lex, ht]
  rw [if_neg hk, if_neg hl]

theorem step_single_eod {P : List EK} {toks : List Token} {pre post : List EK} {k : Single}
    {pos tok b bts repl tk} (h : P = pre ++ .single k :: post) (ht : toks[pos]? = some tk)
    (hk : tk.kind ≠ getTokenKind k) (hl : tk.kind = .eod) (hb : b ≤ pos) :
    step P toks (.run ⟨pre.length, pos, tok, [], b :: bts, repl⟩) =
      .reject ⟨pre.length, pos, tk, [], bts, repl⟩ := by
  simp only [step, stepRun]
  rw [get_mid' h rfl]
  simp only [lex, ht]
  rw [if_neg hk, if_pos ⟨trivial, hl⟩, if_pos (by omega)]
  rfl

theorem step_single_yes {P : List EK} {toks : List Token} {pre post : List EK} {k : Single}
    {pos tok levels bts repl tk} (h : P = pre ++ .single k :: post) (ht : toks[pos]? = some tk)
    (hk : tk.kind = getTokenKind k) (hl : topIsOneOf P levels = false) :
    step P toks (.run ⟨pre.length, pos, tok, levels, bts, repl⟩) =
      .run ⟨pre.length + 1, pos + 1, tk, levels, bts, repl ++ visitSingle k tk⟩ := by
  simp only [step, stepRun]
  rw [get_mid' h rfl]
  simp only [lex, ht]
  rw [if_pos hk, if_neg (by simp [hl])]

theorem step_single_oneOf {P : List EK} {toks : List Token} {pre post : List EK} {k : Single}
    {pos tok levels bts repl tk a} (h : P = pre ++ .single k :: post) (ht : toks[pos]? = some tk)
    (hk : tk.kind = getTokenKind k) (hl : topIsOneOf P levels = true)
    (ha : findAnchor P pre.length = some a) :
    step P toks (.run ⟨pre.length, pos, tok, levels, bts, repl⟩) =
      .run ⟨a, pos + 1, tk, levels, bts, repl ++ visitSingle k tk⟩ := by
  simp only [step, stepRun]
  rw [get_mid' h rfl]
  simp only [lex, ht]
  rw [if_pos hk, if_pos hl, ha]

/-- The end of a repetition. -/
theorem step_anchor_rep {P : List EK} {toks : List Token} {i pos tok L ls p bts repl}
    (h : P[i]? = some .anchor)
    (hk : levelKind P L = some .ZeroOrMore ∨ levelKind P L = some .OneOrMore) :
    step P toks (.run ⟨i, pos, tok, L :: ls, p :: bts, repl⟩) =
      .run ⟨L.ptr + 1, pos, tok, { L with occ := true, replIdx := repl.length } :: ls,
        pos :: bts, repl⟩ := by
  simp only [step, stepRun, h, stepAnchor]
  rcases hk with hk | hk <;> simp only [hk]

/-- The end of `ZeroOrOne` or `One` or `OneOf` which is not inside `OneOf`. -/
theorem step_anchor_one {P : List EK} {toks : List Token} {i pos tok L ls p bts repl b}
    (h : P[i]? = some .anchor) (hk : levelKind P L = some b)
    (hb : b = .ZeroOrOne ∨ b = .One ∨ b = .OneOf)
    (hl : topIsOneOf P ls = false) :
    step P toks (.run ⟨i, pos, tok, L :: ls, p :: bts, repl⟩) =
      .run ⟨i + 1, pos, tok, ls, bts, if b = .One then repl ++ [mk .rBrace] else repl⟩ := by
  simp only [step, stepRun, h, stepAnchor]
  rcases hb with rfl | rfl | rfl <;> simp [hk, popOneOf_stop i hl]

/-- The end of `One` which is an alternative. -/
theorem step_anchor_alt {P : List EK} {toks : List Token} {i pos tok L L' ls p p' bts repl a}
    (h : P[i]? = some .anchor) (hk : levelKind P L = some .One)
    (hk' : levelKind P L' = some .OneOf) (ha : findAnchor P L'.ptr = some a)
    (hl : topIsOneOf P ls = false) :
    step P toks (.run ⟨i, pos, tok, L :: L' :: ls, p :: p' :: bts, repl⟩) =
      .run ⟨a + 1, pos, tok, ls, bts, repl ++ [mk .rBrace]⟩ := by
  simp only [step, stepRun, h, stepAnchor]
  simp [hk, popOneOf, hk', ha, popOneOf_stop a hl]

/-- A failure leaves `ZeroOrOne` and a repetition which has occurred. -/
theorem step_fail_skip {P : List EK} {toks : List Token} {pre' post : List EK} {es' : Exprs}
    {j pos tok L ls b bts repl}
    (hP : P = pre' ++ (flatten es' ++ .anchor :: post)) (hj : pre'.length = j + 1)
    (hk : levelKind P L = some .ZeroOrMore ∨ levelKind P L = some .ZeroOrOne ∨
      (levelKind P L = some .OneOrMore ∧ L.occ = true)) :
    step P toks (.fail ⟨j, pos, tok, L :: ls, b :: bts, repl⟩) =
      .run ⟨pre'.length + (flatten es').length + 1, b, L.tok, ls, bts, repl.take L.replIdx⟩ := by
  have hs := skipToAnchor_flatten es' (P.length + 1) pre' post j hP hj (by simp [hP]; omega)
  simp only [step, stepFail]
  rcases hk with hk | hk | ⟨hk, ho⟩
  · simp only [hk, hs]
  · simp only [hk, hs]
  · simp only [hk, hs, ho, if_true]

theorem step_fail_om {P : List EK} {toks : List Token} {pre' post : List EK} {es' : Exprs}
    {j pos tok L ls b bts repl}
    (hP : P = pre' ++ (flatten es' ++ .anchor :: post)) (hj : pre'.length = j + 1)
    (hk : levelKind P L = some .OneOrMore) (ho : L.occ = false) :
    step P toks (.fail ⟨j, pos, tok, L :: ls, b :: bts, repl⟩) =
      .fail ⟨pre'.length + (flatten es').length, b, L.tok, ls, bts, repl⟩ := by
  have hs := skipToAnchor_flatten es' (P.length + 1) pre' post j hP hj (by simp [hP]; omega)
  simp only [step, stepFail, hk, hs, ho, Bool.false_eq_true, if_false]

theorem step_fail_one {P : List EK} {toks : List Token} {pre'' post : List EK} {es' : Exprs}
    {k : Single} {pos tok L ls b bts repl}
    (hP : P = pre'' ++ .single k :: (flatten es' ++ .anchor :: post))
    (hk : levelKind P L = some .One) :
    step P toks (.fail ⟨pre''.length, pos, tok, L :: ls, b :: bts, repl⟩) =
      .fail ⟨pre''.length + 1 + (flatten es').length, b, L.tok, ls, bts, repl⟩ := by
  have hs : findAnchor P pre''.length = some (pre''.length + 1 + (flatten es').length) := by
    rw [hP, findAnchor_single]
  simp only [step, stepFail, hk, hs]

theorem step_fail_last {P : List EK} {toks : List Token} {i pos tok L ls b bts repl}
    (h : P[i + 1]? = some .anchor) (hk : levelKind P L = some .OneOf) :
    step P toks (.fail ⟨i, pos, tok, L :: ls, b :: bts, repl⟩) =
      .fail ⟨i + 1, b, L.tok, ls, bts, repl⟩ := by
  simp only [step, stepFail, hk, h]

theorem step_fail_next {P : List EK} {toks : List Token} {i pos tok L ls b bts repl e}
    (h : P[i + 1]? = some e) (he : e ≠ .anchor) (hk : levelKind P L = some .OneOf) :
    step P toks (.fail ⟨i, pos, tok, L :: ls, b :: bts, repl⟩) =
      .run ⟨i + 1, b, tok, L :: ls, b :: bts, repl.take L.replIdx⟩ := by
  simp only [step, stepFail, hk, h]

theorem addOut_nil (o : Option (List Token × List Token)) : addOut [] o = o := by
  cases o <;> simp [addOut]

/-- The beginning of a sequence is processed and then the rest of the sequence
is processed. -/
theorem sim_cont {P : List EK} {toks : List Token} {es r : Exprs} {ts ts' out₁ : List Token}
    {o : Option (List Token × List Token)} (X : List EK)
    (hfl : flatten es = X ++ flatten r)
    (hsup : ∀ inOne, supported .seq inOne es = true → supported .seq inOne r = true)
    (heod : HasEod ts → HasEod ts')
    (hstart : ∀ inOne pre post pos tok levels bts repl, P = pre ++ (X ++ post) →
      toks.drop pos = ts → HasEod ts → supported .seq inOne es = true →
      topIsOneOf P levels = false →
      ∃ pos' tok', toks.drop pos' = ts' ∧ pos ≤ pos' ∧
        Reach P toks (.run ⟨pre.length, pos, tok, levels, bts, repl⟩)
          (.run ⟨pre.length + X.length, pos', tok', levels, bts, repl ++ out₁⟩))
    (ihr : SimSeq P toks r ts' o) : SimSeq P toks es ts (addOut out₁ o) := by
  cases o with
  | some p =>
    obtain ⟨rest, out⟩ := p
    intro inOne pre post pos tok levels bts repl hP hts he hs htop
    rw [hfl, List.append_assoc] at hP
    obtain ⟨pos₁, tok₁, h1, h2, h3⟩ := hstart inOne pre _ pos tok levels bts repl hP hts he hs htop
    obtain ⟨pos', tok', h4, h5, h6⟩ := ihr inOne (pre ++ X) post pos₁ tok₁ levels bts
      (repl ++ out₁) (by simp [hP]) h1 (heod he) (hsup _ hs) htop
    refine ⟨pos', tok', h4, by omega, h3.trans ?_⟩
    simpa [hfl, Nat.add_assoc] using h6
  | none =>
    intro inOne pre post pos tok levels b bts repl hP hts he hs htop hb
    rw [hfl, List.append_assoc] at hP
    obtain ⟨pos₁, tok₁, h1, h2, h3⟩ := hstart inOne pre _ pos tok levels (b :: bts) repl hP hts he hs htop
    have := ihr inOne (pre ++ X) post pos₁ tok₁ levels b bts
      (repl ++ out₁) (by simp [hP]) h1 (heod he) (hsup _ hs) htop (by omega)
    rw [List.length_append] at this
    rcases this with ⟨h4, s', h5, h6⟩ | ⟨j, pos', tok', junk, pre', es', h4, h5, h6, h7⟩
    · exact .inl ⟨h4, s', h3.trans h5, h6⟩
    · refine .inr ⟨j, pos', tok', out₁ ++ junk, pre', es', h4, h5, h6, h3.trans ?_⟩
      rw [← List.append_assoc]; exact h7

theorem topIsOneOf_cons {P : List EK} {L : Level} {ls : List Level} {b : Block}
    (h : levelKind P L = some b) (hb : b ≠ .OneOf) : topIsOneOf P (L :: ls) = false := by
  simp [topIsOneOf, h, hb]

/-- A body of a block is not recognized: the visitor enters this block, stops
at some token of the body and is going to process the level of the block. -/
theorem sim_body_fail {P : List EK} {toks : List Token} {b : Block} {body : Exprs}
    {ts : List Token} {inOne : Bool} {pre post : List EK} {pos : Nat} {tok : Token}
    {levels : List Level} {bts : List Nat} {repl : List Token}
    (ih : SimSeq P toks body ts none) (hb : b ≠ .OneOf)
    (hP : P = pre ++ .block b :: (flatten body ++ .anchor :: post)) (hts : toks.drop pos = ts)
    (he : HasEod ts) (hs : supported .seq inOne body = true) :
    ∃ j pos' tok' junk pre' es', P = pre' ++ (flatten es' ++ .anchor :: post) ∧
      pre'.length = j + 1 ∧ (inOne = true → ∃ pre'' k, pre' = pre'' ++ [.single k]) ∧
      pre'.length + (flatten es').length = pre.length + 1 + (flatten body).length ∧
      Reach P toks (.run ⟨pre.length, pos, tok, levels, bts, repl⟩)
        (.fail ⟨j, pos', tok', ⟨pre.length, false, repl.length, tok⟩ :: levels, pos :: bts,
          repl ++ junk⟩) := by
  have hk : levelKind P ⟨pre.length, false, repl.length, tok⟩ = some b := levelKind_at hP rfl
  have := ih inOne (pre ++ [.block b]) (.anchor :: post) pos tok
    (⟨pre.length, false, repl.length, tok⟩ :: levels) pos bts
    (if b = .One then repl ++ [mk .lBrace] else repl) (by simp [hP]) hts he hs
    (topIsOneOf_cons hk hb) (Nat.le_refl _)
  rw [List.length_append, List.length_singleton] at this
  rcases this with ⟨h, -⟩ | ⟨j, pos', tok', junk, pre', es', h4, h5, h6, h7⟩
  · cases h
  · refine ⟨j, pos', tok', (if b = .One then [mk .lBrace] else []) ++ junk, pre', es', h4, h5, h6,
      ?_, .head ?_⟩
    · have := congrArg List.length (hP.symm.trans h4)
      simp at this; omega
    · rw [step_block hP]
      rw [show repl ++ ((if b = .One then [mk .lBrace] else []) ++ junk) =
        (if b = .One then repl ++ [mk .lBrace] else repl) ++ junk by split <;> simp]
      exact h7

/-- A body of a block is recognized: the visitor enters this block and reaches
its anchor. -/
theorem sim_body_ok {P : List EK} {toks : List Token} {b : Block} {body : Exprs}
    {ts rest out : List Token} {inOne : Bool} {pre post : List EK} {pos : Nat} {tok : Token}
    {levels : List Level} {bts : List Nat} {repl : List Token}
    (ih : SimSeq P toks body ts (some (rest, out))) (hb : b ≠ .OneOf)
    (hP : P = pre ++ .block b :: (flatten body ++ .anchor :: post)) (hts : toks.drop pos = ts)
    (he : HasEod ts) (hs : supported .seq inOne body = true) :
    ∃ pos' tok', toks.drop pos' = rest ∧ pos ≤ pos' ∧
      Reach P toks (.run ⟨pre.length, pos, tok, levels, bts, repl⟩)
        (.run ⟨pre.length + 1 + (flatten body).length, pos', tok',
          ⟨pre.length, false, repl.length, tok⟩ :: levels, pos :: bts,
          (if b = .One then repl ++ [mk .lBrace] else repl) ++ out⟩) := by
  have hk : levelKind P ⟨pre.length, false, repl.length, tok⟩ = some b := levelKind_at hP rfl
  obtain ⟨pos', tok', h1, h2, h3⟩ := ih inOne (pre ++ [.block b]) (.anchor :: post) pos tok
    (⟨pre.length, false, repl.length, tok⟩ :: levels) (pos :: bts)
    (if b = .One then repl ++ [mk .lBrace] else repl) (by simp [hP]) hts he hs
    (topIsOneOf_cons hk hb)
  refine ⟨pos', tok', h1, h2, .head ?_⟩
  rw [step_block hP]
  simpa using h3

theorem anchor_at {P : List EK} {b : Block} {body : Exprs} {pre post : List EK}
    (hP : P = pre ++ .block b :: (flatten body ++ .anchor :: post)) :
    P[pre.length + 1 + (flatten body).length]? = some .anchor :=
  get_mid' (pre := pre ++ .block b :: flatten body) (post := post) (by rw [hP]; simp)
    (by simp; omega)

/-- An alternative is not recognized: the next alternatives are tried. -/
theorem alt_next {P : List EK} {toks : List Token} {r : Exprs} {ts : List Token}
    {o : Option (List Token × List Token)} {pre post : List EK} {a pos pos' : Nat} {tok : Token}
    {L : Level} {ls : List Level} {bts : List Nat} {repl junk : List Token}
    (hp : Parse .alt r ts o) (ih : SimAlt P toks r ts o)
    (hP : P = pre ++ (flatten r ++ .anchor :: post)) (ha : pre.length = a + 1)
    (hts : toks.drop pos = ts) (he : HasEod ts) (hs : supported .alt false r = true)
    (hlk : levelKind P L = some .OneOf)
    (hfa : findAnchor P L.ptr = some (pre.length + (flatten r).length))
    (htop : topIsOneOf P ls = false) (hidx : L.replIdx = repl.length) :
    (∀ rest out, o = some (rest, out) → ∃ pos'' tok', toks.drop pos'' = rest ∧ pos ≤ pos'' ∧
      Reach P toks (.fail ⟨a, pos', tok, L :: ls, pos :: bts, repl ++ junk⟩)
        (.run ⟨pre.length + (flatten r).length + 1, pos'', tok', ls, bts, repl ++ out⟩)) ∧
    (o = none → ∃ junk',
      Reach P toks (.fail ⟨a, pos', tok, L :: ls, pos :: bts, repl ++ junk⟩)
        (.fail ⟨pre.length + (flatten r).length, pos, L.tok, ls, bts, repl ++ junk'⟩)) := by
  have hnext : ∀ e, P[a + 1]? = some e → e ≠ .anchor →
      step P toks (.fail ⟨a, pos', tok, L :: ls, pos :: bts, repl ++ junk⟩) =
        .run ⟨pre.length, pos, tok, L :: ls, pos :: bts, repl⟩ := by
    intro e h1 h2
    rw [step_fail_next h1 h2 hlk, hidx, List.take_left', ha]; rfl
  by_cases hr : r = .nil
  · subst hr
    cases hp
    refine ⟨fun _ _ h => (by cases h), fun _ => ⟨junk, .of_step ?_⟩⟩
    rw [step_fail_last (get_mid' (post := post) (by rw [hP]; simp [flatten]) ha.symm) hlk]
    simp [flatten, ha]
  · have hsome : ∃ e, P[a + 1]? = some e ∧ e ≠ .anchor := by
      cases r with
      | nil => exact absurd rfl hr
      | tok k r' =>
        exact ⟨.single k, get_mid' (by rw [hP]; simp [flatten]; rfl) ha.symm, by simp⟩
      | block b body r' =>
        exact ⟨.block b, get_mid' (by rw [hP]; simp [flatten]; rfl) ha.symm, by simp⟩
    obtain ⟨e, h1, h2⟩ := hsome
    have := ih pre post pos tok L ls bts repl hr hP hts he hs hlk hfa htop hidx
    refine ⟨fun rest out ho => ?_, fun ho => ?_⟩
    · obtain ⟨pos'', tok', h4, h5, h6⟩ := this.1 rest out ho
      refine ⟨pos'', tok', h4, h5, .head ?_⟩
      rw [hnext e h1 h2]; exact h6
    · obtain ⟨junk', h4⟩ := this.2 ho
      refine ⟨junk', .head ?_⟩
      rw [hnext e h1 h2]; exact h4


/-- The visitor simulates `Parse`. -/
theorem simulation (P : List EK) (toks : List Token) {m es ts o} (h : Parse m es ts o) :
    Sim P toks m es ts o := by
  induction h with
  | @nil ts =>
    intro inOne pre post pos tok levels bts repl hP hts _ _ _
    exact ⟨pos, tok, hts, Nat.le_refl _, by simpa [flatten] using Reach.refl⟩
  | @tokNo k r ts hk =>
    intro inOne pre post pos tok levels b bts repl hP hts heod hsup htop hb
    obtain ⟨tk, ts', rfl⟩ := hasEod_ne_nil heod
    have ht := (drop_pos hts).1
    have hP' : P = pre ++ .single k :: (flatten r ++ post) := by simpa [flatten] using hP
    by_cases hl : levels = [] ∧ tk.kind = .eod
    · left
      obtain ⟨rfl, hl⟩ := hl
      exact ⟨rfl, _, .of_step (step_single_eod hP' ht hk hl hb), rfl, rfl⟩
    · right
      refine ⟨pre.length, pos + 1, tk, [], pre ++ [.single k], r, by simp [hP'], by simp,
        fun _ => ⟨pre, k, rfl⟩, ?_⟩
      rw [List.append_nil]
      exact .of_step (step_single_no hP' ht hk hl)
  | @tokYes k r tk ts o hk _ ih =>
    cases o with
    | some p =>
      obtain ⟨rest, out⟩ := p
      intro inOne pre post pos tok levels bts repl hP hts heod hsup htop
      have hP' : P = pre ++ .single k :: (flatten r ++ post) := by simpa [flatten] using hP
      have ht := drop_pos hts
      obtain ⟨pos', tok', h1, h2, h3⟩ := ih inOne (pre ++ [.single k]) post (pos + 1) tk levels bts
        (repl ++ visitSingle k tk) (by simp [hP']) ht.2
        (hasEod_cons heod (by rw [hk]; exact getTokenKind_ne_eod k)) (by simpa [supported] using hsup) htop
      refine ⟨pos', tok', h1, by omega, .head ?_⟩
      rw [step_single_yes hP' ht.1 hk htop]
      simpa [flatten, Nat.add_assoc, Nat.add_comm, Nat.add_left_comm] using h3
    | none =>
      intro inOne pre post pos tok levels b bts repl hP hts heod hsup htop hb
      have hP' : P = pre ++ .single k :: (flatten r ++ post) := by simpa [flatten] using hP
      have ht := drop_pos hts
      have := ih inOne (pre ++ [.single k]) post (pos + 1) tk levels b bts
        (repl ++ visitSingle k tk) (by simp [hP']) ht.2
        (hasEod_cons heod (by rw [hk]; exact getTokenKind_ne_eod k)) (by simpa [supported] using hsup) htop
        (by omega)
      rw [List.length_append, List.length_singleton] at this
      rcases this with ⟨h1, s', h2, h3⟩ | ⟨j, pos', tok', junk, pre', es', h1, h2, h3, h4⟩
      · left
        refine ⟨h1, s', .head ?_, h3⟩
        rw [step_single_yes hP' ht.1 hk htop]; exact h2
      · right
        refine ⟨j, pos', tok', visitSingle k tk ++ junk, pre', es', h1, h2, h3, .head ?_⟩
        rw [step_single_yes hP' ht.1 hk htop, ← List.append_assoc]; exact h4
  | @zoNo b r ts o _ _ ih1 ih2 =>
    rw [← addOut_nil o]
    refine sim_cont (.block .ZeroOrOne :: (flatten b ++ [.anchor])) (by simp [flatten])
      (fun inOne h => by simp [supported] at h; exact h.2) (fun h => h) ?_ ih2
    intro inOne pre post pos tok levels bts repl hP hts he hs _
    have hP' : P = pre ++ .block .ZeroOrOne :: (flatten b ++ .anchor :: post) := by simpa using hP
    have hs' : supported .seq false b = true := by simp [supported] at hs; exact hs.1
    obtain ⟨j, pos', tok', junk, pre', es', h1, h2, -, h3, h4⟩ :=
      sim_body_fail (tok := tok) (levels := levels) (bts := bts) (repl := repl) ih1 (by decide)
        hP' hts he hs'
    refine ⟨pos, tok, hts, Nat.le_refl _, h4.trans (.of_step ?_)⟩
    rw [step_fail_skip h1 h2 (.inr (.inl (levelKind_at hP' rfl)))]
    simp [h3]; omega
  | @zoYes b r ts ts' out o hp1 _ ih1 ih2 =>
    refine sim_cont (.block .ZeroOrOne :: (flatten b ++ [.anchor])) (by simp [flatten])
      (fun inOne h => by simp [supported] at h; exact h.2) (parse_hasEod hp1) ?_ ih2
    intro inOne pre post pos tok levels bts repl hP hts he hs htop
    have hP' : P = pre ++ .block .ZeroOrOne :: (flatten b ++ .anchor :: post) := by simpa using hP
    have hs' : supported .seq false b = true := by simp [supported] at hs; exact hs.1
    obtain ⟨pos', tok', h1, h2, h3⟩ :=
      sim_body_ok (tok := tok) (levels := levels) (bts := bts) (repl := repl) ih1 (by decide)
        hP' hts he hs'
    refine ⟨pos', tok', h1, h2, h3.trans (.of_step ?_)⟩
    rw [step_anchor_one (anchor_at hP') (levelKind_at hP' rfl) (.inl rfl) htop]
    simp; omega
  | @zm b r ts ts' out o hp1 _ ih1 ih2 =>
    refine sim_cont (.block .ZeroOrMore :: (flatten b ++ [.anchor])) (by simp [flatten])
      (fun inOne h => by simp [supported] at h; exact h.2) (parse_hasEod hp1) ?_ ih2
    intro inOne pre post pos tok levels bts repl hP hts he hs htop
    have hP' : P = pre ++ .block .ZeroOrMore :: (flatten b ++ .anchor :: post) := by simpa using hP
    have hs' : supported .seq false b = true := by simp [supported] at hs; exact hs.1.1
    obtain ⟨rest, out', pos', tok', ho, h1, h2, h3⟩ := ih1 .ZeroOrMore pre post pos tok
      ⟨pre.length, false, repl.length, tok⟩ levels bts repl (.inl rfl) hP' hts he hs' rfl rfl
    cases ho
    refine ⟨pos', tok', h1, h2, .head ?_⟩
    rw [step_block hP']
    simpa [Nat.add_assoc, Nat.add_comm, Nat.add_left_comm] using h3
  | @omNo b r ts _ ih =>
    intro inOne pre post pos tok levels bt bts repl hP hts he hs htop hb
    right
    have hP' : P = pre ++ .block .OneOrMore :: (flatten b ++ .anchor :: (flatten r ++ post)) := by
      simpa [flatten] using hP
    have hs' : supported .seq false b = true := by simp [supported] at hs; exact hs.1.1.2
    obtain ⟨j, pos', tok', junk, pre', es', h1, h2, -, h3, h4⟩ :=
      sim_body_fail (tok := tok) (levels := levels) (bts := bt :: bts) (repl := repl) ih (by decide)
        hP' hts he hs'
    refine ⟨pre.length + 1 + (flatten b).length, pos, tok, junk,
      pre ++ .block .OneOrMore :: (flatten b ++ [.anchor]), r, by simp [hP'], by simp; omega,
      fun h => by subst h; simp [supported] at hs, h4.trans (.of_step ?_)⟩
    rw [step_fail_om h1 h2 (levelKind_at hP' rfl) rfl, h3]
  | @omYes b r ts ts₀ ts' out₀ out o hp0 hp1 _ ih0 ih1 ih2 =>
    have : addOut out₀ (addOut out o) = addOut (out₀ ++ out) o := by
      cases o <;> simp [addOut]
    rw [this]
    refine sim_cont (.block .OneOrMore :: (flatten b ++ [.anchor])) (by simp [flatten])
      (fun inOne h => by simp [supported] at h; exact h.2)
      (fun h => parse_hasEod hp1 (parse_hasEod hp0 h)) ?_ ih2
    intro inOne pre post pos tok levels bts repl hP hts he hs htop
    have hP' : P = pre ++ .block .OneOrMore :: (flatten b ++ .anchor :: post) := by simpa using hP
    have hs' : supported .seq false b = true := by simp [supported] at hs; exact hs.1.1.2
    obtain ⟨pos₀, tok₀, h1, h2, h3⟩ :=
      sim_body_ok (tok := tok) (levels := levels) (bts := bts) (repl := repl) ih0 (by decide)
        hP' hts he hs'
    obtain ⟨rest, out', pos', tok', ho, h4, h5, h6⟩ := ih1 .OneOrMore pre post pos₀ tok₀
      ⟨pre.length, true, (repl ++ out₀).length, tok⟩ levels bts (repl ++ out₀) (.inr ⟨rfl, rfl⟩)
      hP' h1 (parse_hasEod hp0 he) hs' rfl rfl
    cases ho
    refine ⟨pos', tok', h4, by omega, h3.trans (.head ?_)⟩
    rw [step_anchor_rep (anchor_at hP') (.inr (levelKind_at hP' rfl))]
    simpa [Nat.add_assoc, Nat.add_comm, Nat.add_left_comm] using h6
  | @oneNo b r ts _ ih =>
    intro inOne pre post pos tok levels bt bts repl hP hts he hs htop hb
    right
    have hP' : P = pre ++ .block .One :: (flatten b ++ .anchor :: (flatten r ++ post)) := by
      simpa [flatten] using hP
    have hs' : supported .seq true b = true := by simp [supported] at hs; exact hs.1.2
    obtain ⟨j, pos', tok', junk, pre', es', h1, h2, h5, h3, h4⟩ :=
      sim_body_fail (tok := tok) (levels := levels) (bts := bt :: bts) (repl := repl) ih (by decide)
        hP' hts he hs'
    obtain ⟨pre'', k, rfl⟩ := h5 rfl
    refine ⟨pre.length + 1 + (flatten b).length, pos, tok, junk,
      pre ++ .block .One :: (flatten b ++ [.anchor]), r, by simp [hP'], by simp; omega,
      fun h => by subst h; simp [supported] at hs, h4.trans (.of_step ?_)⟩
    simp only [List.length_append, List.length_singleton] at h2 h3
    obtain rfl : j = pre''.length := by omega
    rw [step_fail_one (post := flatten r ++ post) (es' := es') (k := k) (by rw [h1]; simp)
      (levelKind_at hP' rfl), h3]
  | @oneYes b r ts ts' out o hp1 _ ih1 ih2 =>
    refine sim_cont (.block .One :: (flatten b ++ [.anchor])) (by simp [flatten])
      (fun inOne h => by simp [supported] at h; exact h.2) (parse_hasEod hp1) ?_ ih2
    intro inOne pre post pos tok levels bts repl hP hts he hs htop
    have hP' : P = pre ++ .block .One :: (flatten b ++ .anchor :: post) := by simpa using hP
    have hs' : supported .seq true b = true := by simp [supported] at hs; exact hs.1.2
    obtain ⟨pos', tok', h1, h2, h3⟩ :=
      sim_body_ok (tok := tok) (levels := levels) (bts := bts) (repl := repl) ih1 (by decide)
        hP' hts he hs'
    refine ⟨pos', tok', h1, h2, h3.trans (.of_step ?_)⟩
    rw [step_anchor_one (anchor_at hP') (levelKind_at hP' rfl) (.inr (.inl rfl)) htop]
    simp; omega
  | @oneOfNo b r ts _ ih =>
    intro inOne pre post pos tok levels bt bts repl hP hts he hs htop hb
    right
    have hP' : P = pre ++ .block .OneOf :: (flatten b ++ .anchor :: (flatten r ++ post)) := by
      simpa [flatten] using hP
    have hs' : (inOne = false ∧ b ≠ .nil) ∧ supported .alt false b = true := by
      simp [supported] at hs; exact hs.1
    have hfa : findAnchor P pre.length = some (pre.length + 1 + (flatten b).length) := by
      rw [hP', findAnchor_block]
    obtain ⟨junk, h⟩ := (ih (pre ++ [.block .OneOf]) (flatten r ++ post) pos tok
      ⟨pre.length, false, repl.length, tok⟩ levels (bt :: bts) repl hs'.1.2 (by simp [hP']) hts he
      hs'.2 (levelKind_at hP' rfl) (by simpa using hfa) htop rfl).2 rfl
    refine ⟨pre.length + 1 + (flatten b).length, pos, tok, junk,
      pre ++ .block .OneOf :: (flatten b ++ [.anchor]), r, by simp [hP'], by simp; omega,
      fun h => (by rw [hs'.1.1] at h; cases h), .head ?_⟩
    rw [step_block hP']
    simpa using h
  | @oneOfYes b r ts ts' out o hp1 _ ih1 ih2 =>
    refine sim_cont (.block .OneOf :: (flatten b ++ [.anchor])) (by simp [flatten])
      (fun inOne h => by simp [supported] at h; exact h.2) (parse_hasEod hp1) ?_ ih2
    intro inOne pre post pos tok levels bts repl hP hts he hs htop
    have hP' : P = pre ++ .block .OneOf :: (flatten b ++ .anchor :: post) := by simpa using hP
    have hs' : (inOne = false ∧ b ≠ .nil) ∧ supported .alt false b = true := by
      simp [supported] at hs; exact hs.1
    have hfa : findAnchor P pre.length = some (pre.length + 1 + (flatten b).length) := by
      rw [hP', findAnchor_block]
    obtain ⟨pos', tok', h1, h2, h3⟩ := (ih1 (pre ++ [.block .OneOf]) post pos tok
      ⟨pre.length, false, repl.length, tok⟩ levels bts repl hs'.1.2 (by simp [hP']) hts he
      hs'.2 (levelKind_at hP' rfl) (by simpa using hfa) htop rfl).1 _ _ rfl
    refine ⟨pos', tok', h1, h2, .head ?_⟩
    rw [step_block hP']
    simpa [Nat.add_assoc, Nat.add_comm, Nat.add_left_comm] using h3
  | @repNo b ts _ ih =>
    intro k pre post pos tok L ls bts repl hk hP hts he hs hptr hidx
    refine ⟨ts, [], pos, L.tok, rfl, hts, Nat.le_refl _, ?_⟩
    have hlk : levelKind P L = some k := levelKind_at hP hptr
    have hkne : k ≠ .OneOf := by rcases hk with rfl | ⟨rfl, -⟩ <;> decide
    have := ih false (pre ++ [.block k]) (.anchor :: post) pos tok (L :: ls) pos bts repl
      (by simp [hP]) hts he hs (topIsOneOf_cons hlk hkne) (Nat.le_refl _)
    rw [List.length_append, List.length_singleton] at this
    rcases this with ⟨h, -⟩ | ⟨j, pos', tok', junk, pre', es', h4, h5, -, h7⟩
    · cases h
    · refine h7.trans (.of_step ?_)
      rw [step_fail_skip h4 h5]
      · have := congrArg List.length (hP.symm.trans h4)
        simp at this
        rw [hidx]; simp; omega
      · rcases hk with rfl | ⟨rfl, ho⟩
        · exact .inl hlk
        · exact .inr (.inr ⟨hlk, ho⟩)
  | @repYes b ts ts' out o hp1 _ ih1 ih2 =>
    intro k pre post pos tok L ls bts repl hk hP hts he hs hptr hidx
    have hlk : levelKind P L = some k := levelKind_at hP hptr
    have hkne : k ≠ .OneOf := by rcases hk with rfl | ⟨rfl, -⟩ <;> decide
    obtain ⟨pos₁, tok₁, h1, h2, h3⟩ := ih1 false (pre ++ [.block k]) (.anchor :: post) pos tok
      (L :: ls) (pos :: bts) repl (by simp [hP]) hts he hs (topIsOneOf_cons hlk hkne)
    obtain ⟨rest, out', pos', tok', ho, h4, h5, h6⟩ := ih2 k pre post pos₁ tok₁
      { L with occ := true, replIdx := (repl ++ out).length } ls bts (repl ++ out)
      (by rcases hk with rfl | ⟨rfl, -⟩ <;> simp) hP h1 (parse_hasEod hp1 he) hs hptr rfl
    subst ho
    refine ⟨rest, out ++ out', pos', tok', rfl, h4, by omega, ?_⟩
    rw [List.length_append, List.length_singleton] at h3
    refine h3.trans (.head ?_)
    rw [step_anchor_rep (anchor_at hP) (by rcases hk with rfl | ⟨rfl, -⟩ <;> simp [hlk]),
      ← List.append_assoc]
    rw [← hptr] at h6 ⊢
    exact h6
  | altNil => intro _ _ _ _ _ _ _ _ h; exact absurd rfl h
  | @altTokNo k r ts o hk hp ih =>
    intro pre post pos tok L ls bts repl hne hP hts he hs hlk hfa htop hidx
    have hP' : P = pre ++ .single k :: (flatten r ++ .anchor :: post) := by
      simpa [flatten] using hP
    have hs' : supported .alt false r = true := by simpa [supported] using hs
    have hlen : pre.length + (flatten (.tok k r)).length =
        (pre ++ [EK.single k]).length + (flatten r).length := by simp [flatten]; omega
    rw [hlen] at hfa ⊢
    have key := fun tk => alt_next (pre := pre ++ [.single k]) (post := post) (a := pre.length)
      (pos' := pos + 1) (tok := tk) (bts := bts) (junk := []) hp ih (by simp [hP']) (by simp) hts he hs' hlk
      hfa htop hidx
    obtain ⟨tk, ts', rfl⟩ := hasEod_ne_nil he
    have ht := (drop_pos hts).1
    have hfail : Reach P toks (.run ⟨pre.length, pos, tok, L :: ls, pos :: bts, repl⟩)
        (.fail ⟨pre.length, pos + 1, tk, L :: ls, pos :: bts, repl ++ []⟩) := by
      rw [List.append_nil]
      exact .of_step (step_single_no hP' ht hk (by simp))
    refine ⟨fun rest out ho => ?_, fun ho => ?_⟩
    · obtain ⟨pos'', tok', h4, h5, h6⟩ := (key tk).1 rest out ho
      exact ⟨pos'', tok', h4, h5, hfail.trans h6⟩
    · obtain ⟨junk', h4⟩ := (key tk).2 ho
      exact ⟨junk', hfail.trans h4⟩
  | @altTokYes k r tk ts hk =>
    intro pre post pos tok L ls bts repl hne hP hts he hs hlk hfa htop hidx
    have hP' : P = pre ++ .single k :: (flatten r ++ .anchor :: post) := by
      simpa [flatten] using hP
    refine ⟨fun rest out ho => ?_, fun ho => by cases ho⟩
    cases ho
    have ht := drop_pos hts
    have hfs : findAnchor P pre.length = some (pre.length + 1 + (flatten r).length) := by
      rw [hP', findAnchor_single]
    refine ⟨pos + 1, tk, ht.2, by omega, .head ?_⟩
    rw [step_single_oneOf hP' ht.1 hk (by simp [topIsOneOf, hlk]) hfs]
    refine .of_step ?_
    rw [step_anchor_one (get_mid' (pre := pre ++ .single k :: flatten r) (post := post)
      (by rw [hP']; simp) (by simp; omega)) hlk (.inr (.inr rfl)) htop]
    simp [flatten]; omega
  | @altOneNo b r ts o _ hp2 ih1 ih2 =>
    intro pre post pos tok L ls bts repl hne hP hts he hs hlk hfa htop hidx
    have hP' : P = pre ++ .block .One :: (flatten b ++ .anchor :: (flatten r ++ .anchor :: post)) := by
      simpa [flatten] using hP
    have hs' : supported .seq true b = true ∧ supported .alt false r = true := by
      simp [supported] at hs; exact hs
    have hlen : pre.length + (flatten (.block .One b r)).length =
        (pre ++ EK.block .One :: (flatten b ++ [.anchor])).length + (flatten r).length := by
      simp [flatten]; omega
    rw [hlen] at hfa ⊢
    obtain ⟨j, pos', tok', junk, pre', es', h1, h2, h5, h3, h4⟩ :=
      sim_body_fail (tok := tok) (levels := L :: ls) (bts := pos :: bts) (repl := repl) ih1
        (by decide) hP' hts he hs'.1
    obtain ⟨pre'', k, rfl⟩ := h5 rfl
    simp only [List.length_append, List.length_singleton] at h2 h3
    obtain rfl : j = pre''.length := by omega
    have hfail : Reach P toks (.run ⟨pre.length, pos, tok, L :: ls, pos :: bts, repl⟩)
        (.fail ⟨pre.length + 1 + (flatten b).length, pos, tok, L :: ls, pos :: bts, repl ++ junk⟩) := by
      refine h4.trans (.of_step ?_)
      rw [step_fail_one (post := flatten r ++ .anchor :: post) (es' := es') (k := k)
        (by rw [h1]; simp) (levelKind_at hP' rfl), h3]
    have key := alt_next (pre := pre ++ EK.block .One :: (flatten b ++ [.anchor])) (post := post)
      (a := pre.length + 1 + (flatten b).length)
      (pos' := pos) (bts := bts) (junk := junk) (tok := tok) hp2 ih2 (by simp [hP'])
      (by simp; omega) hts he hs'.2 hlk hfa htop hidx
    refine ⟨fun rest out ho => ?_, fun ho => ?_⟩
    · obtain ⟨pos'', tok', h4, h5, h6⟩ := key.1 rest out ho
      exact ⟨pos'', tok', h4, h5, hfail.trans h6⟩
    · obtain ⟨junk', h4⟩ := key.2 ho
      exact ⟨junk', hfail.trans h4⟩
  | @altOneYes b r ts ts' out hp1 ih1 =>
    intro pre post pos tok L ls bts repl hne hP hts he hs hlk hfa htop hidx
    have hP' : P = pre ++ .block .One :: (flatten b ++ .anchor :: (flatten r ++ .anchor :: post)) := by
      simpa [flatten] using hP
    have hs' : supported .seq true b = true ∧ supported .alt false r = true := by
      simp [supported] at hs; exact hs
    refine ⟨fun rest out ho => ?_, fun ho => by cases ho⟩
    cases ho
    obtain ⟨pos', tok', h1, h2, h3⟩ :=
      sim_body_ok (tok := tok) (levels := L :: ls) (bts := pos :: bts) (repl := repl) ih1 (by decide)
        hP' hts he hs'.1
    refine ⟨pos', tok', h1, h2, h3.trans (.of_step ?_)⟩
    rw [step_anchor_alt (anchor_at hP') (levelKind_at hP' rfl) hlk hfa htop]
    simp

end Tsar.Directives
