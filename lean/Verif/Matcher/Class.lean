import Verif.Matcher.Lemmas

/-!
# Every explicit loop is either matched or reported
-/
namespace Tsar.Matcher

/-- Where a loop of the source is kept. -/
inductive SSlot
  | away
  | pair
  | un
  | mac (raw : Nat)
  deriving DecidableEq

/-- Every loop of the source which has been visited is kept at one place. -/
structure SOwned (visited : List Stmt) (st : St) (own : Stmt → SSlot) : Prop where
  pairs : ∀ e ∈ st.pairs, e.1.isLoop → own e.1 = .pair
  un : ∀ s ∈ st.unmatched, own s = .un
  mac : ∀ raw q, st.macros raw = some q → q.Nodup ∧ ∀ s ∈ q, own s = .mac raw
  pair' : ∀ s, own s = .pair → ∃ l, (s, l) ∈ st.pairs
  un' : ∀ s, own s = .un → s ∈ st.unmatched
  mac' : ∀ s raw, own s = .mac raw → ∃ q, st.macros raw = some q ∧ s ∈ q
  seen : ∀ s, own s ≠ .away ↔ s ∈ visited ∧ s.isLoop

section
variable {asserts : Bool} {presumed : Nat → Place} {loops : List IRLoop}

theorem SOwned.fresh {visited : List Stmt} {st : St} {own : Stmt → SSlot}
    (h : SOwned visited st own) {s : Stmt} (hs : s ∉ visited) (hl : s.isLoop) :
    ∀ e ∈ st.pairs, e.1 ≠ s := by
  rintro e he rfl
  have h1 := h.pairs e he hl
  exact hs ((h.seen e.1).1 (by simp [h1])).1

theorem SOwned.skip {visited : List Stmt} {st st' : St} {own : Stmt → SSlot}
    (h : SOwned visited st own) {s : Stmt} (hl : ¬ s.isLoop) (h1 : st'.pairs = st.pairs)
    (h2 : st'.unmatched = st.unmatched) (h3 : st'.macros = st.macros) :
    SOwned (visited ++ [s]) st' own := by
  refine ⟨by rw [h1]; exact h.pairs, by rw [h2]; exact h.un, by rw [h3]; exact h.mac,
    by rw [h1]; exact h.pair', by rw [h2]; exact h.un', by rw [h3]; exact h.mac', ?_⟩
  intro x
  rw [h.seen x]
  simp only [List.mem_append, List.mem_singleton]
  constructor
  · exact fun hx => ⟨Or.inl hx.1, hx.2⟩
  · rintro ⟨hx | rfl, hy⟩
    · exact ⟨hx, hy⟩
    · exact absurd hy hl

/-- A loop is matched. -/
theorem SOwned.toPair {visited : List Stmt} {st st' : St} {own : Stmt → SSlot}
    (h : SOwned visited st own) {s : Stmt} (hs : s ∉ visited) (hl : s.isLoop) {l : IRLoop}
    (hf : ∀ e ∈ st.pairs, e.2 ≠ l) (h1 : st'.pairs = emplace st.pairs s l)
    (h2 : st'.unmatched = st.unmatched) (h3 : st'.macros = st.macros) :
    SOwned (visited ++ [s]) st' (fun x => if x = s then .pair else own x) := by
  have hfs := h.fresh hs hl
  have ha : own s = .away := by
    by_contra hc
    exact hs ((h.seen s).1 hc).1
  rw [emplace_new (fun e he => ⟨hfs e he, hf e he⟩)] at h1
  have hne : ∀ x, own x ≠ .away → x ≠ s := fun x hx hc => hx (hc ▸ ha)
  refine ⟨?_, ?_, ?_, ?_, ?_, ?_, ?_⟩
  · intro e he hel
    rw [h1, List.mem_append, List.mem_singleton] at he
    by_cases hes : e.1 = s
    · simp [hes]
    · rw [if_neg hes]
      rcases he with he | he
      · exact h.pairs e he hel
      · exact absurd (by simp [he]) hes
  · intro x hx
    rw [h2] at hx
    have := h.un x hx
    rw [if_neg (hne x (by simp [this]))]
    exact this
  · intro raw q hq
    rw [h3] at hq
    refine ⟨(h.mac raw q hq).1, fun x hx => ?_⟩
    have := (h.mac raw q hq).2 x hx
    rw [if_neg (hne x (by simp [this]))]
    exact this
  · intro x hx
    rw [h1]
    by_cases hxs : x = s
    · exact ⟨l, by simp [hxs]⟩
    · rw [if_neg hxs] at hx
      obtain ⟨l', hl'⟩ := h.pair' x hx
      exact ⟨l', by simp [hl']⟩
  · intro x hx
    by_cases hxs : x = s
    · simp [hxs] at hx
    · rw [if_neg hxs] at hx
      rw [h2]
      exact h.un' x hx
  · intro x raw hx
    by_cases hxs : x = s
    · simp [hxs] at hx
    · rw [if_neg hxs] at hx
      rw [h3]
      exact h.mac' x raw hx
  · intro x
    by_cases hxs : x = s
    · simp [hxs, hl]
    · rw [if_neg hxs, h.seen x]
      simp [hxs]

/-- A loop is reported. -/
theorem SOwned.toUn {visited : List Stmt} {st st' : St} {own : Stmt → SSlot}
    (h : SOwned visited st own) {s : Stmt} (hs : s ∉ visited) (hl : s.isLoop)
    (h1 : st'.pairs = st.pairs) (h2 : st'.unmatched = st.unmatched ++ [s])
    (h3 : st'.macros = st.macros) :
    SOwned (visited ++ [s]) st' (fun x => if x = s then .un else own x) := by
  have ha : own s = .away := by
    by_contra hc
    exact hs ((h.seen s).1 hc).1
  have hne : ∀ x, own x ≠ .away → x ≠ s := fun x hx hc => hx (hc ▸ ha)
  refine ⟨?_, ?_, ?_, ?_, ?_, ?_, ?_⟩
  · intro e he hel
    rw [h1] at he
    have := h.pairs e he hel
    rw [if_neg (hne e.1 (by simp [this]))]
    exact this
  · intro x hx
    rw [h2, List.mem_append, List.mem_singleton] at hx
    by_cases hxs : x = s
    · simp [hxs]
    · rw [if_neg hxs]
      exact h.un x (hx.resolve_right hxs)
  · intro raw q hq
    rw [h3] at hq
    refine ⟨(h.mac raw q hq).1, fun x hx => ?_⟩
    have := (h.mac raw q hq).2 x hx
    rw [if_neg (hne x (by simp [this]))]
    exact this
  · intro x hx
    rw [h1]
    by_cases hxs : x = s
    · simp [hxs] at hx
    · rw [if_neg hxs] at hx
      exact h.pair' x hx
  · intro x hx
    rw [h2]
    by_cases hxs : x = s
    · simp [hxs]
    · rw [if_neg hxs] at hx
      simp [h.un' x hx]
  · intro x raw hx
    by_cases hxs : x = s
    · simp [hxs] at hx
    · rw [if_neg hxs] at hx
      rw [h3]
      exact h.mac' x raw hx
  · intro x
    by_cases hxs : x = s
    · simp [hxs, hl]
    · rw [if_neg hxs, h.seen x]
      simp [hxs]

/-- A loop waits for the evaluation of macros. -/
theorem SOwned.toMac {visited : List Stmt} {st : St} {own : Stmt → SSlot}
    (h : SOwned visited st own) {s : Stmt} (hs : s ∉ visited) (hl : s.isLoop) (raw : Nat) :
    SOwned (visited ++ [s]) { st with macros := pushStmt st.macros raw s }
      (fun x => if x = s then .mac raw else own x) := by
  have ha : own s = .away := by
    by_contra hc
    exact hs ((h.seen s).1 hc).1
  have hne : ∀ x, own x ≠ .away → x ≠ s := fun x hx hc => hx (hc ▸ ha)
  refine ⟨?_, ?_, ?_, ?_, ?_, ?_, ?_⟩
  · intro e he hel
    have := h.pairs e he hel
    rw [if_neg (hne e.1 (by simp [this]))]
    exact this
  · intro x hx
    have := h.un x hx
    rw [if_neg (hne x (by simp [this]))]
    exact this
  · intro raw' q hq
    simp only [pushStmt, upd] at hq
    split at hq
    · next hr =>
      subst hr
      simp only [Option.some.injEq] at hq
      subst hq
      cases hc : st.macros raw' with
      | none => simp
      | some q' =>
        obtain ⟨h1, h2⟩ := h.mac raw' q' hc
        have hsq : s ∉ q' := by
          intro hm
          have := h2 s hm
          rw [ha] at this
          cases this
        simp only [Option.getD_some]
        refine ⟨?_, fun x hx => ?_⟩
        · rw [List.nodup_append]
          refine ⟨h1, by simp, ?_⟩
          rintro a ha' b hb rfl
          simp only [List.mem_singleton] at hb
          exact hsq (hb ▸ ha')
        · by_cases hxs : x = s
          · simp [hxs]
          · rw [if_neg hxs]
            simp only [List.mem_append, List.mem_singleton] at hx
            exact h2 x (hx.resolve_right hxs)
    · refine ⟨(h.mac raw' q hq).1, fun x hx => ?_⟩
      have := (h.mac raw' q hq).2 x hx
      rw [if_neg (hne x (by simp [this]))]
      exact this
  · intro x hx
    by_cases hxs : x = s
    · simp [hxs] at hx
    · rw [if_neg hxs] at hx
      exact h.pair' x hx
  · intro x hx
    by_cases hxs : x = s
    · simp [hxs] at hx
    · rw [if_neg hxs] at hx
      exact h.un' x hx
  · intro x raw' hx
    by_cases hxs : x = s
    · simp only [hxs, if_true, SSlot.mac.injEq] at hx
      subst hx
      exact ⟨(st.macros raw).getD [] ++ [s], by simp [pushStmt, upd], by simp [hxs]⟩
    · rw [if_neg hxs] at hx
      obtain ⟨q, h1, h2⟩ := h.mac' x raw' hx
      by_cases hr : raw' = raw
      · subst hr
        exact ⟨(st.macros raw').getD [] ++ [s], by simp [pushStmt, upd], by simp [h1, h2]⟩
      · exact ⟨q, by simp [pushStmt, upd, hr, h1], h2⟩
  · intro x
    by_cases hxs : x = s
    · simp [hxs, hl]
    · rw [if_neg hxs, h.seen x]
      simp [hxs]

theorem SOwned.visit {stmts visited : List Stmt} {st st' : St} {s : Stmt}
    (hi : Inv presumed stmts loops st) (h : ∃ own, SOwned visited st own) (hs : s ∉ visited)
    (hv : visitExplicit asserts presumed st s = some st') :
    ∃ own, SOwned (visited ++ [s]) st' own := by
  obtain ⟨own, h⟩ := h
  obtain ⟨iown, hown⟩ := hi.own
  rcases visitExplicit_cases hv with ⟨raw, hb, rfl⟩ | ⟨_, h2 | ⟨_, h2⟩⟩
  · unfold visitFromMacro
    split
    · next hl => exact ⟨_, h.toMac hs hl raw⟩
    · next hl => exact ⟨_, h.skip hl rfl rfl rfl⟩
  · obtain ⟨p, q, l, rest, hloop, hp, hq, hit, hpairs, himp, hmac, hun, hir⟩ := visitInit_cases h2
    exact ⟨_, h.toPair hs hloop (hown.fresh hq (by simp [hit])) hpairs hun hmac⟩
  · obtain ⟨hmac, hc⟩ := visitStart_cases h2
    rcases hc with ⟨_, _, hpairs, hc⟩ | ⟨p, q, l, rest, hp, hq, hit, hir, hun, hc⟩
    · rcases hc with ⟨hl, hun⟩ | ⟨hl, hun⟩
      · exact ⟨_, h.toUn hs hl hpairs hun hmac⟩
      · exact ⟨_, h.skip hl hpairs hun hmac⟩
    · rcases hc with ⟨hl, _, hpairs⟩ | ⟨hl, hpairs, _⟩
      · exact ⟨_, h.toPair hs hl (hown.fresh hq (by simp [hit])) hpairs hun hmac⟩
      · exact ⟨_, h.skip hl hpairs hun hmac⟩

theorem SOwned.explicit {stmts : List Stmt} : ∀ {ss visited : List Stmt} {st st' : St},
    Inv presumed stmts loops st → (∃ own, SOwned visited st own) → (∀ s ∈ ss, s ∈ stmts) →
    (visited ++ ss).Nodup → explicit asserts presumed st ss = some st' →
    ∃ own, SOwned (visited ++ ss) st' own
  | [], visited, st, st', _, h, _, _, he => by
    simp only [Matcher.explicit, Option.some.injEq] at he
    subst he
    simpa using h
  | s :: ss, visited, st, st', hi, h, hs, hn, he => by
    simp only [Matcher.explicit] at he
    split at he
    · simp at he
    · next st1 h1 =>
      have hsv : s ∉ visited := by
        rw [List.nodup_append] at hn
        exact fun hc => hn.2.2 s hc s (by simp) rfl
      have h2 := SOwned.visit hi h hsv h1
      have hi1 : Inv presumed stmts loops st1 :=
        Inv.explicit (ss := [s]) (asserts := asserts) hi
          (by simpa using hs s (by simp)) (by simp [Matcher.explicit, h1])
      have := SOwned.explicit (visited := visited ++ [s]) hi1 h2
        (fun x hx => hs x (by simp [hx])) (by simpa using hn) he
      simpa using this

theorem SOwned.implicitFrom {visited : List Stmt} : ∀ {ss pre : List Stmt} {last : Option Stmt}
    {st st' : St}, (∃ own, SOwned visited st own) → last = lastLabel pre →
    implicitFrom asserts presumed st last ss = some st' → ∃ own, SOwned visited st' own
  | [], _, _, st, st', h, _, he => by
    simp only [Matcher.implicitFrom, Option.some.injEq] at he
    exact he ▸ h
  | s :: ss, pre, last, st, st', h, hlast, he => by
    simp only [Matcher.implicitFrom] at he
    split at he
    · simp at he
    · next st1 last1 h1 =>
      obtain ⟨hir, hmac, hun, hl1, hc⟩ := visitImplicit_cases h1
      refine SOwned.implicitFrom (pre := pre ++ [s]) ?_
        (by rw [hl1, lastLabel_snoc, hlast]) he
      obtain ⟨own, h⟩ := h
      rcases hc with ⟨_, hpairs⟩ | ⟨lb, p, q, l, rest, hlb, _, _, _, _, _, hpairs⟩
      · exact ⟨own, by rw [hpairs]; exact h.pairs, by rw [hun]; exact h.un,
          by rw [hmac]; exact h.mac, by rw [hpairs]; exact h.pair', by rw [hun]; exact h.un',
          by rw [hmac]; exact h.mac', h.seen⟩
      · refine ⟨own, ?_, by rw [hun]; exact h.un, by rw [hmac]; exact h.mac, ?_,
          by rw [hun]; exact h.un', by rw [hmac]; exact h.mac', h.seen⟩
        · intro e he' hel
          rw [hpairs] at he'
          rcases mem_emplace he' with h3 | h3
          · exact h.pairs e h3 hel
          · rw [hlb] at hlast
            have := lastLabel_label hlast.symm
            rw [h3] at hel
            simp [Stmt.isLoop, this] at hel
        · intro x hx
          obtain ⟨l', h3⟩ := h.pair' x hx
          exact ⟨l', by rw [hpairs]; exact subset_emplace h3⟩

theorem popPairs_new : ∀ {z m : List (Stmt × IRLoop)}, (z.map Prod.fst).Nodup →
    (z.map Prod.snd).Nodup → (∀ e ∈ m, ∀ e' ∈ z, e.1 ≠ e'.1 ∧ e.2 ≠ e'.2) →
    popPairs m z = m ++ z
  | [], m, _, _, _ => by simp [popPairs]
  | (s, l) :: r, m, h1, h2, h3 => by
    simp only [popPairs]
    rw [emplace_new (fun e he => h3 e he (s, l) (by simp))]
    simp only [List.map_cons, List.nodup_cons] at h1 h2
    rw [popPairs_new h1.2 h2.2 ?_]
    · simp
    · intro e he e' he'
      rw [List.mem_append, List.mem_singleton] at he
      rcases he with he | rfl
      · exact h3 e he e' (by simp [he'])
      · constructor
        · rintro hc
          exact h1.1 (List.mem_map.2 ⟨e', he', hc.symm⟩)
        · rintro hc
          exact h2.1 (List.mem_map.2 ⟨e', he', hc.symm⟩)

/-- The pairs which are matched in a macro. -/
theorem popPairs_macro {stmts visited : List Stmt} {st : St} (hi : Inv presumed stmts loops st)
    {own : Stmt → SSlot} (h : SOwned visited st own) {raw : Nat} {q : List Stmt}
    (hq : st.macros raw = some q) {p : Place} {irq : Queue} (hirq : st.ir p = some irq)
    (hlen : irq.items.length = q.length) :
    popPairs st.pairs (q.reverse.zip irq.items.reverse) =
      st.pairs ++ q.reverse.zip irq.items.reverse := by
  obtain ⟨iown, hown⟩ := hi.own
  have hz : ∀ e ∈ q.reverse.zip irq.items.reverse, e.1 ∈ q ∧ e.2 ∈ irq.items := by
    intro e he
    simpa using List.of_mem_zip he
  apply popPairs_new
  · rw [List.map_fst_zip (by simp [hlen])]
    exact List.nodup_reverse.2 (h.mac raw q hq).1
  · rw [List.map_snd_zip (by simp [hlen])]
    exact List.nodup_reverse.2 (hown.ir p irq hirq).1
  · intro e he e' he'
    obtain ⟨h1, h2⟩ := hz e' he'
    constructor
    · intro hc
      have h3 := (h.mac raw q hq).2 e'.1 h1
      have h4 := h.pairs e he (by rw [hc]; exact (hi.mac raw q hq e'.1 h1).2.1)
      rw [hc, h3] at h4
      cases h4
    · exact hown.fresh hirq h2 e he

theorem SOwned.matchMacro {stmts visited : List Stmt} {st : St} (hi : Inv presumed stmts loops st)
    (h : ∃ own, SOwned visited st own) (raw : Nat) :
    ∃ own, SOwned visited (matchMacro presumed st raw) own := by
  obtain ⟨own, h⟩ := h
  unfold Matcher.matchMacro
  split
  · exact ⟨own, h⟩
  · next q hq =>
    obtain ⟨hqn, hqo⟩ := h.mac raw q hq
    have hmac : ∀ (f : SSlot) raw' q', upd st.macros raw (some []) raw' = some q' → q'.Nodup ∧
        ∀ s ∈ q', (if s ∈ q then f else own s) = .mac raw' := by
      intro f raw' q' hq'
      simp only [upd] at hq'
      split at hq'
      · simp only [Option.some.injEq] at hq'
        subst hq'
        simp
      · next hr =>
        obtain ⟨h1, h2⟩ := h.mac raw' q' hq'
        refine ⟨h1, fun x hx => ?_⟩
        have : x ∉ q := by
          intro hc
          have h3 := h2 x hx
          rw [hqo x hc] at h3
          exact hr (by injection h3 with h4; exact h4.symm)
        rw [if_neg this]
        exact h2 x hx
    have hmac' : ∀ (f : SSlot) (x : Stmt) (raw' : Nat), (∀ r, f ≠ .mac r) →
        (if x ∈ q then f else own x) = .mac raw' →
        ∃ q', upd st.macros raw (some []) raw' = some q' ∧ x ∈ q' := by
      intro f x raw' hf hx
      by_cases hxq : x ∈ q
      · rw [if_pos hxq] at hx
        exact absurd hx (hf raw')
      · rw [if_neg hxq] at hx
        obtain ⟨q', h1, h2⟩ := h.mac' x raw' hx
        refine ⟨q', ?_, h2⟩
        have : raw' ≠ raw := by
          rintro rfl
          rw [hq, Option.some.injEq] at h1
          exact hxq (h1 ▸ h2)
        simp [upd, this, h1]
    have hseen : ∀ (f : SSlot), f ≠ .away → ∀ x, (if x ∈ q then f else own x) ≠ .away ↔
        x ∈ visited ∧ x.isLoop := by
      intro f hf x
      by_cases hxq : x ∈ q
      · rw [if_pos hxq]
        exact iff_of_true hf ((h.seen x).1 (by simp [hqo x hxq]))
      · rw [if_neg hxq]
        exact h.seen x
    have hfail : ∃ own', SOwned visited
        { st with
          unmatched := st.unmatched ++ q.reverse,
          macros := upd st.macros raw (some []) } own' := by
      refine ⟨fun x => if x ∈ q then .un else own x, ?_, ?_, hmac .un, ?_, ?_,
        fun x r => hmac' .un x r (by simp), hseen .un (by simp)⟩
      · intro e he hel
        have h1 := h.pairs e he hel
        have : e.1 ∉ q := by
          intro hc
          rw [hqo e.1 hc] at h1
          cases h1
        rw [if_neg this]
        exact h1
      · intro x hx
        by_cases hxq : x ∈ q
        · simp [hxq]
        · rw [if_neg hxq]
          simp only [List.mem_append, List.mem_reverse] at hx
          exact h.un x (hx.resolve_right hxq)
      · intro x hx
        by_cases hxq : x ∈ q
        · simp [hxq] at hx
        · rw [if_neg hxq] at hx
          exact h.pair' x hx
      · intro x hx
        simp only [List.mem_append, List.mem_reverse]
        by_cases hxq : x ∈ q
        · exact Or.inr hxq
        · rw [if_neg hxq] at hx
          exact Or.inl (h.un' x hx)
    split
    · exact hfail
    · next irq hirq =>
      split
      · exact hfail
      · next hlen =>
        have hlen' : irq.items.length = q.length := by simpa using hlen
        rw [popPairs_macro hi h hq hirq hlen']
        refine ⟨fun x => if x ∈ q then .pair else own x, ?_, ?_, hmac .pair, ?_, ?_,
          fun x r => hmac' .pair x r (by simp), hseen .pair (by simp)⟩
        · intro e he hel
          by_cases hxq : e.1 ∈ q
          · simp [hxq]
          · rw [if_neg hxq]
            simp only [List.mem_append] at he
            rcases he with he | he
            · exact h.pairs e he hel
            · have := (List.of_mem_zip he).1
              exact absurd (by simpa using this) hxq
        · intro x hx
          have h1 := h.un x hx
          have : x ∉ q := by
            intro hc
            rw [hqo x hc] at h1
            cases h1
          rw [if_neg this]
          exact h1
        · intro x hx
          by_cases hxq : x ∈ q
          · have : x ∈ (q.reverse.zip irq.items.reverse).map Prod.fst := by
              rw [List.map_fst_zip (by simp [hlen'])]
              simpa using hxq
            obtain ⟨e, he, rfl⟩ := List.mem_map.1 this
            exact ⟨e.2, by simp [he]⟩
          · rw [if_neg hxq] at hx
            obtain ⟨l', h3⟩ := h.pair' x hx
            exact ⟨l', by simp [h3]⟩
        · intro x hx
          by_cases hxq : x ∈ q
          · simp [hxq] at hx
          · rw [if_neg hxq] at hx
            exact h.un' x hx

theorem matchMacro_clears (st : St) (raw raw' : Nat)
    (h : raw' = raw ∨ st.macros raw' = none ∨ st.macros raw' = some []) :
    (matchMacro presumed st raw).macros raw' = none ∨
      (matchMacro presumed st raw).macros raw' = some [] := by
  unfold matchMacro
  split
  · next hq =>
    rcases h with rfl | h
    · exact Or.inl hq
    · exact h
  · have h1 : upd st.macros raw (some []) raw' = none ∨
        upd st.macros raw (some []) raw' = some [] := by
      simp only [upd]
      split
      · exact Or.inr rfl
      · next hr => exact h.resolve_left hr
    split
    · exact h1
    · split
      · exact h1
      · exact h1

theorem matchInMacro_clears : ∀ (order : List Nat) (st : St) (raw : Nat),
    (raw ∈ order ∨ st.macros raw = none ∨ st.macros raw = some []) →
    (matchInMacro presumed st order).macros raw = none ∨
      (matchInMacro presumed st order).macros raw = some []
  | [], st, raw, h => by
    simp only [matchInMacro]
    simpa using h
  | r :: rs, st, raw, h => by
    simp only [matchInMacro]
    apply matchInMacro_clears rs
    rcases h with h | h
    · rcases List.mem_cons.1 h with h | h
      · exact Or.inr (matchMacro_clears st r raw (Or.inl h))
      · exact Or.inl h
    · exact Or.inr (matchMacro_clears st r raw (Or.inr h))

theorem SOwned.matchInMacro {stmts visited : List Stmt} : ∀ {order : List Nat} {st : St},
    Inv presumed stmts loops st → (∃ own, SOwned visited st own) →
    ∃ own, SOwned visited (matchInMacro presumed st order) own
  | [], _, _, h => h
  | r :: rs, st, hi, h => by
    simp only [Matcher.matchInMacro]
    exact SOwned.matchInMacro (hi.matchMacro r) (SOwned.matchMacro hi h r)

end

end Tsar.Matcher
