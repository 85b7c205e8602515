import Verif.DistrLimits.Model

/-!
# Limits of data distribution (C173, C174)
-/

namespace Tsar.DistrLimits

/-! ## Specification -/

/-- A callee handles an array which is passed as an argument number `i`: its body is available, it is
not a library function, and the parameter with this number is registered as an array. -/
def Handles (callee : Option Callee) (i : ℕ) : Prop :=
  ∃ c ps, callee = some c ∧ c.defined = true ∧ c.lib = false ∧ c.params = some ps ∧
    ps[i]? = some true

/-- A callee is unknown. -/
def UnknownCallee (callee : Option Callee) : Prop :=
  ∀ c, callee = some c → c.defined = false ∨ c.lib = true

/-- An array is passed to a function which is not known. -/
def PassedToUnknown (fs : List Fn) (a : ℕ) : Prop :=
  ∃ f ∈ fs, ∃ callee accs unk, Ins.mem (.call callee) accs unk ∈ f.body ∧
    ∃ x ∈ accs, x.arr = some a ∧ x.top = true ∧ UnknownCallee callee

/-- Reasons to disable distribution of an array, except for its use in unknown functions. -/
inductive Reason (fs : List Fn) (a : ℕ) : Msg → Prop
  /-- a parameter of a function without uses -/
  | noCalls {f : Fn} {ps : List (Option ℕ)} (hf : f ∈ fs) (hu : f.users = false)
      (hp : f.formals = some ps) (ha : some a ∈ ps) : Reason fs a .noCalls
  /-- a parameter of a function which is called indirectly -/
  | indirect {f : Fn} {ps : List (Option ℕ)} (hf : f ∈ fs) (hi : f.indirect = true)
      (hu : f.users = true) (hp : f.formals = some ps) (ha : some a ∈ ps) : Reason fs a .indirect
  /-- an address of the array is stored -/
  | address {f : Fn} (hf : f ∈ fs) (hs : Ins.store (some a) ∈ f.body) : Reason fs a .address
  /-- an intrinsic which is not a marker -/
  | intrinsic {f : Fn} {accs : List Acc} {unk : List ℕ} {x : Acc} (hf : f ∈ fs)
      (hs : Ins.mem (.intrinsic false) accs unk ∈ f.body) (hx : x ∈ accs) (ha : x.arr = some a) :
      Reason fs a .access
  /-- an unsupported instruction -/
  | other {f : Fn} {accs : List Acc} {unk : List ℕ} {x : Acc} (hf : f ∈ fs)
      (hs : Ins.mem .other accs unk ∈ f.body) (hx : x ∈ accs) (ha : x.arr = some a) :
      Reason fs a .access
  /-- a part of the array is passed to a function -/
  | part {f : Fn} {callee : Option Callee} {accs : List Acc} {unk : List ℕ} {x : Acc} (hf : f ∈ fs)
      (hs : Ins.mem (.call callee) accs unk ∈ f.body) (hx : x ∈ accs) (ha : x.arr = some a)
      (ht : x.top = false) : Reason fs a .access
  /-- the array is passed to a known function which does not expect an array -/
  | prototype {f : Fn} {callee : Option Callee} {accs : List Acc} {unk : List ℕ} {x : Acc}
      (hf : f ∈ fs) (hs : Ins.mem (.call callee) accs unk ∈ f.body) (hx : x ∈ accs)
      (ha : x.arr = some a) (ht : x.top = true) (hk : ¬ UnknownCallee callee)
      (hh : ¬ Handles callee x.idx) : Reason fs a .prototype
  /-- a private array in a loop which may be executed in parallel -/
  | privatizable {f : Fn} {l : Lp} (hf : f ∈ fs) (hl : l ∈ f.loops) (hk : l.known = true)
      (hs : l.scalarDep = false) (hd : l.arrayDep = false) (hc : l.canonical = true)
      (ha : some a ∈ l.priv ∨ some a ∈ l.loc) : Reason fs a .privatizable
  /-- a parameter of a function without a corresponding array in some call -/
  | actual {f : Fn} {actuals : List Bool} {ps : List (Option ℕ)} {i : ℕ} (hf : f ∈ fs)
      (hr : f.formals ≠ none) (hc : (actuals, ps) ∈ f.calls) (hi : ps[i]? = some (some a))
      (hn : actuals[i]? ≠ some true) : Reason fs a .actual

/-! ## Requests -/

theorem apply_flag (st : St) (r : Req) (hr : r.flag ≠ .distr) (a : ℕ) :
    (apply st r).flag a ≠ .distr ↔ st.flag a ≠ .distr ∨ r.arr = a := by
  unfold apply
  by_cases hg : (r.guarded && st.flag r.arr != .distr) = true
  · rw [if_pos hg]
    rw [Bool.and_eq_true, bne_iff_ne] at hg
    constructor
    · exact Or.inl
    · rintro (h | rfl)
      · exact h
      · exact hg.2
  · rw [if_neg hg]
    by_cases ha : a = r.arr
    · subst ha
      simp [hr]
    · simp [ha, Ne.symm ha]

theorem foldl_flag {rs : List Req} (hr : ∀ r ∈ rs, r.flag ≠ .distr) : ∀ (st : St) (a : ℕ),
    (rs.foldl apply st).flag a ≠ .distr ↔ st.flag a ≠ .distr ∨ ∃ r ∈ rs, r.arr = a := by
  induction rs with
  | nil => intro st a; simp
  | cons r rs ih =>
    intro st a
    rw [List.foldl_cons, ih (fun q hq => hr q (List.mem_cons_of_mem _ hq)),
      apply_flag st r (hr r List.mem_cons_self), or_assoc]
    simp

/-- The flag and the message come from one request. -/
theorem foldl_reason : ∀ (rs : List Req) (st : St) (a : ℕ),
    ((rs.foldl apply st).flag a = st.flag a ∨
      ∃ r ∈ rs, r.arr = a ∧ (rs.foldl apply st).flag a = r.flag) ∧
    (∀ p ∈ (rs.foldl apply st).msgs, p ∈ st.msgs ∨ ∃ r ∈ rs, p = (r.arr, r.msg)) ∧
    (∀ p ∈ st.msgs, p ∈ (rs.foldl apply st).msgs) ∧
    ((rs.foldl apply st).flag a ≠ st.flag a →
      ∃ r ∈ rs, r.arr = a ∧ (rs.foldl apply st).flag a = r.flag ∧
        (a, r.msg) ∈ (rs.foldl apply st).msgs)
  | [], st, a => ⟨Or.inl rfl, fun p hp => Or.inl hp, fun p hp => hp, fun h => absurd rfl h⟩
  | r :: rs, st, a => by
    rw [List.foldl_cons]
    obtain ⟨h1, h2, h3, h4⟩ := foldl_reason rs (apply st r) a
    have hm : ∀ p ∈ (apply st r).msgs, p ∈ st.msgs ∨ p = (r.arr, r.msg) := by
      intro p hp
      unfold apply at hp
      by_cases hg : (r.guarded && st.flag r.arr != .distr) = true
      · rw [if_pos hg] at hp; exact Or.inl hp
      · rw [if_neg hg] at hp
        simpa using hp
    have hm' : ∀ p ∈ st.msgs, p ∈ (apply st r).msgs := by
      intro p hp
      unfold apply
      by_cases hg : (r.guarded && st.flag r.arr != .distr) = true
      · rw [if_pos hg]; exact hp
      · rw [if_neg hg]; simp [hp]
    have hf : (apply st r).flag a = st.flag a ∨
        (r.arr = a ∧ (apply st r).flag a = r.flag ∧ (a, r.msg) ∈ (apply st r).msgs) := by
      unfold apply
      by_cases hg : (r.guarded && st.flag r.arr != .distr) = true
      · rw [if_pos hg]; exact Or.inl rfl
      · rw [if_neg hg]
        by_cases ha : a = r.arr
        · subst ha; simp
        · simp [ha]
    refine ⟨?_, fun p hp => ?_, fun p hp => h3 p (hm' p hp), fun hne => ?_⟩
    · rcases h1 with h1 | ⟨q, hq, e1, e2⟩
      · rcases hf with hf | ⟨e, hf, _⟩
        · exact Or.inl (h1.trans hf)
        · exact Or.inr ⟨r, List.mem_cons_self, e, h1.trans hf⟩
      · exact Or.inr ⟨q, List.mem_cons_of_mem _ hq, e1, e2⟩
    · rcases h2 p hp with h | ⟨q, hq, e⟩
      · rcases hm p h with h | h
        · exact Or.inl h
        · exact Or.inr ⟨r, List.mem_cons_self, h⟩
      · exact Or.inr ⟨q, List.mem_cons_of_mem _ hq, e⟩
    · by_cases he : (rs.foldl apply (apply st r)).flag a = (apply st r).flag a
      · rcases hf with hf | ⟨e, hf, hmem⟩
        · exact absurd (he.trans hf) hne
        · exact ⟨r, List.mem_cons_self, e, he.trans hf, h3 _ hmem⟩
      · obtain ⟨q, hq, h⟩ := h4 he
        exact ⟨q, List.mem_cons_of_mem _ hq, h⟩

/-! ## Requests of functions -/

theorem unknown_iff {callee : Option Callee} : UnknownCallee callee ↔
    callee = none ∨ ∃ c, callee = some c ∧ (!c.defined || c.lib) = true := by
  unfold UnknownCallee
  cases callee with
  | none => simp
  | some c => simp

theorem accReq_iff {k : Kind} {x : Acc} {r : Req} : accReq k x = some r ↔
    ∃ a, x.arr = some a ∧
      (((⟨a, .spf, .access, true⟩ : Req) = r ∧
          (k = .intrinsic false ∨ k = .other ∨ ((∃ c, k = .call c) ∧ x.top = false))) ∨
        ((⟨a, .io, .unknownCall, true⟩ : Req) = r ∧
          ∃ c, k = .call c ∧ x.top = true ∧ UnknownCallee c) ∨
        ((⟨a, .spf, .prototype, true⟩ : Req) = r ∧
          ∃ c, k = .call c ∧ x.top = true ∧ ¬ UnknownCallee c ∧ ¬ Handles c x.idx)) := by
  unfold accReq
  cases hx : x.arr with
  | none => simp
  | some a =>
    simp only [Option.some.injEq, exists_eq_left']
    cases k with
    | intrinsic marker => cases marker <;> simp
    | other => simp
    | call callee =>
      cases ht : x.top with
      | false => simp
      | true =>
        cases callee with
        | none => simp [unknown_iff]
        | some c =>
          by_cases hc : (!c.defined || c.lib) = true
          · have hu : UnknownCallee (some c) := unknown_iff.2 (Or.inr ⟨c, rfl, hc⟩)
            simp [hc, hu]
          · have hu : ¬ UnknownCallee (some c) := by
              intro h
              rcases unknown_iff.1 h with h | ⟨c', h, h'⟩
              · cases h
              · cases h; exact hc h'
            have hc' : c.defined = true ∧ c.lib = false := by
              simpa using hc
            simp only [Bool.not_true, Bool.false_eq_true, if_false, hc]
            cases hp : c.params with
            | none =>
              have hh : ¬ Handles (some c) x.idx := by
                rintro ⟨_, ps, e, _, _, h, _⟩
                cases e
                rw [hp] at h
                cases h
              simp [hu, hh]
            | some ps =>
              have hh : Handles (some c) x.idx ↔ ps[x.idx]? = some true := by
                constructor
                · rintro ⟨_, ps', e, _, _, h, h'⟩
                  cases e
                  rw [hp] at h
                  cases h
                  exact h'
                · intro h
                  exact ⟨c, ps, rfl, hc'.1, hc'.2, hp, h⟩
              by_cases hi : ps[x.idx]? = some true
              · have hlt : ¬ ps.length ≤ x.idx := by
                  intro hle
                  rw [List.getElem?_eq_none hle] at hi
                  cases hi
                simp [hu, hh, hi, hlt]
              · simp [hu, hh, hi]

theorem callReqs_iff {actuals : List Bool} {r : Req} : ∀ {ps : List (Option ℕ)} {i : ℕ},
    r ∈ callReqs actuals i ps ↔ ∃ a j, ps[j]? = some (some a) ∧ actuals[i + j]? ≠ some true ∧
      r = ⟨a, .spf, .actual, false⟩
  | [], i => by simp [callReqs]
  | p :: ps, i => by
    rw [callReqs, List.mem_append, callReqs_iff]
    constructor
    · rintro (h | ⟨a, j, h1, h2, h3⟩)
      · cases p with
        | none => simp [paramReqs] at h
        | some a =>
          rw [paramReqs] at h
          by_cases hc : (decide (actuals.length ≤ i) || actuals[i]? != some true) = true
          · simp only [if_pos hc, List.mem_singleton] at h
            refine ⟨a, 0, rfl, ?_, h⟩
            rw [Bool.or_eq_true, decide_eq_true_iff, bne_iff_ne] at hc
            rcases hc with hc | hc
            · rw [Nat.add_zero, List.getElem?_eq_none hc]
              simp
            · exact hc
          · rw [if_neg hc] at h; cases h
      · exact ⟨a, j + 1, h1, by rwa [show i + (j + 1) = i + 1 + j by omega], h3⟩
    · rintro ⟨a, j, h1, h2, h3⟩
      cases j with
      | zero =>
        left
        rw [List.getElem?_cons_zero, Option.some.injEq] at h1
        subst h1
        rw [Nat.add_zero] at h2
        have hc : (decide (actuals.length ≤ i) || actuals[i]? != some true) = true := by
          rw [Bool.or_eq_true, bne_iff_ne]
          exact Or.inr h2
        rw [paramReqs]
        simp only [if_pos hc, List.mem_singleton]
        exact h3
      | succ j =>
        right
        exact ⟨a, j, h1, by rwa [show i + 1 + j = i + (j + 1) by omega], h3⟩

/-- All requests. -/
def reqs (fs : List Fn) : List Req := fs.flatMap fnReqs ++ fs.flatMap ipoReqs

theorem reqs_iff {fs : List Fn} {r : Req} : r ∈ reqs fs ↔
    (∃ g, r = ⟨r.arr, .spf, r.msg, g⟩ ∧ Reason fs r.arr r.msg ∧
      (g = false ↔ r.msg = .noCalls ∨ r.msg = .indirect ∨ r.msg = .actual)) ∨
    (r = ⟨r.arr, .io, .unknownCall, true⟩ ∧ PassedToUnknown fs r.arr) := by
  constructor
  · intro h
    rw [reqs, List.mem_append, List.mem_flatMap, List.mem_flatMap] at h
    rcases h with ⟨f, hf, h⟩ | ⟨f, hf, h⟩
    · rw [fnReqs, List.mem_append, List.mem_append, List.mem_flatMap, List.mem_flatMap] at h
      rcases h with (h | ⟨ins, hi, h⟩) | ⟨l, hl, h⟩
      · left
        unfold formalReqs at h
        by_cases hc : (f.indirect || !f.users) = true
        · rw [if_pos hc] at h
          cases hp : f.formals with
          | none => simp [hp] at h
          | some ps =>
            simp only [hp, List.mem_filterMap] at h
            obtain ⟨p, hpm, h⟩ := h
            cases p with
            | none => cases h
            | some a =>
              simp only [Option.map_some, Option.some.injEq] at h
              subst h
              by_cases hu : f.users = true
              · simp only [hu, if_true]
                refine ⟨false, rfl, .indirect hf (by simpa [hu] using hc) hu hp hpm, by simp⟩
              · have hu' : f.users = false := by simpa using hu
                simp only [hu', Bool.false_eq_true, if_false]
                exact ⟨false, rfl, .noCalls hf hu' hp hpm, by simp⟩
        · rw [if_neg hc] at h; cases h
      · cases ins with
        | load => cases h
        | ret a => cases h
        | store addr =>
          left
          cases addr with
          | none => cases h
          | some a =>
            simp only [insReqs, Option.map_some, Option.toList_some, List.mem_singleton] at h
            subst h
            exact ⟨true, rfl, .address hf hi, by simp⟩
        | mem k accs unk =>
          simp only [insReqs, List.mem_filterMap] at h
          obtain ⟨x, hx, hq⟩ := h
          obtain ⟨a, ha, h⟩ := accReq_iff.1 hq
          clear hq
          rcases h with ⟨rfl, h⟩ | ⟨rfl, c, rfl, ht, hu⟩ | ⟨rfl, c, rfl, ht, hu, hh⟩
          · left
            refine ⟨true, rfl, ?_, by simp⟩
            rcases h with rfl | rfl | ⟨⟨c, rfl⟩, ht⟩
            · exact .intrinsic hf hi hx ha
            · exact .other hf hi hx ha
            · exact .part hf hi hx ha ht
          · right
            exact ⟨rfl, f, hf, c, accs, unk, hi, x, hx, ha, ht, hu⟩
          · left
            exact ⟨true, rfl, .prototype hf hi hx ha ht hu hh, by simp⟩
      · left
        unfold loopReqs at h
        by_cases hk : l.known = true
        · rw [if_neg (by simp [hk])] at h
          by_cases hc : (l.scalarDep || l.arrayDep || !l.canonical) = true
          · rw [if_pos hc] at h; cases h
          · rw [if_neg hc, List.mem_filterMap] at h
            obtain ⟨p, hp, h⟩ := h
            cases p with
            | none => cases h
            | some a =>
              simp only [Option.map_some, Option.some.injEq] at h
              subst h
              simp only [Bool.or_eq_true, Bool.not_eq_true', not_or, Bool.not_eq_true,
                Bool.not_eq_false] at hc
              exact ⟨true, rfl, .privatizable hf hl hk hc.1.1 hc.1.2 hc.2 (List.mem_append.1 hp),
                by simp⟩
        · rw [if_pos (by simp [hk])] at h; cases h
    · left
      unfold ipoReqs at h
      cases hp : f.formals with
      | none => simp [hp] at h
      | some ps =>
        simp only [hp, List.mem_flatMap] at h
        obtain ⟨⟨actuals, ps'⟩, hc, h⟩ := h
        obtain ⟨a, j, h1, h2, rfl⟩ := callReqs_iff.1 h
        rw [Nat.zero_add] at h2
        exact ⟨false, rfl, .actual hf (by rw [hp]; simp) hc h1 h2, by simp⟩
  · rw [reqs, List.mem_append, List.mem_flatMap, List.mem_flatMap]
    have ins : ∀ {f : Fn} {i : Ins} {q : Req}, f ∈ fs → i ∈ f.body → q ∈ insReqs i →
        (∃ f ∈ fs, q ∈ fnReqs f) ∨ ∃ f ∈ fs, q ∈ ipoReqs f := by
      intro f i q hf hi hq
      refine Or.inl ⟨f, hf, ?_⟩
      rw [fnReqs, List.mem_append, List.mem_append]
      exact Or.inl (Or.inr (List.mem_flatMap.2 ⟨i, hi, hq⟩))
    have mems : ∀ {f : Fn} {k : Kind} {accs : List Acc} {unk : List ℕ} {x : Acc} {q : Req}, f ∈ fs →
        Ins.mem k accs unk ∈ f.body → x ∈ accs → accReq k x = some q →
        (∃ f ∈ fs, q ∈ fnReqs f) ∨ ∃ f ∈ fs, q ∈ ipoReqs f := by
      intro f k accs unk x q hf hi hx hq
      exact ins hf hi (List.mem_filterMap.2 ⟨x, hx, hq⟩)
    rintro (⟨g, hr, hR, hg⟩ | ⟨hr, f, hf, c, accs, unk, hi, x, hx, ha, ht, hu⟩)
    · obtain ⟨a, fl, msg, g'⟩ := r
      simp only [Req.mk.injEq, true_and] at hr
      obtain ⟨rfl, rfl⟩ := hr
      simp only at hR hg
      have hgt : ∀ {msg}, (g' = false ↔ msg = Msg.noCalls ∨ msg = .indirect ∨ msg = .actual) →
          ¬ (msg = Msg.noCalls ∨ msg = .indirect ∨ msg = .actual) → g' = true := by
        intro msg h hn
        cases g' with
        | true => rfl
        | false => exact absurd (h.1 rfl) hn
      cases hR with
      | @noCalls f ps hf hu hp ha =>
        rw [hg.2 (by simp)]
        refine Or.inl ⟨f, hf, ?_⟩
        rw [fnReqs, List.mem_append, List.mem_append]
        left; left
        rw [formalReqs, if_pos (by simp [hu]), hp]
        exact List.mem_filterMap.2 ⟨some a, ha, by simp [hu]⟩
      | @indirect f ps hf hin hu hp ha =>
        rw [hg.2 (by simp)]
        refine Or.inl ⟨f, hf, ?_⟩
        rw [fnReqs, List.mem_append, List.mem_append]
        left; left
        rw [formalReqs, if_pos (by simp [hin]), hp]
        exact List.mem_filterMap.2 ⟨some a, ha, by simp [hu]⟩
      | address hf hs =>
        rw [hgt hg (by simp)]
        exact ins hf hs (by simp [insReqs])
      | intrinsic hf hs hx ha =>
        rw [hgt hg (by simp)]
        exact mems hf hs hx (accReq_iff.2 ⟨a, ha, Or.inl ⟨rfl, Or.inl rfl⟩⟩)
      | other hf hs hx ha =>
        rw [hgt hg (by simp)]
        exact mems hf hs hx (accReq_iff.2 ⟨a, ha, Or.inl ⟨rfl, Or.inr (Or.inl rfl)⟩⟩)
      | part hf hs hx ha ht =>
        rw [hgt hg (by simp)]
        exact mems hf hs hx (accReq_iff.2 ⟨a, ha, Or.inl ⟨rfl, Or.inr (Or.inr ⟨⟨_, rfl⟩, ht⟩)⟩⟩)
      | prototype hf hs hx ha ht hk hh =>
        rw [hgt hg (by simp)]
        exact mems hf hs hx (accReq_iff.2 ⟨a, ha, Or.inr (Or.inr ⟨rfl, _, rfl, ht, hk, hh⟩)⟩)
      | @privatizable f l hf hl hk hs hd hc ha =>
        rw [hgt hg (by simp)]
        refine Or.inl ⟨f, hf, ?_⟩
        rw [fnReqs, List.mem_append]
        right
        refine List.mem_flatMap.2 ⟨l, hl, ?_⟩
        rw [loopReqs, if_neg (by simp [hk]), if_neg (by simp [hs, hd, hc])]
        exact List.mem_filterMap.2 ⟨some a, List.mem_append.2 ha, rfl⟩
      | @actual f actuals ps i hf hr hc hi hn =>
        rw [hg.2 (by simp)]
        refine Or.inr ⟨f, hf, ?_⟩
        unfold ipoReqs
        cases hp : f.formals with
        | none => exact absurd hp hr
        | some _ =>
          exact List.mem_flatMap.2 ⟨_, hc, callReqs_iff.2 ⟨a, i, hi, by rwa [Nat.zero_add], rfl⟩⟩
    · rw [hr]
      exact mems hf hi hx (accReq_iff.2 ⟨_, ha, Or.inr (Or.inl ⟨rfl, c, rfl, ht, hu⟩)⟩)

theorem reqs_flag {fs : List Fn} : ∀ r ∈ reqs fs, r.flag ≠ .distr := by
  intro r hr
  rcases reqs_iff.1 hr with ⟨g, h, _⟩ | ⟨h, _⟩
  · rw [h]; simp
  · rw [h]; simp

theorem reason_req {fs : List Fn} {a : ℕ} {msg : Msg} (h : Reason fs a msg) :
    ∃ r ∈ reqs fs, r.arr = a ∧ r.msg = msg ∧ r.flag = .spf := by
  by_cases hm : msg = .noCalls ∨ msg = .indirect ∨ msg = .actual
  · exact ⟨⟨a, .spf, msg, false⟩, reqs_iff.2 (Or.inl ⟨false, rfl, h, by simp [hm]⟩), rfl, rfl, rfl⟩
  · exact ⟨⟨a, .spf, msg, true⟩, reqs_iff.2 (Or.inl ⟨true, rfl, h, by simp [hm]⟩), rfl, rfl, rfl⟩

/-- C174. Distribution of an array is disabled exactly if it has been disabled before or there is one
of the listed reasons. -/
theorem disabled_iff (fs : List Fn) (st : St) (a : ℕ) : (run fs st).flag a ≠ .distr ↔
    st.flag a ≠ .distr ∨ (∃ msg, Reason fs a msg) ∨ PassedToUnknown fs a := by
  have := foldl_flag (rs := reqs fs) reqs_flag st a
  rw [show (run fs st) = (reqs fs).foldl apply st from rfl, this]
  refine or_congr_right ?_
  constructor
  · rintro ⟨r, hr, rfl⟩
    rcases reqs_iff.1 hr with ⟨g, _, h, _⟩ | ⟨_, h⟩
    · exact Or.inl ⟨_, h⟩
    · exact Or.inr h
  · rintro (⟨msg, h⟩ | h)
    · obtain ⟨r, hr, e, _⟩ := reason_req h
      exact ⟨r, hr, e⟩
    · exact ⟨⟨a, .io, .unknownCall, true⟩, reqs_iff.2 (Or.inr ⟨rfl, h⟩), rfl⟩

/-- C174. A new flag of an array has a reason, and the reason is reported: an array is marked as used
by input and output functions only if it is passed to an unknown function, otherwise one of other
reasons is reported. -/
theorem reported (fs : List Fn) (st : St) (a : ℕ) (h : (run fs st).flag a ≠ st.flag a) :
    ((run fs st).flag a = .io ∧ PassedToUnknown fs a ∧ (a, .unknownCall) ∈ (run fs st).msgs) ∨
    ((run fs st).flag a = .spf ∧ ∃ msg, Reason fs a msg ∧ (a, msg) ∈ (run fs st).msgs) := by
  obtain ⟨r, hr, rfl, e, hm⟩ := (foldl_reason (reqs fs) st a).2.2.2 h
  rw [show (run fs st) = (reqs fs).foldl apply st from rfl]
  rcases reqs_iff.1 hr with ⟨g, hq, hR, _⟩ | ⟨hq, hU⟩
  · right
    rw [e]
    refine ⟨by rw [hq], _, hR, hm⟩
  · left
    rw [e]
    refine ⟨by rw [hq], hU, ?_⟩
    rw [hq] at hm
    exact hm

/-- C174. All printed messages are true. -/
theorem messages_true (fs : List Fn) (f : ℕ → Flag) (a : ℕ) (msg : Msg)
    (h : (a, msg) ∈ (run fs ⟨f, []⟩).msgs) :
    Reason fs a msg ∨ (msg = .unknownCall ∧ PassedToUnknown fs a) := by
  rcases (foldl_reason (reqs fs) ⟨f, []⟩ a).2.1 _ h with hp | ⟨r, hr, e⟩
  · cases hp
  · cases e
    rcases reqs_iff.1 hr with ⟨g, _, hR, _⟩ | ⟨hq, hU⟩
    · exact Or.inl hR
    · exact Or.inr ⟨by rw [hq], hU⟩

/-! ## Uses of distributed arrays -/

/-- An instruction uses an array in a supported way: its address is not stored or returned, it is
accessed by loads and stores, by markers, or it is passed as a whole to functions which handle it. -/
def UsedOk (a : ℕ) : Ins → Prop
  | .load => True
  | .store addr => addr ≠ some a
  | .ret addr => addr ≠ some a
  | .mem k accs unknown => a ∉ unknown ∧ ∀ x ∈ accs, x.arr = some a →
      k = .intrinsic true ∨ ∃ c, k = .call c ∧ x.top = true ∧ Handles c x.idx

/-- An instruction does not give an array away by a return or by an access to unknown memory. -/
def Visible (a : ℕ) : Ins → Prop
  | .ret addr => addr ≠ some a
  | .mem _ _ unknown => a ∉ unknown
  | _ => True

/-- C173. All uses of an array which may be distributed are supported, if addresses of arrays are not
returned from functions and instructions access arrays through operands only.  Formal parameters
which are distributed correspond to arrays in all calls, and private arrays of parallel loops are not
distributed. -/
theorem uses_partial (fs : List Fn) (st : St) (a : ℕ) (h : (run fs st).flag a = .distr)
    (hv : ∀ f ∈ fs, ∀ i ∈ f.body, Visible a i) :
    (∀ f ∈ fs, ∀ i ∈ f.body, UsedOk a i) ∧
    (∀ f ∈ fs, ∀ ps, f.formals = some ps → some a ∈ ps → f.users = true ∧ f.indirect = false) ∧
    (∀ f ∈ fs, f.formals ≠ none → ∀ actuals ps, (actuals, ps) ∈ f.calls →
      ∀ i : ℕ, ps[i]? = some (some a) → actuals[i]? = some true) ∧
    (∀ f ∈ fs, ∀ l ∈ f.loops, l.known = true → l.scalarDep = false → l.arrayDep = false →
      l.canonical = true → some a ∉ l.priv ∧ some a ∉ l.loc) := by
  have hno : ¬ (st.flag a ≠ .distr ∨ (∃ msg, Reason fs a msg) ∨ PassedToUnknown fs a) :=
    fun hc => (disabled_iff fs st a).2 hc h
  have hR : ∀ msg, ¬ Reason fs a msg := fun msg hr => hno (Or.inr (Or.inl ⟨msg, hr⟩))
  have hU : ¬ PassedToUnknown fs a := fun hu => hno (Or.inr (Or.inr hu))
  refine ⟨fun f hf i hi => ?_, fun f hf ps hp ha => ?_, fun f hf hr actuals ps hc i hi => ?_,
    fun f hf l hl h1 h2 h3 h4 => ⟨fun ha => ?_, fun ha => ?_⟩⟩
  · have hvi := hv f hf i hi
    cases i with
    | load => trivial
    | store addr =>
      intro e
      subst e
      exact hR _ (.address hf hi)
    | ret addr => exact hvi
    | mem k accs unk =>
      refine ⟨hvi, fun x hx ha => ?_⟩
      cases k with
      | intrinsic marker =>
        cases marker with
        | true => exact Or.inl rfl
        | false => exact absurd (.intrinsic hf hi hx ha) (hR _)
      | other => exact absurd (.other hf hi hx ha) (hR _)
      | call c =>
        right
        cases ht : x.top with
        | false => exact absurd (.part hf hi hx ha ht) (hR _)
        | true =>
          refine ⟨c, rfl, rfl, ?_⟩
          by_contra hh
          by_cases hu : UnknownCallee c
          · exact hU ⟨f, hf, c, accs, unk, hi, x, hx, ha, ht, hu⟩
          · exact hR _ (.prototype hf hi hx ha ht hu hh)
  · have hu : f.users = true := by
      by_contra hu
      exact hR _ (.noCalls hf (by simpa using hu) hp ha)
    refine ⟨hu, ?_⟩
    by_contra hi
    exact hR _ (.indirect hf (by simpa using hi) hu hp ha)
  · by_contra hn
    exact hR _ (.actual hf hr hc hi hn)
  · exact hR _ (.privatizable hf hl h1 h2 h3 h4 (Or.inl ha))
  · exact hR _ (.privatizable hf hl h1 h2 h3 h4 (Or.inr ha))

/-- All arrays may be distributed. -/
def st₀ : St := ⟨fun _ => .distr, []⟩

/-- C173 is false in general: an address which is returned from a function is not noticed. -/
theorem return_fails : ∃ (fs : List Fn) (a : ℕ), (run fs st₀).flag a = .distr ∧
    ∃ f ∈ fs, ∃ i ∈ f.body, ¬ UsedOk a i :=
  ⟨[⟨false, true, some [], [.ret (some 0)], [], []⟩], 0, by decide +kernel, _, List.mem_singleton.2 rfl,
    _, List.mem_singleton.2 rfl, fun h => h rfl⟩

/-- C173 is false in general: accesses to unknown memory are ignored, for example, a global array may
be accessed by a function without a body which is called without arguments. -/
theorem unknown_fails : ∃ (fs : List Fn) (a : ℕ), (run fs st₀).flag a = .distr ∧
    ∃ f ∈ fs, ∃ i ∈ f.body, ¬ UsedOk a i :=
  ⟨[⟨false, true, some [], [.mem (.call (some ⟨false, false, none⟩)) [] [0]], [], []⟩], 0,
    by decide +kernel, _, List.mem_singleton.2 rfl, _, List.mem_singleton.2 rfl,
    fun h => h.1 (List.mem_singleton.2 rfl)⟩

/-- A program: the array 0 is passed to a function with a parameter (the array 1) and stays
distributed, the array 2 is printed, the address of the array 3 is stored, the array 4 is private in
a parallel loop, the array 5 is a parameter which corresponds to a scalar in a call. -/
def exProg : List Fn :=
  [⟨false, true, some [], [.load, .store none,
      .mem (.call (some ⟨true, false, some [true, true]⟩)) [⟨some 0, true, 0⟩] [],
      .mem (.call (some ⟨false, false, none⟩)) [⟨some 2, true, 1⟩] [],
      .store (some 3), .mem (.intrinsic true) [⟨some 0, true, 0⟩] []],
    [⟨true, false, false, true, [some 4, none], []⟩], [([true, false], [some 1, some 5])]⟩,
   ⟨false, true, some [some 1, some 5], [.load], [], []⟩]

example : (List.range 6).map (run exProg st₀).flag = [.distr, .distr, .io, .spf, .spf, .spf] ∧
    (run exProg st₀).msgs = [(2, .unknownCall), (3, .address), (4, .privatizable), (5, .actual)] := by
  decide +kernel

/-- Hypotheses of `uses_partial` hold for an array which is used. -/
example : (run exProg st₀).flag 0 = .distr ∧ ∀ f ∈ exProg, ∀ i ∈ f.body, Visible 0 i := by
  refine ⟨by decide +kernel, ?_⟩
  simp [exProg, Visible]

/-- A message about input and output is replaced by a later reason without a guard. -/
example : (run [⟨false, true, some [], [], [], [([false], [some 0])]⟩,
    ⟨false, true, some [some 0], [.mem (.call none) [⟨some 0, true, 0⟩] []], [], []⟩] st₀).flag 0 =
    .spf := by decide +kernel

end Tsar.DistrLimits
