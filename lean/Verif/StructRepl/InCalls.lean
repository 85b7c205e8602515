import Verif.StructRepl.Fill

/-!
# Candidates in arguments of calls: property C138

Models `sanitizeCandidatesInCalls()` and `insertNewFunctions()`.
-/

namespace Tsar.StructRepl

/-- A call: a callee and variables which are mentioned in arguments (`getCandidate`). -/
structure Call where
  callee : Fn
  args : List (Option Var)
  deriving DecidableEq, Repr

/-- A state of `sanitizeCandidatesInCalls()`: candidates and implicit requests of functions. -/
structure Reqs where
  cand : Fn → Var → Bool
  reqs : Fn → List Call

/-- What is known about functions: is there information about a function, parameters, parameters with members which are
accessed as arrays, explicit requests. -/
structure Funcs where
  known : Fn → Bool
  param : Fn → Nat → Var
  arr : Fn → Var → Bool
  explicit : Fn → List Call

/-- `Candidates.erase()` -/
def eraseC (c : Fn → Var → Bool) (f : Fn) (v : Var) : Fn → Var → Bool :=
  fun g w => if g = f ∧ w = v then false else c g w

/-- Remove all arguments of a call from candidates (StructureReplacement.cpp:1757-1771). -/
def eraseArgs (c : Fn → Var → Bool) (f : Fn) : List (Option Var) → (Fn → Var → Bool)
  | [] => c
  | none :: as => eraseArgs c f as
  | some v :: as => eraseArgs (if c f v then eraseC c f v else c) f as

/-- Is an argument a candidate? -/
def argC (c : Fn → Var → Bool) (f : Fn) : Option Var → Bool
  | none => false
  | some v => c f v

/-- A result of a loop over arguments: candidates, `HasCandidatesInArgs`, `IsChanged`. -/
structure Res where
  cand : Fn → Var → Bool
  has : Bool
  changed : Bool

/-- A loop over arguments of an implicit request (StructureReplacement.cpp:1733-1806). `all` are all arguments of
the call, `n` is an index of the first argument in the list. -/
def scan (F : Funcs) (f g : Fn) (all : List (Option Var)) : Nat → List (Option Var) → Res → Res
  | _, [], r => r
  | n, a :: as, r =>
    if argC r.cand f a then
      if !F.known g ∨ !r.cand g (F.param g n) then
        scan F f g all (n + 1) as { r with cand := eraseC r.cand f (a.getD 0), changed := true }
      else scan F f g all (n + 1) as { r with has := true }
    else if F.known g && r.cand g (F.param g n) && F.arr g (F.param g n) then
      { cand := eraseArgs r.cand f all, has := false, changed := true }
    else scan F f g all (n + 1) as r

/-- A loop over implicit requests (StructureReplacement.cpp:1728-1812). Remaining requests are returned. -/
def scanAll (F : Funcs) (f : Fn) : List Call → (Fn → Var → Bool) → (Fn → Var → Bool) × List Call × Bool
  | [], c => (c, [], false)
  | k :: ks, c =>
    let r := scan F f k.callee k.args 0 k.args ⟨c, false, false⟩
    let s := scanAll F f ks r.cand
    (s.1, if r.has then k :: s.2.1 else s.2.1, r.changed || s.2.2)

/-- A loop over explicit requests (StructureReplacement.cpp:1703-1727): it changes nothing except `IsChanged`. -/
def scanExplicit (F : Funcs) (f : Fn) (c : Fn → Var → Bool) : Bool :=
  (F.explicit f).any (fun k => F.known k.callee && (k.args.zipIdx.any (fun p =>
    !argC c f p.1 && c k.callee (F.param k.callee p.2) && F.arr k.callee (F.param k.callee p.2))))

/-- A body of a loop over functions with candidates (StructureReplacement.cpp:1699-1815). `vs f` are variables of
a function. -/
def passC (F : Funcs) (vs : Fn → List Var) : List Fn → Reqs → Reqs × Bool
  | [], s => (s, false)
  | f :: fs, s =>
    if (vs f).any (s.cand f) then
      let r := scanAll F f (s.reqs f) s.cand
      let t := passC F vs fs ⟨r.1, fun g => if g = f then r.2.1 else s.reqs g⟩
      (t.1, scanExplicit F f s.cand || r.2.2 || t.2)
    else passC F vs fs s

/-- States after a number of iterations. -/
def passesC (F : Funcs) (vs : Fn → List Var) (fs : List Fn) : Nat → Reqs → Reqs
  | 0, s => s
  | n + 1, s => passesC F vs fs n (passC F vs fs s).1

/-- Specification: each candidate in an argument of a call which will be replaced corresponds to a parameter which will be
replaced, and other arguments do not correspond to arrays. -/
def Consistent (F : Funcs) (f : Fn) (c : Fn → Var → Bool) (k : Call) : Prop :=
  ∀ n a, k.args[n]? = some a →
    (argC c f a = true → F.known k.callee = true ∧ c k.callee (F.param k.callee n) = true) ∧
    (argC c f a = false → ¬ (F.known k.callee = true ∧ c k.callee (F.param k.callee n) = true ∧
      F.arr k.callee (F.param k.callee n) = true))

/-! ### Consistency -/

theorem scan_same (F : Funcs) (f g : Fn) (all : List (Option Var)) : ∀ (as : List (Option Var)) (n : Nat) (r : Res),
    (scan F f g all n as r).changed = false → (scan F f g all n as r).cand = r.cand ∧
    ∀ i a, as[i]? = some a →
      (argC r.cand f a = true → F.known g = true ∧ r.cand g (F.param g (n + i)) = true) ∧
      (argC r.cand f a = false → ¬ (F.known g = true ∧ r.cand g (F.param g (n + i)) = true ∧
        F.arr g (F.param g (n + i)) = true)) := by
  have mono : ∀ (as : List (Option Var)) (n : Nat) (r : Res), r.changed = true →
      (scan F f g all n as r).changed = true := by
    intro as
    induction as with
    | nil => intro n r h; exact h
    | cons a as ih =>
      intro n r h
      simp only [scan]
      split_ifs
      · exact ih _ _ rfl
      · exact ih _ _ h
      · rfl
      · exact ih _ _ h
  intro as
  induction as with
  | nil => intro n r _; exact ⟨rfl, fun i a h => by simp at h⟩
  | cons a as ih =>
    intro n r h
    simp only [scan] at h ⊢
    split_ifs at h ⊢ with h1 h2 h3
    · rw [mono _ _ _ rfl] at h; cases h
    · obtain ⟨k1, k2⟩ := ih _ _ h
      refine ⟨k1, fun i b hb => ?_⟩
      cases i with
      | zero =>
        simp only [List.getElem?_cons_zero, Option.some.injEq] at hb
        subst hb
        simp only [Bool.not_eq_true', not_or, Bool.not_eq_false] at h2
        exact ⟨fun _ => by simpa using h2, fun e => by rw [h1] at e; cases e⟩
      | succ i =>
        have := k2 i b (by simpa using hb)
        rw [show n + (i + 1) = n + 1 + i by omega]
        exact this
    · obtain ⟨k1, k2⟩ := ih _ _ h
      refine ⟨k1, fun i b hb => ?_⟩
      cases i with
      | zero =>
        simp only [List.getElem?_cons_zero, Option.some.injEq] at hb
        subst hb
        refine ⟨fun e => absurd e h1, fun _ e => h3 ?_⟩
        simp only [Nat.add_zero] at e
        simp [e.1, e.2.1, e.2.2]
      | succ i =>
        have := k2 i b (by simpa using hb)
        rw [show n + (i + 1) = n + 1 + i by omega]
        exact this

theorem scanAll_same (F : Funcs) (f : Fn) : ∀ (ks : List Call) (c : Fn → Var → Bool), (scanAll F f ks c).2.2 = false →
    (scanAll F f ks c).1 = c ∧ ∀ k ∈ ks, Consistent F f c k
  | [], _, _ => ⟨rfl, fun k h => by simp at h⟩
  | k :: ks, c, h => by
    simp only [scanAll, Bool.or_eq_false_iff] at h ⊢
    obtain ⟨h1, h2⟩ := scan_same F f k.callee k.args k.args 0 ⟨c, false, false⟩ h.1
    rw [h1] at h ⊢
    obtain ⟨i1, i2⟩ := scanAll_same F f ks c h.2
    refine ⟨i1, fun k' hk => ?_⟩
    rcases List.mem_cons.mp hk with rfl | hk
    · intro n a hn
      have := h2 n a hn
      simp only [Nat.zero_add] at this
      exact this
    · exact i2 k' hk

theorem scanAll_sub (F : Funcs) (f : Fn) : ∀ (ks : List Call) (c : Fn → Var → Bool), ∀ k ∈ (scanAll F f ks c).2.1, k ∈ ks
  | [], _ => fun k h => by simp [scanAll] at h
  | k :: ks, c => by
    intro k' h
    simp only [scanAll] at h
    split_ifs at h
    · rcases List.mem_cons.mp h with rfl | h
      · simp
      · exact List.mem_cons_of_mem _ (scanAll_sub F f ks _ k' h)
    · exact List.mem_cons_of_mem _ (scanAll_sub F f ks _ k' h)

theorem passC_reqs (F : Funcs) (vs : Fn → List Var) : ∀ (fs : List Fn) (s : Reqs) (f : Fn), ∀ k ∈ (passC F vs fs s).1.reqs f,
    k ∈ s.reqs f
  | [], _, _, _, h => h
  | g :: fs, s, f, k, h => by
    simp only [passC] at h
    split_ifs at h
    · have := passC_reqs F vs fs _ f k h
      simp only at this
      split_ifs at this with e
      · subst e; exact scanAll_sub F f _ _ k this
      · exact this
    · exact passC_reqs F vs fs s f k h

/-- After the last pass all requests of functions with candidates are consistent. -/
theorem passC_consistent (F : Funcs) (vs : Fn → List Var) : ∀ (fs : List Fn) (s : Reqs), (passC F vs fs s).2 = false →
    (passC F vs fs s).1.cand = s.cand ∧ ∀ f ∈ fs, (∃ v ∈ vs f, s.cand f v = true) → ∀ k ∈ (passC F vs fs s).1.reqs f,
      Consistent F f (passC F vs fs s).1.cand k
  | [], s, _ => ⟨rfl, fun f h => by simp at h⟩
  | g :: fs, s, h => by
    simp only [passC] at h ⊢
    split_ifs at h ⊢ with hc
    · simp only [Bool.or_eq_false_iff] at h
      obtain ⟨h1, h2⟩ := scanAll_same F g (s.reqs g) s.cand h.1.2
      have hsub := scanAll_sub F g (s.reqs g) s.cand
      generalize scanAll F g (s.reqs g) s.cand = r at *
      obtain ⟨i1, i2⟩ := passC_consistent F vs fs _ h.2
      simp only at i1 i2 ⊢
      have i1 := i1.trans h1
      refine ⟨i1, fun f hf hv k hk => ?_⟩
      rcases List.mem_cons.mp hf with rfl | hf
      · have := passC_reqs F vs fs _ f k hk
        simp only [if_true] at this
        rw [i1]
        exact h2 k (hsub k this)
      · exact i2 f hf (by rw [h1]; exact hv) k hk
    · obtain ⟨i1, i2⟩ := passC_consistent F vs fs s h
      refine ⟨i1, fun f hf hv k hk => ?_⟩
      rcases List.mem_cons.mp hf with rfl | hf
      · obtain ⟨v, h1, h2⟩ := hv
        exact absurd (List.any_eq_true.mpr ⟨v, h1, h2⟩) (by simpa using hc)
      · exact i2 f hf hv k hk

/-! ### Termination -/

/-- Candidates are only removed. -/
def LeC (c c' : Fn → Var → Bool) : Prop := ∀ f v, c' f v = true → c f v = true

theorem leC_erase (c : Fn → Var → Bool) (f : Fn) (v : Var) : LeC c (eraseC c f v) := by
  intro g w h
  simp only [eraseC] at h
  split_ifs at h
  exact h

theorem leC_args (f : Fn) : ∀ (as : List (Option Var)) (c : Fn → Var → Bool), LeC c (eraseArgs c f as)
  | [], c => fun _ _ h => h
  | none :: as, c => leC_args f as c
  | some v :: as, c => by
    intro g w h
    simp only [eraseArgs] at h
    have := leC_args f as _ g w h
    split_ifs at this
    · exact leC_erase c f v g w this
    · exact this

theorem scan_le (F : Funcs) (f g : Fn) (all : List (Option Var)) : ∀ (as : List (Option Var)) (n : Nat) (r : Res),
    LeC r.cand (scan F f g all n as r).cand := by
  intro as
  induction as with
  | nil => intro n r _ _ h; exact h
  | cons a as ih =>
    intro n r
    simp only [scan]
    split_ifs
    · intro x y h
      exact leC_erase _ _ _ x y (ih _ _ x y h)
    · exact ih _ { r with has := true }
    · exact leC_args f all r.cand
    · exact ih _ r

theorem scanAll_le (F : Funcs) (f : Fn) : ∀ (ks : List Call) (c : Fn → Var → Bool), LeC c (scanAll F f ks c).1
  | [], _ => fun _ _ h => h
  | k :: ks, c => fun x y h => by
    simp only [scanAll] at h
    exact scan_le F f k.callee k.args k.args 0 ⟨c, false, false⟩ x y (scanAll_le F f ks _ x y h)

theorem passC_le (F : Funcs) (vs : Fn → List Var) : ∀ (fs : List Fn) (s : Reqs), LeC s.cand (passC F vs fs s).1.cand
  | [], _ => fun _ _ h => h
  | g :: fs, s => fun x y h => by
    simp only [passC] at h
    split_ifs at h
    · exact scanAll_le F g _ _ x y (passC_le F vs fs _ x y h)
    · exact passC_le F vs fs s x y h

/-- Candidates among known variables and requests. -/
def sizeC (vs : Fn → List Var) (fs : List Fn) (s : Reqs) : Nat :=
  (fs.map (fun f => ((vs f).map (fun v => if s.cand f v then 1 else 0)).sum + (s.reqs f).length)).sum

/-- A change removes a candidate, or the request is removed. -/
theorem scan_progress (F : Funcs) (f g : Fn) (all : List (Option Var)) : ∀ (as : List (Option Var)) (n : Nat) (r : Res),
    (scan F f g all n as r).changed = true → r.changed = true ∨ (scan F f g all n as r).has = false ∨
      ∃ v, some v ∈ as ∧ r.cand f v = true ∧ (scan F f g all n as r).cand f v = false := by
  intro as
  induction as with
  | nil => intro n r h; exact .inl h
  | cons a as ih =>
    intro n r h
    simp only [scan] at h ⊢
    split_ifs at h ⊢ with h1 h2 h3
    · cases a with
      | none => simp [argC] at h1
      | some v =>
        refine .inr (.inr ⟨v, by simp, h1, ?_⟩)
        by_contra hc
        have := scan_le F f g all as (n + 1) { r with cand := eraseC r.cand f v, changed := true } f v
          (by simpa using hc)
        simp [eraseC] at this
    · rcases ih _ _ h with h | h | ⟨v, k1, k2, k3⟩
      · exact .inl h
      · exact .inr (.inl h)
      · exact .inr (.inr ⟨v, by simp [k1], k2, k3⟩)
    · exact .inr (.inl rfl)
    · rcases ih _ _ h with h | h | ⟨v, k1, k2, k3⟩
      · exact .inl h
      · exact .inr (.inl h)
      · exact .inr (.inr ⟨v, by simp [k1], k2, k3⟩)

theorem scanAll_len (F : Funcs) (f : Fn) : ∀ (ks : List Call) (c : Fn → Var → Bool),
    (scanAll F f ks c).2.1.length ≤ ks.length
  | [], _ => Nat.le_refl _
  | k :: ks, c => by
    simp only [scanAll]
    have := scanAll_len F f ks (scan F f k.callee k.args 0 k.args ⟨c, false, false⟩).cand
    split_ifs <;> simp only [List.length_cons] <;> omega

theorem scanAll_progress (F : Funcs) (f : Fn) : ∀ (ks : List Call) (c : Fn → Var → Bool), (scanAll F f ks c).2.2 = true →
    (scanAll F f ks c).2.1.length < ks.length ∨
      ∃ k ∈ ks, ∃ v, some v ∈ k.args ∧ c f v = true ∧ (scanAll F f ks c).1 f v = false
  | [], _, h => by simp [scanAll] at h
  | k :: ks, c, h => by
    have hlen := scanAll_len F f ks (scan F f k.callee k.args 0 k.args ⟨c, false, false⟩).cand
    simp only [scanAll, Bool.or_eq_true] at h ⊢
    by_cases h1 : (scan F f k.callee k.args 0 k.args ⟨c, false, false⟩).changed = true
    · rcases scan_progress F f k.callee k.args k.args 0 ⟨c, false, false⟩ h1 with h2 | h2 | ⟨v, k1, k2, k3⟩
      · cases h2
      · left
        simp only [h2, Bool.false_eq_true, if_false, List.length_cons]
        omega
      · refine .inr ⟨k, by simp, v, k1, k2, ?_⟩
        by_contra hc
        have := scanAll_le F f ks _ f v (by simpa using hc)
        rw [k3] at this
        cases this
    · rcases scanAll_progress F f ks _ (h.resolve_left h1) with h2 | ⟨k', k1, v, k2, k3, k4⟩
      · left
        split_ifs <;> simp only [List.length_cons] <;> omega
      · exact .inr ⟨k', by simp [k1], v, k2, scan_le F f k.callee k.args k.args 0 ⟨c, false, false⟩ f v k3, k4⟩

theorem size_le (vs : Fn → List Var) (fs : List Fn) {s s' : Reqs} (h : LeC s.cand s'.cand)
    (hr : ∀ f, (s'.reqs f).length ≤ (s.reqs f).length) : sizeC vs fs s' ≤ sizeC vs fs s := by
  refine sum_le _ _ _ (fun f _ => Nat.add_le_add (sum_le _ _ _ (fun v _ => ?_)) (hr f))
  have := h f v
  cases h1 : s'.cand f v
  · simp
  · simp [this h1]

theorem size_lt (vs : Fn → List Var) (fs : List Fn) {s s' : Reqs} (h : LeC s.cand s'.cand)
    (hr : ∀ f, (s'.reqs f).length ≤ (s.reqs f).length) (f : Fn) (hf : f ∈ fs)
    (hlt : (s'.reqs f).length < (s.reqs f).length ∨ ∃ v ∈ vs f, s.cand f v = true ∧ s'.cand f v = false) :
    sizeC vs fs s' < sizeC vs fs s := by
  have hv : ∀ g, ∀ v ∈ vs g, (if s'.cand g v then 1 else 0) ≤ (if s.cand g v then 1 else 0 : Nat) := by
    intro g v _
    have := h g v
    cases h1 : s'.cand g v
    · simp
    · simp [this h1]
  refine sum_lt _ _ _ (fun g _ => Nat.add_le_add (sum_le _ _ _ (hv g)) (hr g)) f hf ?_
  rcases hlt with h1 | ⟨v, h1, h2, h3⟩
  · exact Nat.add_lt_add_of_le_of_lt (sum_le _ _ _ (hv f)) h1
  · refine Nat.add_lt_add_of_lt_of_le (sum_lt _ _ _ (hv f) v h1 ?_) (hr f)
    simp [h2, h3]

theorem passC_len (F : Funcs) (vs : Fn → List Var) : ∀ (fs : List Fn) (s : Reqs) (f : Fn),
    ((passC F vs fs s).1.reqs f).length ≤ (s.reqs f).length
  | [], _, _ => Nat.le_refl _
  | g :: fs, s, f => by
    simp only [passC]
    split_ifs
    · refine Nat.le_trans (passC_len F vs fs _ f) ?_
      simp only
      split_ifs with e
      · subst e; exact scanAll_len F f _ _
      · exact Nat.le_refl _
    · exact passC_len F vs fs s f

/-- Variables in arguments of requests are variables of a function. -/
def Scoped (vs : Fn → List Var) (s : Reqs) : Prop := ∀ f, ∀ k ∈ s.reqs f, ∀ v, some v ∈ k.args → v ∈ vs f

theorem passC_lt (F : Funcs) (vs : Fn → List Var) (all : List Fn) (hex : ∀ f, F.explicit f = []) :
    ∀ (fs : List Fn) (s : Reqs), Scoped vs s → (∀ f ∈ fs, f ∈ all) → (passC F vs fs s).2 = true →
    sizeC vs all (passC F vs fs s).1 < sizeC vs all s
  | [], _, _, _, h => by simp [passC] at h
  | g :: fs, s, hs, ha, h => by
    simp only [passC] at h ⊢
    split_ifs at h ⊢
    · have hx : scanExplicit F g s.cand = false := by simp [scanExplicit, hex]
      simp only [hx, Bool.false_or, Bool.or_eq_true] at h
      have hlen : ∀ f, ((if f = g then (scanAll F g (s.reqs g) s.cand).2.1 else s.reqs f)).length ≤ (s.reqs f).length := by
        intro f
        split_ifs with e
        · subst e; exact scanAll_len F f _ _
        · exact Nat.le_refl _
      by_cases h1 : (scanAll F g (s.reqs g) s.cand).2.2 = true
      · refine Nat.lt_of_le_of_lt (size_le vs all (passC_le F vs fs _) (passC_len F vs fs _)) ?_
        refine size_lt vs all (scanAll_le F g _ _) hlen g (ha g (by simp)) ?_
        rcases scanAll_progress F g _ _ h1 with h2 | ⟨k, k1, v, k2, k3, k4⟩
        · exact .inl (by simpa using h2)
        · exact .inr ⟨v, hs g k k1 v k2, k3, k4⟩
      · refine Nat.lt_of_lt_of_le (passC_lt F vs all hex fs _ ?_ (fun f hf => ha f (by simp [hf])) (h.resolve_left h1))
          (size_le vs all (scanAll_le F g _ _) hlen)
        intro f k hk v hv
        simp only at hk
        split_ifs at hk with e
        · subst e; exact hs f k (scanAll_sub F f _ _ k hk) v hv
        · exact hs f k hk v hv
    · exact passC_lt F vs all hex fs s hs (fun f hf => ha f (by simp [hf])) h

/-- A loop terminates if there are no explicit requests. -/
theorem inCalls_terminates_partial (F : Funcs) (vs : Fn → List Var) (fs : List Fn) (hex : ∀ f, F.explicit f = []) :
    ∀ (s : Reqs), Scoped vs s → ∃ n, (passC F vs fs (passesC F vs fs n s)).2 = false := by
  intro s
  induction hm : sizeC vs fs s using Nat.strong_induction_on generalizing s with
  | _ k ih =>
    intro hs
    cases h : (passC F vs fs s).2 with
    | false => exact ⟨0, h⟩
    | true =>
      have hlt := passC_lt F vs fs hex fs s hs (fun f h => h) h
      rw [hm] at hlt
      obtain ⟨n, hn⟩ := ih _ hlt (passC F vs fs s).1 rfl
        (fun f k hk v hv => hs f k (passC_reqs F vs fs s f k hk) v hv)
      exact ⟨n + 1, hn⟩

def exFuncs (explicit : Fn → List Call) : Funcs := ⟨fun _ => true, fun _ n => n, fun g _ => g == 1, explicit⟩

/-- A function 0 calls a function 1 and passes candidates 0 and 1, the second parameter of the function 1 is not
a candidate any more. -/
example :
    let F : Funcs := ⟨fun _ => true, fun _ n => n, fun _ _ => false, fun _ => []⟩
    let s : Reqs := ⟨fun f v => f = 0 || v = 0, fun f => if f = 0 then [⟨1, [some 0, some 1]⟩] else []⟩
    (passC F (fun _ => [0, 1]) [0, 1] s).2 = true ∧
    (passC F (fun _ => [0, 1]) [0, 1] (passC F (fun _ => [0, 1]) [0, 1] s).1).2 = false ∧
    (passC F (fun _ => [0, 1]) [0, 1] s).1.cand 0 0 = true ∧ (passC F (fun _ => [0, 1]) [0, 1] s).1.cand 0 1 = false ∧
    (passC F (fun _ => [0, 1]) [0, 1] s).1.reqs 0 = [⟨1, [some 0, some 1]⟩] := by decide

/-! ### Requests are not lost -/

theorem argC_le {c c' : Fn → Var → Bool} (h : LeC c c') {f : Fn} {a : Option Var} (ha : argC c f a = false) :
    argC c' f a = false := by
  cases a with
  | none => rfl
  | some v =>
    simp only [argC] at ha ⊢
    cases hc : c' f v with
    | false => rfl
    | true => rw [h f v hc] at ha; exact ha

theorem eraseArgs_false (f : Fn) : ∀ (as : List (Option Var)) (c : Fn → Var → Bool), ∀ a ∈ as,
    argC (eraseArgs c f as) f a = false
  | [], _ => fun a h => by simp at h
  | none :: as, c => by
    intro a h
    rcases List.mem_cons.mp h with rfl | h
    · rfl
    · exact eraseArgs_false f as c a h
  | some v :: as, c => by
    intro a h
    simp only [eraseArgs]
    rcases List.mem_cons.mp h with rfl | h
    · refine argC_le (leC_args f as _) ?_
      split_ifs with h1
      · simp [argC, eraseC]
      · simpa [argC] using h1
    · exact eraseArgs_false f as _ a h

theorem scan_drop (F : Funcs) (f g : Fn) (all : List (Option Var)) : ∀ (as : List (Option Var)) (n : Nat) (r : Res),
    (∀ a ∈ as, a ∈ all) → (scan F f g all n as r).has = false →
    (∀ a ∈ as, argC (scan F f g all n as r).cand f a = false) ∧
    (r.has = true → ∀ a ∈ all, argC (scan F f g all n as r).cand f a = false) := by
  intro as
  induction as with
  | nil => intro n r _ h; exact ⟨fun a ha => by simp at ha, fun h' => by rw [scan, h'] at h; cases h⟩
  | cons a as ih =>
    intro n r hs h
    simp only [scan] at h ⊢
    split_ifs at h ⊢ with h1 h2 h3
    · obtain ⟨i1, i2⟩ := ih _ _ (fun x hx => hs x (by simp [hx])) h
      refine ⟨fun x hx => ?_, i2⟩
      rcases List.mem_cons.mp hx with rfl | hx
      · refine argC_le (scan_le F f g all as (n + 1) _) ?_
        cases x with
        | none => rfl
        | some v => simp [argC, eraseC]
      · exact i1 x hx
    · obtain ⟨i1, i2⟩ := ih _ _ (fun x hx => hs x (by simp [hx])) h
      exact ⟨fun x hx => i2 rfl x (hs x hx), fun _ => i2 rfl⟩
    · exact ⟨fun x hx => eraseArgs_false f all r.cand x (hs x hx), fun _ x hx => eraseArgs_false f all r.cand x hx⟩
    · obtain ⟨i1, i2⟩ := ih _ _ (fun x hx => hs x (by simp [hx])) h
      refine ⟨fun x hx => ?_, i2⟩
      rcases List.mem_cons.mp hx with rfl | hx
      · exact argC_le (scan_le F f g all as (n + 1) _) (by simpa using h1)
      · exact i1 x hx

theorem scanAll_keeps (F : Funcs) (f : Fn) : ∀ (ks : List Call) (c c' : Fn → Var → Bool), LeC (scanAll F f ks c).1 c' →
    ∀ k ∈ ks, (∃ a ∈ k.args, argC c' f a = true) → k ∈ (scanAll F f ks c).2.1
  | [], _, _, _ => fun k h => by simp at h
  | k :: ks, c, c', hle => by
    intro k' hk ha
    simp only [scanAll] at hle ⊢
    have ih := scanAll_keeps F f ks _ c' hle
    rcases List.mem_cons.mp hk with rfl | hk
    · split_ifs with h
      · simp
      · obtain ⟨a, h1, h2⟩ := ha
        have := (scan_drop F f k'.callee k'.args k'.args 0 ⟨c, false, false⟩ (fun _ h => h) (by simpa using h)).1 a h1
        have := argC_le (scanAll_le F f ks _) this
        rw [argC_le hle this] at h2
        cases h2
    · have := ih k' hk ha
      split_ifs
      · exact List.mem_cons_of_mem _ this
      · exact this

theorem passC_keeps (F : Funcs) (vs : Fn → List Var) : ∀ (fs : List Fn) (s : Reqs) (c' : Fn → Var → Bool),
    LeC (passC F vs fs s).1.cand c' → ∀ (f : Fn), ∀ k ∈ s.reqs f, (∃ a ∈ k.args, argC c' f a = true) →
    k ∈ (passC F vs fs s).1.reqs f
  | [], _, _, _ => fun _ _ h _ => h
  | g :: fs, s, c', hle => by
    intro f k hk ha
    simp only [passC] at hle ⊢
    split_ifs at hle ⊢ with hc
    · refine passC_keeps F vs fs _ c' hle f k ?_ ha
      simp only
      split_ifs with e
      · subst e
        refine scanAll_keeps F f (s.reqs f) s.cand c' (fun x y h => ?_) k hk ha
        exact passC_le F vs fs _ x y (hle x y h)
      · exact hk
    · exact passC_keeps F vs fs s c' hle f k hk ha

/-- A call with an argument which is replaced in a caller remains requested, so the call is replaced. -/
theorem inCalls_keeps (F : Funcs) (vs : Fn → List Var) (fs : List Fn) : ∀ (n : Nat) (s : Reqs) (f : Fn), ∀ k ∈ s.reqs f,
    (∃ a ∈ k.args, argC (passesC F vs fs n s).cand f a = true) → k ∈ (passesC F vs fs n s).reqs f
  | 0, _, _, _, hk, _ => hk
  | n + 1, s, f, k, hk, ha => by
    have hle : ∀ (n : Nat) (s : Reqs), LeC s.cand (passesC F vs fs n s).cand := by
      intro n
      induction n with
      | zero => intro s _ _ h; exact h
      | succ n ih => intro s x y h; exact passC_le F vs fs s x y (ih _ x y h)
    exact inCalls_keeps F vs fs n _ f k (passC_keeps F vs fs s _ (hle n _) f k hk ha) ha

/-! ### Candidates are not removed without need -/

theorem scan_precise (F : Funcs) (f g : Fn) (all : List (Option Var)) : ∀ (as : List (Option Var)) (n : Nat) (r : Res),
    (∀ i a, as[i]? = some a →
      (argC r.cand f a = true → F.known g = true ∧ r.cand g (F.param g (n + i)) = true) ∧
      (argC r.cand f a = false → ¬ (F.known g = true ∧ r.cand g (F.param g (n + i)) = true ∧
        F.arr g (F.param g (n + i)) = true))) →
    (scan F f g all n as r).cand = r.cand ∧ (scan F f g all n as r).changed = r.changed := by
  intro as
  induction as with
  | nil => intro n r _; exact ⟨rfl, rfl⟩
  | cons a as ih =>
    intro n r h
    have h0 := h 0 a rfl
    have hn : ∀ i b, as[i]? = some b →
      (argC r.cand f b = true → F.known g = true ∧ r.cand g (F.param g (n + 1 + i)) = true) ∧
      (argC r.cand f b = false → ¬ (F.known g = true ∧ r.cand g (F.param g (n + 1 + i)) = true ∧
        F.arr g (F.param g (n + 1 + i)) = true)) := by
      intro i b hb
      have := h (i + 1) b (by simpa using hb)
      rwa [show n + (i + 1) = n + 1 + i by omega] at this
    simp only [scan]
    split_ifs with h1 h2 h3
    · obtain ⟨k1, k2⟩ := h0.1 h1
      rw [Nat.add_zero] at k2
      simp [k1, k2] at h2
    · exact ih (n + 1) { r with has := true } hn
    · simp only [Bool.and_eq_true] at h3
      exact absurd ⟨h3.1.1, h3.1.2, h3.2⟩ (h0.2 (by simpa using h1))
    · exact ih (n + 1) r hn

theorem scanAll_precise (F : Funcs) (f : Fn) : ∀ (ks : List Call) (c : Fn → Var → Bool), (∀ k ∈ ks, Consistent F f c k) →
    (scanAll F f ks c).1 = c ∧ (scanAll F f ks c).2.2 = false
  | [], _, _ => ⟨rfl, rfl⟩
  | k :: ks, c, h => by
    obtain ⟨h1, h2⟩ := scan_precise F f k.callee k.args k.args 0 ⟨c, false, false⟩ (fun i a ha => by
      simpa using h k (by simp) i a ha)
    simp only [scanAll]
    rw [h1, h2]
    simpa using scanAll_precise F f ks c (fun k' hk => h k' (by simp [hk]))

/-- If all requests are consistent then all candidates are replaced. -/
theorem inCalls_precise (F : Funcs) (vs : Fn → List Var) (hex : ∀ f, F.explicit f = []) : ∀ (fs : List Fn) (s : Reqs),
    (∀ f ∈ fs, ∀ k ∈ s.reqs f, Consistent F f s.cand k) →
    (passC F vs fs s).1.cand = s.cand ∧ (passC F vs fs s).2 = false
  | [], _, _ => ⟨rfl, rfl⟩
  | g :: fs, s, h => by
    simp only [passC]
    split_ifs with hc
    · obtain ⟨h1, h2⟩ := scanAll_precise F g (s.reqs g) s.cand (h g (by simp))
      have hsub := scanAll_sub F g (s.reqs g) s.cand
      generalize scanAll F g (s.reqs g) s.cand = r at *
      obtain ⟨i1, i2⟩ := inCalls_precise F vs hex fs ⟨r.1, fun x => if x = g then r.2.1 else s.reqs x⟩ (by
        intro f hf k hk
        simp only at hk ⊢
        rw [h1]
        split_ifs at hk with e
        · subst e; exact h f (by simp) k (hsub k hk)
        · exact h f (by simp [hf]) k hk)
      refine ⟨i1.trans h1, ?_⟩
      simp [i2, h2, scanExplicit, hex]
    · exact inCalls_precise F vs hex fs s (fun f hf => h f (by simp [hf]))

/-- In general it does not terminate: a function has a candidate, and an argument of an explicitly requested call which
corresponds to an array is not a candidate. -/
theorem inCalls_terminates_fails : ∃ (F : Funcs) (vs : Fn → List Var) (fs : List Fn) (s : Reqs), Scoped vs s ∧
    ∀ n, (passC F vs fs (passesC F vs fs n s)).2 = true := by
  refine ⟨exFuncs (fun f => if f = 0 then [⟨1, [none]⟩] else []), fun _ => [0], [0], ⟨fun _ _ => true, fun _ => []⟩, ?_, ?_⟩
  · intro f k h; simp at h
  · have hs : passC (exFuncs (fun f => if f = 0 then [⟨1, [none]⟩] else [])) (fun _ => [0]) [0]
        ⟨fun _ _ => true, fun _ => []⟩ = (⟨fun _ _ => true, fun _ => []⟩, true) := by
      refine Prod.ext ?_ (by decide)
      simp [passC, scanAll]
    have : ∀ n, passesC (exFuncs (fun f => if f = 0 then [⟨1, [none]⟩] else [])) (fun _ => [0]) [0] n
        ⟨fun _ _ => true, fun _ => []⟩ = ⟨fun _ _ => true, fun _ => []⟩ := by
      intro n
      induction n with
      | zero => rfl
      | succ n ih => simp only [passesC]; rw [hs]; exact ih
    intro n
    rw [this n, hs]

/-! ### New functions -/

/-- `insertNewFunctions()` (StructureReplacement.cpp:1397-1436): new functions are built for functions of a component
with candidates, and texts are inserted after definitions of these functions. The iterator over new functions is not
incremented. -/
def insertNew {α : Type} (build : Fn → Option α) (has : Fn → Bool) (scc : List Fn) : Option (List (Fn × α)) :=
  match (scc.filter has).mapM build with
  | none => none
  | some [] => some []
  | some (t :: _) => some ((scc.filter has).map (fun f => (f, t)))

/-- A new version of a function is inserted after its definition if there is at most one function with candidates in
a component. -/
theorem insertNew_own_partial {α : Type} (build : Fn → Option α) (has : Fn → Bool) (scc : List Fn) (r : List (Fn × α))
    (h : insertNew build has scc = some r) (h1 : (scc.filter has).length ≤ 1) :
    r.map Prod.fst = scc.filter has ∧ ∀ p ∈ r, build p.1 = some p.2 := by
  unfold insertNew at h
  cases hf : scc.filter has with
  | nil => simp [hf] at h; subst h; simp
  | cons f fs =>
    have : fs = [] := by
      rw [hf] at h1
      cases fs with
      | nil => rfl
      | cons _ _ => simp at h1
    subst this
    simp only [hf, List.mapM_cons, List.mapM_nil] at h
    cases hb : build f with
    | none => simp [hb] at h
    | some t =>
      simp [hb] at h
      subst h
      simpa using hb

example : insertNew (fun f => some (f + 10)) (fun f => f != 3) [3, 4] = some [(4, 14)] := by decide

/-- If functions call each other then a new version of the first one is inserted several times. -/
theorem insertNew_own_fails : ∃ (build : Fn → Option Nat) (has : Fn → Bool) (scc : List Fn) (r : List (Fn × Nat)),
    insertNew build has scc = some r ∧ ∃ p ∈ r, build p.1 ≠ some p.2 :=
  ⟨some, fun _ => true, [1, 2], [(1, 1), (2, 1)], by decide, (2, 1), by simp, by decide⟩

end Tsar.StructRepl
