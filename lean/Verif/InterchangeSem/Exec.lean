import Verif.InterchangeSem.Spec
import Mathlib.Data.List.Perm.Basic
import Mathlib.Data.List.Nodup
import Mathlib.Data.List.Infix
import Mathlib.Tactic.Push
import Mathlib.Tactic.Linarith
import Mathlib.Tactic.Ring

/-!
# Executions of nests and lists of iterations
-/

namespace Tsar.InterchangeSem

/-! ## Determinism -/

theorem Iter.det {h : Hdr} {B : State → State → Prop} (hB : ∀ s t t', B s t → B s t' → t = t')
    {s t : State} (ht : Iter h B s t) : ∀ {t'}, Iter h B s t' → t = t' := by
  induction ht with
  | done hc =>
    intro t' h'
    cases h' with
    | done => rfl
    | step hc' => exact absurd hc' hc
  | step hc hb hr ih =>
    intro t' h'
    cases h' with
    | done hc' => exact absurd hc hc'
    | step hc' hb' hr' =>
      have := hB _ _ _ hb hb'
      subst this
      exact ih hr'

theorem Exec.det {body : State → State} : ∀ {hs : List Hdr} {s t t' : State},
    Exec body hs s t → Exec body hs s t' → t = t'
  | [], _, _, _, h, h' => by rw [Exec] at h h'; rw [h, h']
  | k :: hs, _, _, _, h, h' =>
    Iter.det (h := k) (B := Exec body hs) (fun _ _ _ a b => Exec.det a b) h h'

/-! ## Values of an induction variable -/

/-- Values of a variable from `a` with a step `d` which are less than `b`. -/
inductive Vals (b d : ℤ) : ℤ → List ℤ → Prop
  | nil {a : ℤ} (h : ¬ a < b) : Vals b d a []
  | cons {a : ℤ} {l : List ℤ} (h : a < b) (hl : Vals b d (a + d) l) : Vals b d a (a :: l)

theorem Vals.exists {b d : ℤ} (hd : 0 < d) : ∀ (n : ℕ) (a : ℤ), (b - a).toNat ≤ n →
    ∃ l, Vals b d a l
  | n, a, hn => by
    by_cases h : a < b
    · cases n with
      | zero => omega
      | succ n =>
        obtain ⟨l, hl⟩ := Vals.exists (b := b) hd n (a + d) (by omega)
        exact ⟨_, .cons h hl⟩
    · exact ⟨_, .nil h⟩

theorem Vals.mem {b d : ℤ} {a : ℤ} {l : List ℤ} (h : Vals b d a l) :
    ∀ c ∈ l, (∃ i : ℕ, c = a + d * i) ∧ c < b := by
  induction h with
  | nil => intro c hc; cases hc
  | @cons a l h _ ih =>
    intro c hc
    rcases List.mem_cons.1 hc with rfl | hc
    · exact ⟨⟨0, by simp⟩, h⟩
    · obtain ⟨⟨i, hi⟩, hb⟩ := ih c hc
      exact ⟨⟨i + 1, by rw [hi]; push_cast; ring⟩, hb⟩

theorem Vals.ge {b d : ℤ} (hd : 0 < d) {a : ℤ} {l : List ℤ} (h : Vals b d a l) :
    ∀ c ∈ l, a ≤ c := by
  induction h with
  | nil => intro c hc; cases hc
  | cons h _ ih =>
    intro c hc
    rcases List.mem_cons.1 hc with rfl | hc
    · exact le_refl _
    · have := ih c hc; omega

theorem Vals.nodup {b d : ℤ} (hd : 0 < d) {a : ℤ} {l : List ℤ} (h : Vals b d a l) : l.Nodup := by
  induction h with
  | nil => exact List.nodup_nil
  | cons h hl ih =>
    refine List.nodup_cons.2 ⟨fun hm => ?_, ih⟩
    have := Vals.ge hd hl _ hm
    omega

/-! ## Lists of iterations -/

theorem upd_self (s : State) (x : Loc) : upd s x (s x) = s := by
  funext y
  simp only [upd]
  split
  · next h => rw [h]
  · rfl

theorem upd_same (s : State) (x : Loc) (a : ℤ) : upd s x a x = a := by simp [upd]

theorem upd_ne {s : State} {x y : Loc} {a : ℤ} (h : y ≠ x) : upd s x a y = s y := by simp [upd, h]

theorem upd_comm {s : State} {x y : Loc} {a b : ℤ} (h : x ≠ y) :
    upd (upd s x a) y b = upd (upd s y b) x a := by
  funext z
  simp only [upd]
  by_cases h1 : z = y
  · subst h1
    rw [if_pos rfl, if_neg (Ne.symm h), if_pos rfl]
  · rw [if_neg h1, if_neg h1]

/-- Iterations of a nest in the order of execution; `vl` are values of variables. -/
def enum (vl : Hdr → List ℤ) : List Hdr → Vec → List Vec
  | [], v => [v]
  | h :: hs, v => (vl h).flatMap fun a => enum vl hs (upd v h.var a)

theorem enum_congr (vl : Hdr → List ℤ) : ∀ (hs : List Hdr) (v v' : Vec),
    (∀ x, ¬ IsVar hs x → v x = v' x) → enum vl hs v = enum vl hs v'
  | [], v, v', h => by
    have : v = v' := funext fun x => h x (by rintro ⟨_, hm, _⟩; cases hm)
    rw [this]
  | k :: hs, v, v', h => by
    simp only [enum]
    congr 1
    funext a
    refine enum_congr vl hs _ _ fun x hx => ?_
    by_cases e : x = k.var
    · rw [e, upd_same, upd_same]
    · rw [upd_ne e, upd_ne e]
      refine h x ?_
      rintro ⟨k', hm, e'⟩
      rcases List.mem_cons.1 hm with rfl | hm
      · exact e e'.symm
      · exact hx ⟨k', hm, e'⟩

theorem flatMap_comm {α β γ : Type} (l : List α) (l' : List β) (f : α → β → List γ) :
    (l.flatMap fun a => l'.flatMap fun b => f a b).Perm
      (l'.flatMap fun b => l.flatMap fun a => f a b) := by
  induction l with
  | nil => simp
  | cons a l ih =>
    simp only [List.flatMap_cons]
    refine (List.Perm.append_left _ ih).trans ?_
    clear ih
    induction l' with
    | nil => simp
    | cons b l' ih =>
      simp only [List.flatMap_cons]
      rw [List.append_assoc, List.append_assoc]
      refine List.Perm.append_left _ ?_
      refine List.Perm.trans ?_ (List.Perm.append_left _ ih)
      rw [← List.append_assoc, ← List.append_assoc]
      exact List.Perm.append_right _ List.perm_append_comm

theorem enum_perm (vl : Hdr → List ℤ) {hs hs' : List Hdr} (h : hs.Perm hs') :
    (hs.map Hdr.var).Nodup → ∀ v, (enum vl hs v).Perm (enum vl hs' v) := by
  induction h with
  | nil => intro _ v; exact List.Perm.refl _
  | cons k _ ih =>
    intro hn v
    rw [List.map_cons, List.nodup_cons] at hn
    simp only [enum]
    exact List.Perm.flatMap_left _ fun a _ => ih hn.2 _
  | swap k k' l =>
    intro hn v
    simp only [List.map_cons, List.nodup_cons, List.mem_cons, not_or] at hn
    simp only [enum]
    refine (flatMap_comm _ _ _).trans ?_
    have : ∀ a b, upd (upd v k'.var b) k.var a = upd (upd v k.var a) k'.var b :=
      fun a b => upd_comm (fun e => hn.1.1 e)
    simp only [this]
    exact List.Perm.refl _
  | trans h1 h2 ih1 ih2 =>
    intro hn v
    exact (ih1 hn v).trans (ih2 ((h1.map _).nodup_iff.1 hn) v)

theorem enum_mem (vl : Hdr → List ℤ) : ∀ (hs : List Hdr), (hs.map Hdr.var).Nodup → ∀ (v v' : Vec),
    v' ∈ enum vl hs v →
    (∀ h ∈ hs, v' h.var ∈ vl h) ∧ ∀ x, ¬ IsVar hs x → v' x = v x
  | [], _, v, v', h => by
    rw [enum, List.mem_singleton] at h
    subst h
    exact ⟨fun _ hm => (by cases hm), fun _ _ => rfl⟩
  | k :: hs, hn, v, v', h => by
    rw [List.map_cons, List.nodup_cons] at hn
    simp only [enum, List.mem_flatMap] at h
    obtain ⟨a, ha, h⟩ := h
    obtain ⟨h1, h2⟩ := enum_mem vl hs hn.2 _ _ h
    have hk : ¬ IsVar hs k.var := by
      rintro ⟨k', hm, e⟩
      exact hn.1 (List.mem_map.2 ⟨k', hm, e⟩)
    refine ⟨fun k' hm => ?_, fun x hx => ?_⟩
    · rcases List.mem_cons.1 hm with rfl | hm
      · rw [h2 _ hk, upd_same]; exact ha
      · exact h1 k' hm
    · rw [h2 x fun ⟨k', hm, e⟩ => hx ⟨k', List.mem_cons_of_mem _ hm, e⟩]
      exact upd_ne fun e => hx ⟨k, List.mem_cons_self, e.symm⟩

theorem enum_nodup (vl : Hdr → List ℤ) : ∀ (hs : List Hdr), (hs.map Hdr.var).Nodup →
    (∀ h ∈ hs, (vl h).Nodup) → ∀ (v : Vec), (enum vl hs v).Nodup
  | [], _, _, v => by simp [enum]
  | k :: hs, hn, hv, v => by
    rw [List.map_cons, List.nodup_cons] at hn
    simp only [enum]
    have hk : ¬ IsVar hs k.var := by
      rintro ⟨k', hm, e⟩
      exact hn.1 (List.mem_map.2 ⟨k', hm, e⟩)
    rw [List.nodup_flatMap]
    refine ⟨fun a _ => enum_nodup vl hs hn.2 (fun h hm => hv h (List.mem_cons_of_mem _ hm)) _, ?_⟩
    refine List.Pairwise.imp ?_ (hv k List.mem_cons_self)
    intro a b hab w hw hw'
    have h1 := (enum_mem vl hs hn.2 _ _ hw).2 k.var hk
    have h2 := (enum_mem vl hs hn.2 _ _ hw').2 k.var hk
    rw [upd_same] at h1 h2
    exact hab (h1.symm.trans h2)

theorem enum_nonempty (vl : Hdr → List ℤ) (hs : List Hdr) (hn : (hs.map Hdr.var).Nodup) {v : Vec}
    (h : enum vl hs v ≠ []) : ∀ k ∈ hs, vl k ≠ [] := by
  intro k hk e
  obtain ⟨w, hw⟩ := List.exists_mem_of_ne_nil _ h
  have := (enum_mem vl hs hn _ _ hw).1 k hk
  rw [e] at this
  cases this

theorem enum_last (vl : Hdr → List ℤ) : ∀ (hs : List Hdr), (hs.map Hdr.var).Nodup →
    (∀ k ∈ hs, vl k ≠ []) → ∀ v : Vec, ∃ L w, enum vl hs v = L ++ [w] ∧
      (∀ h ∈ hs, w h.var = (vl h).getLast?.getD 0) ∧ ∀ x, ¬ IsVar hs x → w x = v x
  | [], _, _, v => ⟨[], v, rfl, fun _ hm => (by cases hm), fun _ _ => rfl⟩
  | k :: hs, hn, hv, v => by
    rw [List.map_cons, List.nodup_cons] at hn
    have hk : ¬ IsVar hs k.var := by
      rintro ⟨k', hm, e⟩
      exact hn.1 (List.mem_map.2 ⟨k', hm, e⟩)
    obtain ⟨l, a, hl⟩ : ∃ l a, vl k = l ++ [a] :=
      ⟨_, _, (List.dropLast_append_getLast (hv k List.mem_cons_self)).symm⟩
    obtain ⟨L, w, e, h1, h2⟩ := enum_last vl hs hn.2
      (fun k' hm => hv k' (List.mem_cons_of_mem _ hm)) (upd v k.var a)
    refine ⟨(l.flatMap fun a => enum vl hs (upd v k.var a)) ++ L, w, ?_, fun h hm => ?_,
      fun x hx => ?_⟩
    · simp only [enum]
      rw [hl, List.flatMap_append, List.flatMap_cons, List.flatMap_nil, List.append_nil, e,
        List.append_assoc]
    · rcases List.mem_cons.1 hm with rfl | hm
      · rw [h2 _ hk, upd_same, hl]
        simp
      · exact h1 h hm
    · rw [h2 x fun ⟨k', hm, e⟩ => hx ⟨k', List.mem_cons_of_mem _ hm, e⟩]
      exact upd_ne fun e => hx ⟨k, List.mem_cons_self, e.symm⟩

/-! ## Execution of a list of iterations -/

open Classical in
/-- The state in which an iteration of a nest is executed. -/
noncomputable def setVars (hs : List Hdr) (s : State) (v : Vec) : State :=
  fun x => if IsVar hs x then v x else s x

/-- Execution of an iteration. -/
noncomputable def inst (hs : List Hdr) (body : State → State) (s : State) (v : Vec) : State :=
  body (setVars hs s v)

/-- Execution of a list of iterations. -/
noncomputable def runL (hs : List Hdr) (body : State → State) (L : List Vec) (s : State) : State :=
  L.foldl (inst hs body) s

theorem setVars_var {hs : List Hdr} {s : State} {v : Vec} {x : Loc} (h : IsVar hs x) :
    setVars hs s v x = v x := by simp only [setVars, if_pos h]

theorem setVars_ne {hs : List Hdr} {s : State} {v : Vec} {x : Loc} (h : ¬ IsVar hs x) :
    setVars hs s v x = s x := by simp only [setVars, if_neg h]

theorem setVars_congr {hs : List Hdr} {s s' : State} (h : ∀ x, ¬ IsVar hs x → s x = s' x) (v : Vec) :
    setVars hs s v = setVars hs s' v := by
  funext x
  by_cases hx : IsVar hs x
  · rw [setVars_var hx, setVars_var hx]
  · rw [setVars_ne hx, setVars_ne hx, h x hx]

theorem setVars_self {hs : List Hdr} {s : State} : setVars hs s (vecOf hs s) = s := by
  funext x
  by_cases hx : IsVar hs x
  · rw [setVars_var hx, vecOf, if_pos hx]
  · rw [setVars_ne hx]

theorem vecOf_setVars {hs : List Hdr} {s : State} {v : Vec} (hv : ∀ x, ¬ IsVar hs x → v x = 0) :
    vecOf hs (setVars hs s v) = v := by
  funext x
  by_cases hx : IsVar hs x
  · rw [vecOf, if_pos hx, setVars_var hx]
  · rw [vecOf, if_neg hx, hv x hx]

theorem runL_congr {hs : List Hdr} {body : State → State} {s s' : State}
    (h : ∀ x, ¬ IsVar hs x → s x = s' x) (L : List Vec) :
    ∀ x, ¬ IsVar hs x → runL hs body L s x = runL hs body L s' x := by
  cases L with
  | nil => exact h
  | cons v L =>
    intro x _
    simp only [runL, List.foldl_cons, inst, setVars_congr h v]

theorem runL_append {hs : List Hdr} {body : State → State} {s : State} (L L' : List Vec) :
    runL hs body (L ++ L') s = runL hs body L' (runL hs body L s) := by
  simp only [runL, List.foldl_append]

theorem runL_keep {hs : List Hdr} {acc : Acc} {body : State → State} (hd : Describes hs acc body)
    {x : Loc} (hx : ¬ IsVar hs x) : ∀ {L : List Vec} {s : State},
    (∀ v ∈ L, ∀ y, ¬ IsVar hs y → v y = 0) → (∀ v ∈ L, ¬ acc.W v x) →
    runL hs body L s x = s x
  | [], _, _, _ => rfl
  | v :: L, s, h0, hL => by
    have e : runL hs body (v :: L) s = runL hs body L (inst hs body s v) := rfl
    rw [e, runL_keep hd hx (fun w hw => h0 w (List.mem_cons_of_mem _ hw))
      fun w hw => hL w (List.mem_cons_of_mem _ hw)]
    rw [inst, hd.keep, setVars_ne hx]
    rw [vecOf_setVars (h0 v List.mem_cons_self)]
    exact hL v List.mem_cons_self

/-! ## A nest executes a list of iterations -/

theorem eval_congr {s t : State} : ∀ {e : Val}, (∀ x, e.Reads x → s x = t x) → e.eval s = e.eval t
  | .const _, _ => rfl
  | .load x, h => h x rfl
  | .call reads f, h => by
    simp only [Val.eval]
    congr 1
    exact List.map_congr_left fun x hx => h x hx
  | .op f a b, h => by
    simp only [Val.eval]
    rw [eval_congr (e := a) fun x hx => h x (Or.inl hx),
      eval_congr (e := b) fun x hx => h x (Or.inr hx)]

/-- Locations which are read by headers. -/
def BR (hs : List Hdr) (x : Loc) : Prop :=
  ∃ h ∈ hs, h.start.Reads x ∨ h.stop.Reads x ∨ h.step.Reads x

/-- Conditions for execution of nests which are built of headers `hs`. -/
structure Env (hs : List Hdr) (acc : Acc) (body : State → State) (s₀ : State)
    (vl : Hdr → List ℤ) : Prop where
  desc : Describes hs acc body
  bounds : ∀ x, BR hs x → ¬ IsVar hs x ∧ ∀ v, ¬ acc.W v x
  fixed : ∀ x, IsVar hs x → ∀ v, ¬ acc.W v x
  vals : ∀ h ∈ hs, Vals (h.stop.eval s₀) (h.step.eval s₀) (h.start.eval s₀) (vl h)

/-- The value of an induction variable after a loop. -/
def fin (s₀ : State) (vl : Hdr → List ℤ) (h : Hdr) : ℤ :=
  h.start.eval s₀ + h.step.eval s₀ * (vl h).length

theorem enum_zero {hs ks : List Hdr} (hk : ∀ k ∈ ks, k ∈ hs) (hn : (ks.map Hdr.var).Nodup)
    {vl : Hdr → List ℤ} {v : Vec} (h0 : ∀ y, ¬ IsVar hs y → v y = 0) :
    ∀ w ∈ enum vl ks v, ∀ y, ¬ IsVar hs y → w y = 0 := by
  intro w hw y hy
  rw [(enum_mem vl ks hn _ _ hw).2 y fun ⟨k, hm, e⟩ => hy ⟨k, hk k hm, e⟩]
  exact h0 y hy

theorem vecOf_zero {hs : List Hdr} {s : State} : ∀ y, ¬ IsVar hs y → vecOf hs s y = 0 :=
  fun _ hy => by rw [vecOf, if_neg hy]

theorem exec_exists {hs : List Hdr} {acc : Acc} {body : State → State} {s₀ : State}
    {vl : Hdr → List ℤ} (E : Env hs acc body s₀ vl) : ∀ (ks : List Hdr), (∀ k ∈ ks, k ∈ hs) →
    (ks.map Hdr.var).Nodup → ∀ s : State, (∀ x, BR hs x → s x = s₀ x) →
    ∃ t, Exec body ks s t ∧
      (∀ x, ¬ IsVar hs x → t x = runL hs body (enum vl ks (vecOf hs s)) s x) ∧
      (∀ x, IsVar hs x → ¬ IsVar ks x → t x = s x) ∧
      ((∀ k ∈ ks, vl k ≠ []) → ∀ k ∈ ks, t k.var = fin s₀ vl k)
  | [], _, _, s, _ => by
    refine ⟨body s, rfl, fun x _ => ?_, fun x hx _ => ?_, fun _ _ hk => by cases hk⟩
    · simp only [enum, runL, List.foldl_cons, List.foldl_nil, inst, setVars_self]
    · exact E.desc.keep _ _ (E.fixed x hx _)
  | h :: ks, hk, hn, s, hs0 => by
    rw [List.map_cons, List.nodup_cons] at hn
    have hh : h ∈ hs := hk h List.mem_cons_self
    have hv : IsVar hs h.var := ⟨h, hh, rfl⟩
    have hks : ∀ k ∈ ks, k ∈ hs := fun k hm => hk k (List.mem_cons_of_mem _ hm)
    have hvk : ¬ IsVar ks h.var := by
      rintro ⟨k', hm, e⟩
      exact hn.1 (List.mem_map.2 ⟨k', hm, e⟩)
    have hne : ∀ k ∈ ks, k.var ≠ h.var := fun k hm e => hvk ⟨k, hm, e⟩
    have ih := exec_exists E ks hks hn.2
    have main : ∀ (a : ℤ) (l : List ℤ), Vals (h.stop.eval s₀) (h.step.eval s₀) a l →
        ∀ s : State, s h.var = a → (∀ x, BR hs x → s x = s₀ x) →
        ∃ t, Iter h (Exec body ks) s t ∧
          (∀ x, ¬ IsVar hs x →
            t x = runL hs body (l.flatMap fun a => enum vl ks (upd (vecOf hs s) h.var a)) s x) ∧
          (∀ x, IsVar hs x → ¬ IsVar (h :: ks) x → t x = s x) ∧
          t h.var = a + h.step.eval s₀ * l.length ∧
          ((∀ k ∈ ks, vl k ≠ []) → (l ≠ [] ∨ ∀ k ∈ ks, s k.var = fin s₀ vl k) →
            ∀ k ∈ ks, t k.var = fin s₀ vl k) := by
      intro a l hl
      induction hl with
      | @nil a hc =>
        intro s ha hA
        have e : h.stop.eval s = h.stop.eval s₀ :=
          eval_congr fun x hx => hA x ⟨h, hh, Or.inr (Or.inl hx)⟩
        refine ⟨s, .done (by rw [e, ha]; exact hc), fun x _ => rfl, fun _ _ _ => rfl,
          by simp [ha], fun _ ho k hm => ?_⟩
        rcases ho with ho | ho
        · exact absurd rfl ho
        · exact ho k hm
      | @cons a l hc hl ihl =>
        intro s ha hA
        have e : h.stop.eval s = h.stop.eval s₀ :=
          eval_congr fun x hx => hA x ⟨h, hh, Or.inr (Or.inl hx)⟩
        obtain ⟨t₁, h1, h2, h3, h4⟩ := ih s hA
        have e1 : ∀ x, BR hs x → t₁ x = s₀ x := by
          intro x hx
          rw [h2 x (E.bounds x hx).1, runL_keep E.desc (E.bounds x hx).1
            (enum_zero hks hn.2 vecOf_zero) (fun v _ => (E.bounds x hx).2 v)]
          exact hA x hx
        have e2 : h.step.eval t₁ = h.step.eval s₀ :=
          eval_congr fun x hx => e1 x ⟨h, hh, Or.inr (Or.inr hx)⟩
        have e3 : t₁ h.var = a := by rw [h3 _ hv hvk, ha]
        obtain ⟨t, g1, g2, g3, g4, g5⟩ := ihl (upd t₁ h.var (t₁ h.var + h.step.eval t₁))
          (by rw [upd_same, e2, e3]) (by
            intro x hx
            rw [upd_ne]
            · exact e1 x hx
            · intro ex
              exact (E.bounds x hx).1 (ex ▸ hv))
        have hagree : ∀ x, IsVar hs x → ¬ IsVar (h :: ks) x →
            upd t₁ h.var (t₁ h.var + h.step.eval t₁) x = s x := by
          intro x hx hx'
          rw [upd_ne fun ex => hx' ⟨h, List.mem_cons_self, ex.symm⟩]
          exact h3 x hx fun ⟨k, hm, ek⟩ => hx' ⟨k, List.mem_cons_of_mem _ hm, ek⟩
        refine ⟨t, .step (by rw [e, ha]; exact hc) h1 g1, fun x hx => ?_, fun x hx hx' => ?_, ?_,
          fun hv0 _ => ?_⟩
        · rw [g2 x hx, List.flatMap_cons, runL_append]
          have ev : upd (vecOf hs s) h.var a = vecOf hs s := by
            have : vecOf hs s h.var = a := by rw [vecOf, if_pos hv, ha]
            rw [← this, upd_self]
          rw [ev]
          have el : (fun a => enum vl ks (upd (vecOf hs
              (upd t₁ h.var (t₁ h.var + h.step.eval t₁))) h.var a)) =
              fun a => enum vl ks (upd (vecOf hs s) h.var a) := by
            funext c
            refine enum_congr vl ks _ _ fun y hy => ?_
            by_cases ey : y = h.var
            · rw [ey, upd_same, upd_same]
            · rw [upd_ne ey, upd_ne ey]
              by_cases hy' : IsVar hs y
              · rw [vecOf, vecOf, if_pos hy', if_pos hy']
                refine hagree y hy' ?_
                rintro ⟨k, hm, ek⟩
                rcases List.mem_cons.1 hm with rfl | hm
                · exact ey ek.symm
                · exact hy ⟨k, hm, ek⟩
              · rw [vecOf_zero y hy', vecOf_zero y hy']
          rw [el]
          refine runL_congr (fun y hy => ?_) _ x hx
          rw [upd_ne fun (ey : y = h.var) => hy (ey ▸ hv)]
          exact h2 y hy
        · rw [g3 x hx hx', hagree x hx hx']
        · rw [g4, List.length_cons]
          push_cast
          ring
        · refine g5 hv0 (Or.inr fun k hm => ?_)
          rw [upd_ne (hne k hm)]
          exact h4 hv0 k hm
    have es : h.start.eval s = h.start.eval s₀ :=
      eval_congr fun x hx => hs0 x ⟨h, hh, Or.inl hx⟩
    obtain ⟨t, h1, h2, h3, h4, h5⟩ := main _ _ (E.vals h hh) (upd s h.var (h.start.eval s))
      (by rw [upd_same, es]) (by
        intro x hx
        rw [upd_ne]
        · exact hs0 x hx
        · intro ex
          exact (E.bounds x hx).1 (ex ▸ hv))
    refine ⟨t, h1, fun x hx => ?_, fun x hx hx' => ?_, fun hv0 k hm => ?_⟩
    · rw [h2 x hx]
      simp only [enum]
      have el : (fun a => enum vl ks (upd (vecOf hs (upd s h.var (h.start.eval s))) h.var a)) =
          fun a => enum vl ks (upd (vecOf hs s) h.var a) := by
        funext c
        congr 1
        funext y
        by_cases ey : y = h.var
        · rw [ey, upd_same, upd_same]
        · rw [upd_ne ey, upd_ne ey]
          by_cases hy' : IsVar hs y
          · rw [vecOf, vecOf, if_pos hy', if_pos hy', upd_ne ey]
          · rw [vecOf_zero y hy', vecOf_zero y hy']
      rw [el]
      exact runL_congr (fun y hy => upd_ne fun (ey : y = h.var) => hy (ey ▸ hv)) _ x hx
    · rw [h3 x hx hx']
      exact upd_ne fun ex => hx' ⟨h, List.mem_cons_self, ex.symm⟩
    · rcases List.mem_cons.1 hm with rfl | hm
      · rw [h4, fin]
      · exact h5 (fun k hm => hv0 k (List.mem_cons_of_mem _ hm))
          (Or.inl (hv0 h List.mem_cons_self)) k hm

end Tsar.InterchangeSem
