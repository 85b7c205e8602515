import Verif.Inline.Model
import Mathlib.Data.List.Perm.Subperm
import Mathlib.Data.Set.Basic
/-!
# Search for recursive functions

`ClangInliner::findRecursion`, Inline.cpp:775-808. Functions are expanded one into another while there are
calls to expand (`inline` at an increasing depth), so it relies on absence of cycles in the call graph.
-/
namespace Tsar.Inline

/-- Calls of each function in the order of `Template::getCalls`. A call is `none` if there is no body of a
callee or the callee should not be inlined (lines 792-794). -/
abbrev Graph := Name → List (Option Name)

/-- There is a call to expand. -/
def Graph.Edge (G : Graph) (f g : Name) : Prop := some g ∈ G f

/-- The flag `NeedToAdd` after the loop over calls: the last call decides (lines 799-804). -/
def needToAdd (cs : List (Option Name)) : Bool :=
  match cs.getLast? with
  | some (some _) => true
  | _ => false

/-- The loop in lines 795-806. `Callers` and `Callees` are unordered sets, so any of common elements may be
found. A derivation is a terminating execution. -/
inductive Find (G : Graph) : Set Name → Set Name → Option Name → Prop
  | empty {A B} : (∀ x, x ∉ B) → Find G A B none
  | found {A B c} : c ∈ A → c ∈ B → Find G A B (some c)
  | next {A B r} : (∃ x, x ∈ B) → (∀ x ∈ A, x ∉ B) →
      Find G (A ∪ {c | c ∈ B ∧ needToAdd (G c) = true}) {g | ∃ c ∈ B, G.Edge c g} r → Find G A B r

/-- The loop over functions in lines 777-806. -/
inductive Scan (G : Graph) : List Name → Set Name → Set Name → Prop
  | nil {R} : Scan G [] R R
  | skip {f fs R S} : f ∈ R → Scan G fs R S → Scan G (f :: fs) R S
  | quiet {f fs R S} : f ∉ R → Find G {f} {g | G.Edge f g} none → Scan G fs R S → Scan G (f :: fs) R S
  | hit {f fs R S c} : f ∉ R → Find G {f} {g | G.Edge f g} (some c) → Scan G fs (R ∪ {c}) S →
      Scan G (f :: fs) R S

/-- `n` calls lead from one function to another one. -/
inductive Graph.Walk (G : Graph) : Nat → Name → Name → Prop
  | nil {f} : Walk G 0 f f
  | cons {n f g h} : G.Edge f g → Walk G n g h → Walk G (n + 1) f h

/-- A function calls itself, may be through other functions. -/
def Graph.Cycle (G : Graph) (f : Name) : Prop := ∃ n, G.Walk (n + 1) f f

theorem Graph.Walk.trans {G : Graph} {n m f g h} (a : G.Walk n f g) (b : G.Walk m g h) :
    G.Walk (n + m) f h := by
  induction a with
  | nil => rw [Nat.zero_add]; exact b
  | cons e _ ih => rw [Nat.add_right_comm]; exact .cons e (ih b)

theorem Find.endless {G : Graph} {A B : Set Name} {r} (h : Find G A B r)
    (hB : ∃ x ∈ B, ∃ f, G.Cycle f ∧ ∃ n, G.Walk n x f) : r ≠ none := by
  induction h with
  | empty h => obtain ⟨x, hx, _⟩ := hB; exact absurd hx (h x)
  | found => simp
  | next _ _ _ ih =>
    apply ih
    obtain ⟨x, hx, f, hf, n, hw⟩ := hB
    cases hw with
    | nil =>
      obtain ⟨m, hm⟩ := id hf
      cases hm with
      | cons e w => exact ⟨_, ⟨x, hx, e⟩, x, hf, _, w⟩
    | cons e w => exact ⟨_, ⟨x, hx, e⟩, f, hf, _, w⟩

theorem Find.reach {G : Graph} {A B : Set Name} {r} (h : Find G A B r) {P : Name → Prop}
    (hB : ∀ x ∈ B, P x) (hP : ∀ x y, P x → G.Edge x y → P y) : ∀ c, r = some c → P c := by
  induction h with
  | empty => intro c h; cases h
  | found _ h => intro c e; cases e; exact hB _ h
  | next _ _ _ ih => exact ih fun x ⟨c, hc, e⟩ => hP _ _ (hB c hc) e

theorem Find.direct {G : Graph} {f r} (h : Find G {f} {g | G.Edge f g} r) (hf : G.Edge f f) :
    r = some f := by
  cases h with
  | empty h => exact absurd hf (h f)
  | found h => exact congrArg some h
  | next _ h => exact absurd hf (h f rfl)

theorem Scan.mono {G : Graph} {fs R S} (h : Scan G fs R S) : ∀ x ∈ R, x ∈ S := by
  induction h with
  | nil => exact fun _ h => h
  | skip _ _ ih => exact ih
  | quiet _ _ _ ih => exact ih
  | hit _ _ _ ih => exact fun x h => ih x (.inl h)

theorem Scan.each {G : Graph} {fs R S} (h : Scan G fs R S) : ∀ f ∈ fs,
    f ∈ S ∨ Find G {f} {g | G.Edge f g} none ∨ ∃ c, c ∈ S ∧ Find G {f} {g | G.Edge f g} (some c) := by
  induction h with
  | nil => intro f hf; cases hf
  | skip h hs ih =>
    intro g hg
    rcases List.mem_cons.1 hg with rfl | hg
    · exact .inl (hs.mono _ h)
    · exact ih g hg
  | quiet _ h _ ih =>
    intro g hg
    rcases List.mem_cons.1 hg with rfl | hg
    · exact .inr (.inl h)
    · exact ih g hg
  | hit _ h hs ih =>
    intro g hg
    rcases List.mem_cons.1 hg with rfl | hg
    · exact .inr (.inr ⟨_, hs.mono _ (.inr rfl), h⟩)
    · exact ih g hg

/-! ## Termination of the search -/

/-- The last call to expand is the last call if there is any. -/
def Graph.Tidy (G : Graph) : Prop := ∀ f g, G.Edge f g → needToAdd (G f) = true

open Classical in
/-- Functions which are not in a set. -/
noncomputable def rest (fs : List Name) (A : Set Name) : List Name := fs.filter fun f => decide (f ∉ A)

theorem mem_rest {fs A f} : f ∈ rest fs A ↔ f ∈ fs ∧ f ∉ A := by simp [rest]

theorem rest_lt {fs : List Name} {A B : Set Name} {c} (hc : c ∈ fs) (hA : c ∉ A) (hB : c ∈ B)
    (hAB : ∀ x ∈ A, x ∈ B) : (rest fs B).length < (rest fs A).length := by
  have h : rest fs B = (rest fs A).filter fun f => open Classical in decide (f ∉ B) := by
    simp only [rest, List.filter_filter]
    apply List.filter_congr
    intro x _
    by_cases h : x ∈ B
    · simp [h]
    · have : x ∉ A := fun k => h (hAB x k)
      simp [h, this]
  rw [h]
  exact List.length_filter_lt_length_iff_exists.2 ⟨c, mem_rest.2 ⟨hc, hA⟩, by simp [hB]⟩

/-- Number of steps is bounded: each step either adds a new function to the set of callers or it is the
last one. -/
theorem Find.total {G : Graph} (hG : G.Tidy) (fs : List Name) (hfs : ∀ f g, G.Edge f g → f ∈ fs) :
    ∀ n A B, (rest fs A).length ≤ n → ∃ r, Find G A B r := by
  intro n
  induction n with
  | zero =>
    intro A B hn
    by_cases h₁ : ∃ x ∈ A, x ∈ B
    · obtain ⟨x, h, k⟩ := h₁; exact ⟨_, .found h k⟩
    · by_cases h₂ : ∃ x, x ∈ B
      · refine ⟨none, .next h₂ (fun x h k => h₁ ⟨x, h, k⟩) (.empty ?_)⟩
        rintro y ⟨c, hc, e⟩
        have := List.eq_nil_of_length_eq_zero (Nat.le_zero.1 hn)
        have : c ∈ rest fs A :=
          mem_rest.2 ⟨hfs _ _ e, fun h => h₁ ⟨c, h, hc⟩⟩
        simp_all
      · exact ⟨none, .empty fun x h => h₂ ⟨x, h⟩⟩
  | succ n ih =>
    intro A B hn
    by_cases h₁ : ∃ x ∈ A, x ∈ B
    · obtain ⟨x, h, k⟩ := h₁; exact ⟨_, .found h k⟩
    · by_cases h₂ : ∃ x, x ∈ B
      · by_cases h₃ : ∃ c ∈ B, ∃ g, G.Edge c g
        · obtain ⟨c, hc, g, e⟩ := h₃
          obtain ⟨r, hr⟩ := ih (A ∪ {c | c ∈ B ∧ needToAdd (G c) = true}) {g | ∃ c ∈ B, G.Edge c g} (by
            have hcA : c ∉ A := fun h => h₁ ⟨c, h, hc⟩
            have hcf : c ∈ fs := hfs _ _ e
            have : (rest fs (A ∪ {c | c ∈ B ∧ needToAdd (G c) = true})).length <
                (rest fs A).length := by
              refine rest_lt hcf hcA (.inr ⟨hc, hG _ _ e⟩) fun x hx => .inl hx
            omega)
          exact ⟨r, .next h₂ (fun x h k => h₁ ⟨x, h, k⟩) hr⟩
        · exact ⟨none, .next h₂ (fun x h k => h₁ ⟨x, h, k⟩) (.empty fun x ⟨c, hc, e⟩ => h₃ ⟨c, hc, x, e⟩)⟩
      · exact ⟨none, .empty fun x h => h₂ ⟨x, h⟩⟩

theorem Scan.total {G : Graph} (hG : G.Tidy) (fs : List Name) (hfs : ∀ f g, G.Edge f g → f ∈ fs) :
    ∀ (l : List Name) R, ∃ S, Scan G l R S := by
  intro l
  induction l with
  | nil => exact fun R => ⟨R, .nil⟩
  | cons f l ih =>
    intro R
    by_cases h : f ∈ R
    · obtain ⟨S, hS⟩ := ih R; exact ⟨S, .skip h hS⟩
    · obtain ⟨r, hr⟩ := Find.total hG fs hfs _ {f} {g | G.Edge f g} (le_refl _)
      cases r with
      | none => obtain ⟨S, hS⟩ := ih R; exact ⟨S, .quiet h hr hS⟩
      | some c => obtain ⟨S, hS⟩ := ih (R ∪ {c}); exact ⟨S, .hit h hr hS⟩

/-! ## Depth of expansion -/

mutual

/-- Calls which may be expanded in the order they are visited (`Template::addCall`, Inline.cpp:567). -/
def siteE : Bool → Expr → List Name
  | _, .val _ => []
  | _, .var _ => []
  | ok, .assign _ e => siteE ok e
  | ok, .bin o l r => siteE ok l ++ siteE (ok && o != .bor) r
  | ok, .land l r => siteE ok l ++ siteE false r
  | ok, .lor l r => siteE ok l ++ siteE false r
  | ok, .comma l r => siteE false l ++ siteE ok r
  | _, .cond c a b => siteE false c ++ (siteE false a ++ siteE false b)
  | ok, .elvis c e => siteE ok c ++ siteE ok e
  | ok, .size e => siteE ok e
  | ok, .call k f as => siteL ok as ++ if k && ok then [f] else []

def siteL : Bool → List Expr → List Name
  | _, [] => []
  | ok, e :: es => siteE ok e ++ siteL ok es

end

def siteD : List Init → List Name
  | [] => []
  | (_, none) :: ds => siteD ds
  | (_, some e) :: ds => siteE true e ++ siteD ds

mutual

def siteS : Stmt → List Name
  | .expr e => siteE true e
  | .decl ds => siteD ds
  | .ift c t => siteE true c ++ siteS t
  | .ifte c t e => siteE true c ++ (siteS t ++ siteS e)
  | .loop c b => siteE false c ++ siteS b
  | .doloop b c => siteS b ++ siteE false c
  | .for i c inc b => siteS i ++ (siteE false c ++ (siteE false inc ++ siteS b))
  | .block ss => siteSs ss
  | .ret (some e) => siteE true e
  | .label _ s => siteS s
  | _ => []

def siteSs : List Stmt → List Name
  | [] => []
  | s :: ss => siteS s ++ siteSs ss

end

/-- Calls of a function of a program. -/
def graph (P : Prog) (en : Name → Bool) : Graph := fun f =>
  match P f with
  | none => []
  | some F => (siteSs F.body).map fun g => if en g && (P g).isSome then some g else none

section
variable {fr : Name → Ids → Name} {I J : Inl} {st : List Name}

/-- Two functions which compile callees are the same for given callees. -/
def Agree (I J : Inl) (fs : List Name) : Prop := ∀ f ∈ fs, ∀ st ids, I st f ids = J st f ids

theorem Agree.left {a b} (h : Agree I J (a ++ b)) : Agree I J a :=
  fun f hf => h f (List.mem_append_left _ hf)

theorem Agree.right {a b} (h : Agree I J (a ++ b)) : Agree I J b :=
  fun f hf => h f (List.mem_append_right _ hf)

mutual

theorem pE_agree {m : Name → Name} : ∀ (ok : Bool) (e : Expr) (ids : Ids), Agree I J (siteE ok e) →
    pE I st m ok e ids = pE J st m ok e ids
  | _, .val _, _, _ => by simp only [pE]
  | _, .var _, _, _ => by simp only [pE]
  | ok, .assign x e, ids, h => by
    simp only [siteE] at h
    simp only [pE, pE_agree ok e ids h]
  | ok, .bin o l r, ids, h => by
    simp only [siteE] at h
    simp only [pE, pE_agree ok l ids h.left, pE_agree (ok && o != .bor) r _ h.right]
  | ok, .land l r, ids, h => by
    simp only [siteE] at h
    simp only [pE, pE_agree ok l ids h.left, pE_agree false r _ h.right]
  | ok, .lor l r, ids, h => by
    simp only [siteE] at h
    simp only [pE, pE_agree ok l ids h.left, pE_agree false r _ h.right]
  | ok, .comma l r, ids, h => by
    simp only [siteE] at h
    simp only [pE, pE_agree false l ids h.left, pE_agree ok r _ h.right]
  | _, .cond c a b, ids, h => by
    simp only [siteE] at h
    simp only [pE, pE_agree false c ids h.left, pE_agree false a _ h.right.left,
      pE_agree false b _ h.right.right]
  | ok, .elvis c e, ids, h => by
    simp only [siteE] at h
    simp only [pE, pE_agree ok c ids h.left, pE_agree ok e _ h.right]
  | ok, .size e, ids, h => by
    simp only [siteE] at h
    simp only [pE, pE_agree ok e ids h]
  | ok, .call k f as, ids, h => by
    simp only [siteE] at h
    simp only [pE, pL_agree ok as ids h.left]
    by_cases hk : (k && ok) = true
    · have := h.right
      simp only [hk, if_true] at this ⊢
      rw [this f (by simp)]
    · simp only [hk]
      rfl

theorem pL_agree {m : Name → Name} : ∀ (ok : Bool) (es : List Expr) (ids : Ids), Agree I J (siteL ok es) →
    pL I st m ok es ids = pL J st m ok es ids
  | _, [], _, _ => by simp only [pL]
  | ok, e :: es, ids, h => by
    simp only [siteL] at h
    simp only [pL, pE_agree ok e ids h.left, pL_agree ok es _ h.right]

end

theorem pD_agree : ∀ (m : Name → Name) (ds : List Init) (ids : Ids), Agree I J (siteD ds) →
    pD I st m ds ids = pD J st m ds ids
  | _, [], _, _ => by simp only [pD]
  | m, (x, none) :: ds, ids, h => by
    simp only [siteD] at h
    simp only [pD, pD_agree _ ds ids h]
  | m, (x, some e) :: ds, ids, h => by
    simp only [siteD] at h
    simp only [pD, pE_agree true e ids h.left, pD_agree _ ds _ h.right]

mutual

theorem pS_agree {rt : Rt} : ∀ (m : Name → Name) (last : Bool) (s : Stmt) (ids : Ids),
    Agree I J (siteS s) → pS fr I st rt m last s ids = pS fr J st rt m last s ids
  | _, _, .skip, _, _ => by simp only [pS]
  | _, _, .bad, _, _ => by simp only [pS]
  | _, _, .brk, _, _ => by simp only [pS]
  | _, _, .goto _, _, _ => by simp only [pS]
  | _, _, .static _ _, _, _ => by simp only [pS]
  | _, _, .ret none, _, _ => by simp only [pS]
  | m, _, .ret (some e), ids, h => by
    simp only [siteS] at h
    simp only [pS, pE_agree true e ids h]
  | m, _, .expr e, ids, h => by
    simp only [siteS] at h
    simp only [pS, pE_agree true e ids h]
  | m, _, .decl ds, ids, h => by
    simp only [siteS] at h
    simp only [pS, pD_agree _ ds ids h]
  | m, _, .ift c t, ids, h => by
    simp only [siteS] at h
    simp only [pS, pE_agree true c ids h.left, pS_agree m false t _ h.right]
  | m, _, .ifte c t e, ids, h => by
    simp only [siteS] at h
    simp only [pS, pE_agree true c ids h.left, pS_agree m false t _ h.right.left,
      pS_agree m false e _ h.right.right]
  | m, _, .loop c b, ids, h => by
    simp only [siteS] at h
    simp only [pS, pE_agree false c ids h.left, pS_agree m false b _ h.right]
  | m, _, .doloop b c, ids, h => by
    simp only [siteS] at h
    simp only [pS, pS_agree m false b ids h.left, pE_agree false c _ h.right]
  | m, _, .for i c inc b, ids, h => by
    simp only [siteS] at h
    simp only [pS, pS_agree m false i ids h.left, pE_agree false c _ h.right.left,
      pE_agree false inc _ h.right.right.left, pS_agree _ false b _ h.right.right.right]
  | m, _, .block ss, ids, h => by
    simp only [siteS] at h
    simp only [pS, pSs_agree m false ss ids h]
  | m, _, .label l s, ids, h => by
    simp only [siteS] at h
    simp only [pS, pS_agree m false s ids h]

theorem pSs_agree {rt : Rt} : ∀ (m : Name → Name) (top : Bool) (ss : List Stmt) (ids : Ids),
    Agree I J (siteSs ss) → pSs fr I st rt m top ss ids = pSs fr J st rt m top ss ids
  | _, _, [], _, _ => by simp only [pSs]
  | m, top, s :: ss, ids, h => by
    simp only [siteSs] at h
    simp only [pSs, pS_agree m _ s ids h.left, pSs_agree _ top ss _ h.right]

end

end

/-- A function may be expanded. -/
def Open (P : Prog) (en : Name → Bool) (f : Name) : Prop := (en f && (P f).isSome) = true

/-- If `d` nested calls can not be expanded then a greater depth gives the same result. -/
theorem inline_depth {P : Prog} {en : Name → Bool} {fr : Name → Ids → Name} : ∀ (d : Nat) (f : Name),
    (Open P en f → ∀ g, ¬ (graph P en).Walk d f g) → ∀ (j : Nat) (st ids),
      inline P en fr d st f ids = inline P en fr (d + j) st f ids := by
  intro d
  induction d with
  | zero =>
    intro f h j st ids
    have h : ¬ Open P en f := fun ho => h ho f .nil
    cases j with
    | zero => rfl
    | succ j =>
      simp only [Nat.zero_add, inline]
      cases hF : P f with
      | none => rfl
      | some F =>
        have : en f = false := by
          cases he : en f
          · rfl
          · exact absurd (by simp [Open, he, hF]) h
        simp [this]
  | succ d ih =>
    intro f h j st ids
    rw [Nat.add_right_comm]
    simp only [inline]
    cases hF : P f with
    | none => rfl
    | some F =>
      simp only
      by_cases he : (en f && visible P st F) = true
      · simp only [he, if_true]
        rw [pSs_agree]
        intro g hg st ids
        refine ih g (fun hg' k hk => h ?_ k (.cons ?_ hk)) j st ids
        · have he := (Bool.and_eq_true_iff.1 he).1
          simp [Open, he, hF]
        · simp only [Graph.Edge, graph, hF, List.mem_map]
          exact ⟨g, hg, by rw [if_pos]; exact hg'⟩
      · simp only [he]; rfl

theorem expand_depth {P : Prog} {en : Name → Bool} {fr : Name → Ids → Name} {d d' : Nat}
    (h : ∀ f st ids, inline P en fr d st f ids = inline P en fr d' st f ids) :
    ∀ (order : List Name) (ids : Ids), expand P en fr d order ids = expand P en fr d' order ids := by
  intro order
  induction order with
  | nil => intro ids; rfl
  | cons f fs ih =>
    intro ids
    simp only [expand]
    cases hF : P f with
    | none => exact ih ids
    | some F =>
      simp only
      rw [pSs_agree (J := inline P en fr d') _ _ _ _ (fun g _ => h g), ih]

/-- Functions a walk goes through. -/
theorem Graph.Walk.nodes {G : Graph} {n f g} (h : G.Walk n f g) : ∃ l : List Name, l.length = n + 1 ∧
    l.head? = some f ∧ (∀ x ∈ l, x = f ∨ ∃ y, G.Edge y x) ∧ l.IsChain G.Edge := by
  induction h with
  | nil => exact ⟨[_], rfl, rfl, by simp, by simp⟩
  | @cons n f g h e w ih =>
    obtain ⟨l, h₁, h₂, h₃, h₄⟩ := ih
    cases l with
    | nil => cases h₂
    | cons a l =>
      simp only [List.head?_cons, Option.some.injEq] at h₂
      subst h₂
      refine ⟨f :: a :: l, by simp [← h₁], rfl, ?_, ?_⟩
      · intro x hx
        rcases List.mem_cons.1 hx with rfl | hx
        · exact .inl rfl
        · rcases h₃ x hx with rfl | h
          · exact .inr ⟨f, e⟩
          · exact .inr h
      · exact List.isChain_cons_cons.2 ⟨e, h₄⟩

theorem chain_walk {G : Graph} {a b : Name} : ∀ {l : List Name}, (a :: l).IsChain G.Edge → b ∈ l →
    ∃ n, G.Walk (n + 1) a b := by
  intro l
  induction l generalizing a with
  | nil => intro _ hb; cases hb
  | cons c l ih =>
    intro h hb
    obtain ⟨e, h⟩ := List.isChain_cons_cons.1 h
    rcases List.mem_cons.1 hb with rfl | hb
    · exact ⟨0, .cons e .nil⟩
    · obtain ⟨n, w⟩ := ih h hb; exact ⟨n + 1, .cons e w⟩

theorem chain_nodup {G : Graph} (hG : ∀ f, ¬ G.Cycle f) : ∀ {l : List Name}, l.IsChain G.Edge → l.Nodup := by
  intro l
  induction l with
  | nil => intro _; exact List.nodup_nil
  | cons a l ih =>
    intro h
    refine List.nodup_cons.2 ⟨fun ha => ?_, ih (by cases l with
      | nil => simp
      | cons b l => exact (List.isChain_cons_cons.1 h).2)⟩
    obtain ⟨n, w⟩ := chain_walk h ha
    exact hG a ⟨n, w⟩

/-- A walk is not longer than a number of functions if there are no cycles. -/
theorem Graph.Walk.bound {G : Graph} (hG : ∀ f, ¬ G.Cycle f) {fs : List Name} {n f g}
    (hf : f ∈ fs) (hfs : ∀ y x, G.Edge y x → x ∈ fs) (h : G.Walk n f g) : n < fs.length := by
  obtain ⟨l, h₁, -, h₃, h₄⟩ := h.nodes
  have : l ⊆ fs := fun x hx => by
    rcases h₃ x hx with rfl | ⟨y, e⟩
    · exact hf
    · exact hfs y x e
  have := ((chain_nodup hG h₄).subperm this).length_le
  omega

end Tsar.Inline
