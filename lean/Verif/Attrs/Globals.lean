import Verif.Attrs.Props

/-!
# Global variables which are accessed in functions

Property C87, and examples for C85-C87.
-/

namespace Tsar
namespace Attrs

/-! ## Specification -/

/-- A value depends on an address of a global variable. -/
inductive Refers (g : Nat) : Val → Prop where
  | global : Refers g (.global g)
  | offset (v : Val) : Refers g v → Refers g (.offset v)
  | toInt (v : Val) : Refers g v → Refers g (.toInt v)
  | toPtr (v : Val) : Refers g v → Refers g (.toPtr v)

/-- An address which has not been converted to a pointer from an integer. -/
inductive RefersPtr (g : Nat) : Val → Prop where
  | global : RefersPtr g (.global g)
  | offset (v : Val) : RefersPtr g v → RefersPtr g (.offset v)

/-- A global variable is referenced by an operand: by its address, or by its address which is converted to an integer. -/
inductive Operand (g : Nat) : Val → Prop where
  | ptr (v : Val) : RefersPtr g v → Operand g v
  | int (v : Val) : RefersPtr g v → Operand g (.toInt v)
  | offset (v : Val) : Operand g v → Operand g (.offset v)

/-- A body of a function references a global variable. -/
def Body (G : CG) (body : Nat → List Val) (h g : Nat) : Prop :=
  (∃ f, G.fn h = some f ∧ f.decl = false) ∧ ∃ v ∈ body h, Operand g v

/-- A function may execute unknown code: it calls unknown functions, or this is a library function without a body which
accesses any memory. -/
def Unknown (G : CG) (libFunc : Set) (h : Nat) : Prop :=
  G.fn h = none ∨ (∃ f, G.fn h = some f ∧ f.decl = true ∧ f.intrinsic = false ∧ libFunc h = true ∧ f.argMemOnly = false) ∨
  ∃ c ∈ G.calls h, G.fn c = none

/-- A user function, it may access global variables. -/
def UserFn (G : CG) (libFunc : Set) (n : Nat) : Prop :=
  ∃ f, G.fn n = some f ∧ f.intrinsic = false ∧ libFunc n = false ∧ f.argMemOnly = false

/-- A function may be executed while another one is executed, and only user functions are on the stack between them. -/
inductive UserReach (G : CG) (libFunc : Set) : Nat → Nat → Prop where
  | refl (n : Nat) : UserReach G libFunc n n
  | head (n c m : Nat) : c ∈ G.calls n → UserFn G libFunc c → UserReach G libFunc c m → UserReach G libFunc n m

/-! ## Lemmas -/

theorem under_ptr {g : Nat} {v : Val} (h : RefersPtr g v) : v.under = .global g := by
  induction h with
  | global => rfl
  | offset v _ ih => simpa [Val.under] using ih

theorem under_ptr_iff {g : Nat} : ∀ {v : Val}, v.under = .global g → RefersPtr g v
  | .global _, h => by
    simp only [Val.under, Val.global.injEq] at h
    subst h
    exact .global
  | .offset v, h => .offset v (under_ptr_iff (v := v) (by simpa [Val.under] using h))
  | .toInt _, h => by simp [Val.under] at h
  | .toPtr _, h => by simp [Val.under] at h
  | .other, h => by simp [Val.under] at h

theorem found_offset (v : Val) : (Val.offset v).found = v.found := by simp [Val.found, Val.under]

/-- C87. Operands which are noticed. -/
theorem found_iff (g : Nat) (v : Val) : v.found = some g ↔ Operand g v := by
  constructor
  · intro h
    induction v with
    | offset v ih =>
      rw [found_offset] at h
      exact .offset v (ih h)
    | global k =>
      simp only [Val.found, Val.under, Option.some.injEq] at h
      subst h
      exact .ptr _ .global
    | toInt v _ =>
      simp only [Val.found, Val.under] at h
      split at h
      · rename_i k hk
        simp only [Option.some.injEq] at h
        subst h
        exact .int v (under_ptr_iff hk)
      · cases h
    | toPtr v _ => simp [Val.found, Val.under] at h
    | other => simp [Val.found, Val.under] at h
  · intro h
    induction h with
    | ptr v h => simp [Val.found, under_ptr h]
    | int v h => simp [Val.found, Val.under, under_ptr h]
    | offset v _ ih => rw [found_offset]; exact ih

theorem scanCallees_iff (G : CG) (A : Acc) : ∀ (cs S : List Nat),
    (scanCallees G A cs S = none ↔ ∃ c ∈ cs, G.fn c = none) ∧
    ∀ S', scanCallees G A cs S = some S' → ∀ g, g ∈ S' ↔ g ∈ S ∨ ∃ c ∈ cs, g ∈ (A c).getD [] := by
  intro cs
  induction cs with
  | nil => intro S; simp [scanCallees]
  | cons c cs ih =>
    intro S
    obtain ⟨i1, i2⟩ := ih (S ++ (A c).getD [])
    unfold scanCallees
    cases hc : G.fn c with
    | none => simp [hc]
    | some f =>
      simp only [Option.isSome_some, if_true]
      refine ⟨by rw [i1]; simp [hc], fun S' h g => ?_⟩
      rw [i2 S' h g]
      simp [or_assoc]

theorem unknownNode_iff (G : CG) (libFunc : Set) (n : Nat) : unknownNode G libFunc n = true ↔
    G.fn n = none ∨ ∃ f, G.fn n = some f ∧ f.decl = true ∧ f.intrinsic = false ∧ libFunc n = true ∧ f.argMemOnly = false := by
  unfold unknownNode
  cases G.fn n with
  | none => simp
  | some f => simp [and_assoc]

theorem scanNodes_iff (G : CG) (libFunc : Set) (A : Acc) : ∀ (ns S : List Nat),
    (scanNodes G libFunc A ns S = none ↔ ∃ n ∈ ns, Unknown G libFunc n) ∧
    ∀ S', scanNodes G libFunc A ns S = some S' →
      ∀ g, g ∈ S' ↔ g ∈ S ∨ ∃ n ∈ ns, ∃ c ∈ G.calls n, g ∈ (A c).getD [] := by
  intro ns
  induction ns with
  | nil => intro S; simp [scanNodes]
  | cons n ns ih =>
    intro S
    unfold scanNodes
    split
    · rename_i hu
      have : Unknown G libFunc n := by
        rcases (unknownNode_iff G libFunc n).1 hu with h | h
        · exact .inl h
        · exact .inr (.inl h)
      exact ⟨⟨fun _ => ⟨n, by simp, this⟩, fun _ => rfl⟩, fun S' h => by cases h⟩
    · rename_i hu
      obtain ⟨c1, c2⟩ := scanCallees_iff G A (G.calls n) S
      have hu' : Unknown G libFunc n ↔ ∃ c ∈ G.calls n, G.fn c = none := by
        constructor
        · rintro (h | h | h)
          · exact absurd ((unknownNode_iff G libFunc n).2 (.inl h)) hu
          · exact absurd ((unknownNode_iff G libFunc n).2 (.inr h)) hu
          · exact h
        · exact fun h => .inr (.inr h)
      split
      · rename_i hn
        exact ⟨⟨fun _ => ⟨n, by simp, hu'.2 (c1.1 hn)⟩, fun _ => rfl⟩, fun S' h => by cases h⟩
      · rename_i S1 h1
        obtain ⟨i1, i2⟩ := ih S1
        have hnot : ¬ Unknown G libFunc n := fun h => by
          have := c1.2 (hu'.1 h)
          rw [h1] at this
          cases this
        refine ⟨by rw [i1]; simp [hnot], fun S' h g => ?_⟩
        rw [i2 S' h g, c2 S1 h1 g]
        simp [or_assoc]

theorem bodyGlobals_iff (G : CG) (body : Nat → List Val) (scc : List Nat) (g : Nat) :
    g ∈ bodyGlobals G body scc ↔ ∃ n ∈ scc, Body G body n g := by
  unfold bodyGlobals Body
  simp only [List.mem_flatMap]
  refine exists_congr fun n => and_congr_right fun _ => ?_
  cases hf : G.fn n with
  | none => simp
  | some f =>
    cases hd : f.decl with
    | true => simp [hd]
    | false => simp [hd, found_iff]

theorem stored_iff (G : CG) (libFunc : Set) (n : Nat) : stored G libFunc n = true ↔ UserFn G libFunc n := by
  unfold stored UserFn
  cases G.fn n with
  | none => simp
  | some f => simp [and_assoc]

/-- Lower and upper bounds of a set of global variables which are accessed in a function. -/
def Must (G : CG) (libFunc : Set) (globals : List Nat) (body : Nat → List Val) (n g : Nat) : Prop :=
  ∃ h, UserReach G libFunc n h ∧ (Body G body h g ∨ g ∈ globals ∧ Unknown G libFunc h)
/-- An upper bound. -/
def May (G : CG) (libFunc : Set) (globals : List Nat) (body : Nat → List Val) (n g : Nat) : Prop :=
  ∃ h, Reach G n h ∧ (Body G body h g ∨ g ∈ globals ∧ Unknown G libFunc h)

/-- Results for components which have been visited. -/
structure AInv (G : CG) (libFunc : Set) (globals : List Nat) (body : Nat → List Val) (P : List (List Nat)) (A : Acc) :
    Prop where
  user : ∀ n ∈ P.flatten, UserFn G libFunc n → ∃ l, A n = some l ∧
    (∀ g, Must G libFunc globals body n g → g ∈ l) ∧ ∀ g ∈ l, May G libFunc globals body n g
  other : ∀ n, n ∉ P.flatten ∨ ¬ UserFn G libFunc n → A n = none

theorem accSCC_inv {G : CG} {libFunc : Set} {globals : List Nat} {body : Nat → List Val} {sccs P rest : List (List Nat)}
    {scc : List Nat} {A : Acc} (hO : Order G sccs) (hs : sccs = P ++ scc :: rest)
    (hglob : ∀ n g, Body G body n g → g ∈ globals) (h : AInv G libFunc globals body P A) :
    AInv G libFunc globals body (P ++ [scc]) (accSCC G libFunc globals body A scc) := by
  have hpost := hO.post P scc rest hs
  have hstrong := hO.strong scc (by simp [hs])
  have hnd : ∀ n ∈ scc, n ∉ P.flatten := by
    have := hO.nodup
    rw [hs] at this
    simp only [List.flatten_append, List.flatten_cons] at this
    intro n hn hp
    exact (List.nodup_append.1 this).2.2 n hp n (by simp [hn]) rfl
  have hfl : ∀ n, n ∈ (P ++ [scc]).flatten ↔ n ∈ P.flatten ∨ n ∈ scc := by simp
  obtain ⟨s1, s2⟩ := scanNodes_iff G libFunc A scc []
  have main : ∀ l : List Nat,
      (∀ n ∈ scc, UserFn G libFunc n → (∀ g, Must G libFunc globals body n g → g ∈ l) ∧ ∀ g ∈ l, May G libFunc globals body n g) →
      AInv G libFunc globals body (P ++ [scc]) (store G libFunc scc l A) := by
    intro l hl
    constructor
    · intro n hn hu
      rcases (hfl n).1 hn with hp | hp
      · have : n ∉ scc := fun hs => hnd n hs hp
        simp only [store, List.contains_eq_mem, this, decide_false, Bool.false_and, Bool.false_eq_true, if_false]
        exact h.user n hp hu
      · refine ⟨l, ?_, hl n hp hu⟩
        simp [store, hp, (stored_iff G libFunc n).2 hu, h.other n (.inl (hnd n hp))]
    · intro n hn
      have : (scc.contains n && stored G libFunc n) = false := by
        rw [Bool.and_eq_false_iff]
        rcases hn with hn | hn
        · left
          simp only [List.contains_eq_mem, decide_eq_false_iff_not]
          exact fun hp => hn ((hfl n).2 (.inr hp))
        · right
          rw [Bool.eq_false_iff]
          exact fun hp => hn ((stored_iff G libFunc n).1 hp)
      simp only [store, this, Bool.false_eq_true, if_false]
      refine h.other n ?_
      rcases hn with hn | hn
      · exact .inl fun hp => hn ((hfl n).2 (.inl hp))
      · exact .inr hn
  unfold accSCC
  split
  · rename_i hsn
    obtain ⟨k, hk, hu⟩ := s1.1 hsn
    refine main globals fun n hn _ => ⟨?_, fun g hg => ⟨k, hstrong n hn k hk, .inr ⟨hg, hu⟩⟩⟩
    rintro g ⟨m, -, hm | hm⟩
    · exact hglob m g hm
    · exact hm.1
  · rename_i S hsn
    have hmem : ∀ g, g ∈ S ++ bodyGlobals G body scc ↔
        (∃ n ∈ scc, ∃ c ∈ G.calls n, g ∈ (A c).getD []) ∨ ∃ n ∈ scc, Body G body n g := by
      intro g
      rw [List.mem_append, s2 S hsn g, bodyGlobals_iff]
      simp
    have hnu : ∀ n ∈ scc, ¬ Unknown G libFunc n := fun n hn hu => by
      have := s1.2 ⟨n, hn, hu⟩
      rw [hsn] at this
      cases this
    refine main _ fun n hn _ => ⟨?_, ?_⟩
    · rintro g ⟨m, hr, hm⟩
      rw [hmem]
      induction hr with
      | refl n =>
        rcases hm with hm | ⟨-, hm⟩
        · exact .inr ⟨n, hn, hm⟩
        · exact absurd hm (hnu n hn)
      | head n c m hc hcu hr ih =>
        rcases hpost n hn c hc with hcs | hcp
        · exact ih hcs hcu hm
        · obtain ⟨l, hl, h1, -⟩ := h.user c hcp hcu
          exact .inl ⟨n, hn, c, hc, by rw [hl]; exact h1 g ⟨m, hr, hm⟩⟩
    · intro g hg
      rcases (hmem g).1 hg with ⟨k, hk, c, hc, hgc⟩ | ⟨k, hk, hb⟩
      · cases hA : A c with
        | none => simp [hA] at hgc
        | some l =>
          rw [hA] at hgc
          by_cases hcp : c ∈ P.flatten ∧ UserFn G libFunc c
          · obtain ⟨l', hl', -, h2⟩ := h.user c hcp.1 hcp.2
            rw [hA] at hl'
            cases hl'
            obtain ⟨m, hr, hm⟩ := h2 g hgc
            exact ⟨m, ((hstrong n hn k hk).tail hc).trans hr, hm⟩
          · have := h.other c (by rw [not_and_or] at hcp; exact hcp)
            rw [hA] at this
            cases this
      · exact ⟨k, hstrong n hn k hk, .inl hb⟩

theorem accesses_inv {G : CG} {libFunc : Set} {globals : List Nat} {body : Nat → List Val} {sccs : List (List Nat)}
    (hO : Order G sccs) (hglob : ∀ n g, Body G body n g → g ∈ globals) :
    AInv G libFunc globals body sccs (accesses G libFunc globals body sccs) := by
  have : ∀ (rest P : List (List Nat)) (A : Acc), sccs = P ++ rest → AInv G libFunc globals body P A →
      AInv G libFunc globals body sccs (rest.foldl (accSCC G libFunc globals body) A) := by
    intro rest
    induction rest with
    | nil => intro P A hs h; rw [hs, List.append_nil]; exact h
    | cons scc rest ih => intro P A hs h; exact ih (P ++ [scc]) _ (by simp [hs]) (accSCC_inv hO hs hglob h)
  exact this sccs [] _ rfl ⟨by simp, by simp⟩

/-! ## Theorems -/

/-- C87 (partial). If a user function executes (directly or by means of other user functions) a function which references a
global variable, the variable is in a list of variables which are accessed in the function. Missing: user functions which
are executed by library functions, see `accesses_callback_fails`; addresses which are converted several times, see
`found_cast_fails`. -/
theorem accesses_sound_partial {G : CG} {libFunc : Set} {globals : List Nat} {body : Nat → List Val} {sccs : List (List Nat)}
    (hO : Order G sccs) (hglob : ∀ n g, Body G body n g → g ∈ globals) (n h g : Nat) (hn : n ∈ sccs.flatten)
    (hu : UserFn G libFunc n) (hr : UserReach G libFunc n h) (hb : Body G body h g) :
    ∃ l, accesses G libFunc globals body sccs n = some l ∧ g ∈ l := by
  obtain ⟨l, hl, h1, -⟩ := (accesses_inv (libFunc := libFunc) hO hglob).user n hn hu
  exact ⟨l, hl, h1 g ⟨h, hr, .inl hb⟩⟩

/-- C87. If a user function may execute unknown code, all global variables are in the list. -/
theorem accesses_unknown {G : CG} {libFunc : Set} {globals : List Nat} {body : Nat → List Val} {sccs : List (List Nat)}
    (hO : Order G sccs) (hglob : ∀ n g, Body G body n g → g ∈ globals) (n h g : Nat) (hn : n ∈ sccs.flatten)
    (hu : UserFn G libFunc n) (hr : UserReach G libFunc n h) (hk : Unknown G libFunc h) (hg : g ∈ globals) :
    ∃ l, accesses G libFunc globals body sccs n = some l ∧ g ∈ l := by
  obtain ⟨l, hl, h1, -⟩ := (accesses_inv (libFunc := libFunc) hO hglob).user n hn hu
  exact ⟨l, hl, h1 g ⟨h, hr, .inr ⟨hg, hk⟩⟩⟩

/-- C87. There are no redundant variables in the list: each of them is referenced by a function which may be executed, or
unknown code may be executed. -/
theorem accesses_exact {G : CG} {libFunc : Set} {globals : List Nat} {body : Nat → List Val} {sccs : List (List Nat)}
    (hO : Order G sccs) (hglob : ∀ n g, Body G body n g → g ∈ globals) (n g : Nat) (l : List Nat)
    (hl : accesses G libFunc globals body sccs n = some l) (hg : g ∈ l) :
    UserFn G libFunc n ∧ ∃ h, Reach G n h ∧ (Body G body h g ∨ g ∈ globals ∧ Unknown G libFunc h) := by
  have hinv := accesses_inv (libFunc := libFunc) hO hglob
  by_cases hc : n ∈ sccs.flatten ∧ UserFn G libFunc n
  · obtain ⟨l', hl', -, h2⟩ := hinv.user n hc.1 hc.2
    rw [hl] at hl'
    cases hl'
    exact ⟨hc.2, h2 g hg⟩
  · have := hinv.other n (by rw [not_and_or] at hc; exact hc)
    rw [hl] at this
    cases this

/-! ## Examples -/

/-- 0: `main`, it calls 1 and 2; 1: a user function, it calls 3; 2: it calls 1; 3: a library function without
input/output; 4: an input/output function, 5: it calls 4, 6: an unknown caller, 7: a function which calls itself. -/
def exG : CG where
  fn
    | 3 => some { lib := true, noUnwind := true }
    | 4 => some { lib := true, io := true, decl := true, noUnwind := true }
    | 6 => none
    | _ => some { noUnwind := true }
  calls
    | 0 => [1, 2]
    | 1 => [3]
    | 2 => [1]
    | 5 => [1, 4]
    | 6 => [0, 5]
    | 7 => [7]
    | _ => []

/-- The order of components. -/
abbrev exSccs : List (List Nat) := [[3], [1], [2], [0], [4], [5], [6], [7]]

theorem exOrder : Order exG exSccs where
  nodup := by decide +kernel
  post := by
    intro pre scc rest h
    rcases pre with _ | ⟨a, _ | ⟨b, _ | ⟨c, _ | ⟨d, _ | ⟨e, _ | ⟨f, _ | ⟨g, _ | ⟨i, pre⟩⟩⟩⟩⟩⟩⟩⟩ <;>
      simp only [List.nil_append, List.cons_append, List.cons.injEq] at h
    · obtain ⟨rfl, -⟩ := h
      decide +kernel
    · obtain ⟨rfl, rfl, -⟩ := h
      decide +kernel
    · obtain ⟨rfl, rfl, rfl, -⟩ := h
      decide +kernel
    · obtain ⟨rfl, rfl, rfl, rfl, -⟩ := h
      decide +kernel
    · obtain ⟨rfl, rfl, rfl, rfl, rfl, -⟩ := h
      decide +kernel
    · obtain ⟨rfl, rfl, rfl, rfl, rfl, rfl, -⟩ := h
      decide +kernel
    · obtain ⟨rfl, rfl, rfl, rfl, rfl, rfl, rfl, -⟩ := h
      decide +kernel
    · obtain ⟨rfl, rfl, rfl, rfl, rfl, rfl, rfl, rfl, -⟩ := h
      decide +kernel
    · have := h.2.2.2.2.2.2.2.2
      simp at this
  strong := by
    intro scc hs n hn m hm
    simp only [exSccs, List.mem_cons, List.not_mem_nil, or_false] at hs
    rcases hs with rfl | rfl | rfl | rfl | rfl | rfl | rfl | rfl <;>
      (simp only [List.mem_singleton] at hn hm; subst hn; subst hm; exact .refl)
  noDbg := by
    intro n hn f hf
    simp only [exSccs, List.flatten_cons, List.flatten_nil, List.append_nil, List.cons_append, List.nil_append, List.mem_cons,
      List.not_mem_nil, or_false] at hn
    rcases hn with rfl | rfl | rfl | rfl | rfl | rfl | rfl | rfl <;> simp [exG] at hf <;> subst hf <;> rfl

/-- `main` does not contain input/output operations. -/
example : noIO exG exSccs 0 = true ∧ noIO exG exSccs 5 = false ∧ direct exG exSccs 5 = true ∧ direct exG exSccs 6 = false := by
  decide +kernel

example : ∀ m, Reach exG 0 m → ∃ f, exG.fn m = some f ∧ ¬ f.MayIO := (noIO_iff exOrder 0 (by decide +kernel)).1 (by decide +kernel)

example : safeLoop exG (noIO exG exSccs) (alwaysReturn exG (fun _ => false) exSccs) (direct exG exSccs)
    [[.plain, .call (some 1)], [.call (some 2)]] = true := by decide +kernel

example : safeLoop exG (noIO exG exSccs) (alwaysReturn exG (fun _ => false) exSccs) (direct exG exSccs)
    [[.plain, .call (some 1)], [.call (some 5)]] = false := by decide +kernel

/-- C85: a function which always calls itself is marked as a function which always returns. -/
theorem alwaysReturn_recursion_fails : ∃ (G : CG) (sccs : List (List Nat)) (n : Nat), Order G sccs ∧ n ∈ sccs.flatten ∧
    alwaysReturn G (fun _ => false) sccs n = true ∧ G.calls n = [n] :=
  ⟨exG, exSccs, 7, exOrder, by decide +kernel, by decide +kernel, rfl⟩

/-- 0: a library function, it calls 1; 1 and 2 call each other, 3 is called from 2. -/
def exLib : CG where
  fn
    | 0 => some { lib := true }
    | _ => some {}
  calls
    | 0 => [1]
    | 1 => [2]
    | 2 => [1, 3]
    | _ => []

/-- Functions which call a specified one. -/
abbrev exUsers : Nat → List Nat
  | 1 => [0, 2]
  | 2 => [1]
  | 3 => [2]
  | _ => []

example : libFunc exLib exUsers [[3], [2, 1], [0]] 1 = true ∧ libFunc exLib exUsers [[3], [2, 1], [0]] 3 = true := by
  decide +kernel

example : libFunc exLib exUsers [[3], [2, 1], [0]] 1 = true :=
  libFunc_closed_partial exLib exUsers [[3]] [[0]] [2, 1] (by decide) 1 0 (by decide) {} rfl rfl (by decide) (by decide)
    (by decide +kernel)

/-- C86: if functions are mutually recursive, a function which is called from a library function is not marked. -/
theorem libFunc_recursion_fails : ¬ ∀ (G : CG) (users : Nat → List Nat) (sccs : List (List Nat)) (n u : Nat),
    sccs.flatten.Nodup → n ∈ sccs.flatten → u ∈ users n → (∃ f, G.fn n = some f ∧ f.intrinsic = false) →
    libFunc G users sccs u = true → libFunc G users sccs n = true := by
  intro h
  have := h exLib exUsers [[3], [1, 2], [0]] 2 1 (by decide) (by decide) (by decide) ⟨{}, rfl, rfl⟩ (by decide +kernel)
  revert this
  decide +kernel

example : indirectCall [.call true 0, .bitcast [.call true 0]] = false ∧ indirectCall [.call true 0, .bitcast [.other]] = true := by
  decide +kernel

/-- C86: an address of a function is passed to another function, but the function is not marked. -/
theorem indirectCall_arg_fails : ¬ ∀ us : List User, (∃ u ∈ us, Escapes u) → indirectCall us = true := by
  intro h
  have := h [.call false 1] ⟨_, by simp, .arg false 1 (by decide)⟩
  revert this
  decide +kernel

/-- Functions of `exG` reference global variables. -/
abbrev exBody : Nat → List Val
  | 1 => [.offset (.global 10), .other]
  | 2 => [.toInt (.global 11)]
  | 0 => [.global 12]
  | 3 => [.global 13]
  | _ => []

/-- A library function. -/
abbrev lib3 : Set := fun n => n == 3 || n == 4

example : accesses exG lib3 [10, 11, 12, 13] exBody exSccs 0 = some [10, 10, 11, 12] ∧
    accesses exG lib3 [10, 11, 12, 13] exBody exSccs 1 = some [10] ∧ accesses exG lib3 [10, 11, 12, 13] exBody exSccs 3 = none := by
  decide +kernel

theorem exBody_globals (n g : Nat) (h : Body exG exBody n g) : g ∈ [10, 11, 12, 13] := by
  obtain ⟨-, v, hv, ho⟩ := h
  have hf := (found_iff g v).2 ho
  unfold exBody at hv
  split at hv <;> simp only [List.mem_cons, List.not_mem_nil, or_false] at hv
  · rcases hv with rfl | rfl <;> simp [Val.found, Val.under] at hf <;> simp [← hf]
  · subst hv; simp [Val.found, Val.under] at hf; simp [← hf]
  · subst hv; simp [Val.found, Val.under] at hf; simp [← hf]
  · subst hv; simp [Val.found, Val.under] at hf; simp [← hf]

example : ∃ l, accesses exG lib3 [10, 11, 12, 13] exBody exSccs 0 = some l ∧ 10 ∈ l :=
  accesses_sound_partial exOrder exBody_globals 0 1 10 (by decide +kernel) ⟨{ noUnwind := true }, rfl, rfl, rfl, rfl⟩
    (.head 0 1 1 (by decide) ⟨{ noUnwind := true }, rfl, rfl, rfl, rfl⟩ (.refl 1))
    ⟨⟨{ noUnwind := true }, rfl, rfl⟩, _, List.mem_cons_self, .offset _ (.ptr _ .global)⟩

/-- C87: a library function executes a user function, and global variables which are accessed in the user function are not
in the list for a caller of the library function. -/
theorem accesses_callback_fails : ∃ (G : CG) (sccs : List (List Nat)) (lib : Set) (body : Nat → List Val) (l : List Nat),
    Order G sccs ∧ UserFn G lib 0 ∧ Reach G 0 2 ∧ Body G body 2 10 ∧
    accesses G lib [10, 11, 12, 13] body sccs 0 = some l ∧ 10 ∉ l := by
  refine ⟨{ fn := fun n => if n = 1 then some { lib := true } else some {},
            calls := fun | 0 => [1] | 1 => [2] | _ => [] }, [[2], [1], [0]], fun n => n == 1,
    fun n => if n = 2 then [.global 10] else [], [], ?_, ⟨{}, rfl, rfl, rfl, rfl⟩,
    (Relation.ReflTransGen.single (by decide)).tail (b := 1) (by decide), ⟨⟨{}, rfl, rfl⟩, .global 10, by simp, .ptr _ .global⟩,
    by decide +kernel, by simp⟩
  constructor
  · decide
  · intro pre scc rest h
    rcases pre with _ | ⟨a, _ | ⟨b, _ | ⟨c, pre⟩⟩⟩ <;>
      simp only [List.nil_append, List.cons_append, List.cons.injEq] at h
    · obtain ⟨rfl, -⟩ := h
      decide
    · obtain ⟨rfl, rfl, -⟩ := h
      decide
    · obtain ⟨rfl, rfl, rfl, -⟩ := h
      decide
    · simp at h
  · intro scc hs n hn m hm
    simp only [List.mem_cons, List.not_mem_nil, or_false] at hs
    rcases hs with rfl | rfl | rfl <;>
      (simp only [List.mem_singleton] at hn hm; subst hn; subst hm; exact .refl)
  · intro n hn f hf
    simp only at hf
    split at hf <;> (simp only [Option.some.injEq] at hf; subst hf; rfl)

/-- C87: only the first conversion of an address is noticed, although the code contains a loop. -/
theorem found_cast_fails : ∃ (g : Nat) (v : Val), Refers g v ∧ v.found = none :=
  ⟨0, .toInt (.toPtr (.toInt (.global 0))), .toInt _ (.toPtr _ (.toInt _ .global)), rfl⟩

end Attrs
end Tsar
