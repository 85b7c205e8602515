import Verif.Attrs.Model
import Mathlib.Logic.Relation
import Mathlib.Tactic.Common

/-!
# Properties of attributes of functions and loops

Properties C85 (attributes which are propagated from callees), C86 (library functions and indirect calls).
-/

namespace Tsar
namespace Attrs

/-! ## Specification -/

/-- One function may be executed while another one is executed. -/
def Reach (G : CG) : Nat → Nat → Prop := Relation.ReflTransGen fun a b => b ∈ G.calls a

/-- Strongly connected components are visited in post-order (a contract of `llvm::scc_iterator`). Intrinsics with debug
information are excluded from the graph. -/
structure Order (G : CG) (sccs : List (List Nat)) : Prop where
  nodup : sccs.flatten.Nodup
  post : ∀ pre scc rest, sccs = pre ++ scc :: rest → ∀ n ∈ scc, ∀ m ∈ G.calls n, m ∈ scc ∨ m ∈ pre.flatten
  strong : ∀ scc ∈ sccs, ∀ n ∈ scc, ∀ m ∈ scc, Reach G n m
  noDbg : ∀ n ∈ sccs.flatten, ∀ f, G.fn n = some f → f.dbg = false

/-- An input/output function of a library, or an unknown function without a body. -/
def Fn.MayIO (f : Fn) : Prop := f.intrinsic = false ∧ (f.lib = true ∧ f.io = true ∨ f.lib = false ∧ f.decl = true)

/-- A function which may not return by itself: it has the appropriate attribute, or this is an unknown function without a
body, and it is not known that the function returns. -/
def Fn.MayNotReturn (libFunc : Bool) (f : Fn) : Prop :=
  f.willReturn = false ∧ (f.noReturn = true ∨ f.decl = true ∧ f.intrinsic = false ∧ libFunc = false)

/-! ## Propagation from callees to callers -/

theorem okNoIO_iff (f : Fn) : okNoIO f = true ↔ ¬ f.MayIO := by
  unfold okNoIO Fn.MayIO
  cases f.intrinsic <;> cases f.lib <;> cases f.io <;> cases f.decl <;> simp

theorem okReturn_iff (b : Bool) (f : Fn) : okReturn b f = true ↔ ¬ f.MayNotReturn b := by
  unfold okReturn Fn.MayNotReturn
  cases f.willReturn <;> cases f.noReturn <;> cases f.decl <;> cases f.intrinsic <;> cases b <;> simp

/-- All functions which may be executed are known and they are suitable. -/
def Good (G : CG) (ok : Nat → Fn → Bool) (n : Nat) : Prop :=
  ∀ m, Reach G n m → ∃ f, G.fn m = some f ∧ ok m f = true

theorem Good.step {G : CG} {ok : Nat → Fn → Bool} {n m : Nat} (h : Good G ok n) (hr : Reach G n m) : Good G ok m :=
  fun k hk => h k (hr.trans hk)

/-- The set contains correct results for components which have been visited. -/
structure Inv (G : CG) (ok : Nat → Fn → Bool) (P : List (List Nat)) (A : Set) : Prop where
  done : ∀ n ∈ P.flatten, (A n = true ↔ Good G ok n)
  other : ∀ n, n ∉ P.flatten → A n = true → ∃ f, G.fn n = some f ∧ f.dbg = true

theorem callees_some {G : CG} {scc cs : List Nat} (h : callees G scc = some cs) :
    (∀ n ∈ scc, ∃ f, G.fn n = some f) ∧ (∀ n ∈ scc, ∀ m ∈ G.calls n, ∃ f, G.fn m = some f) ∧
    (∀ m, m ∈ cs ↔ m ∉ scc ∧ ∃ n ∈ scc, m ∈ G.calls n) := by
  unfold callees at h
  split at h
  · rename_i h1
    simp only at h
    split at h
    · rename_i h2
      simp only [Option.some.injEq] at h
      subst h
      simp only [List.all_eq_true, Option.isSome_iff_exists, List.mem_flatMap] at h1 h2
      refine ⟨h1, fun n hn m hm => h2 m ⟨n, hn, hm⟩, fun m => ?_⟩
      simp only [List.mem_filter, List.mem_flatMap, Bool.not_eq_true', List.contains_eq_mem, decide_eq_false_iff_not]
      exact And.comm
    · cases h
  · cases h

theorem callees_none {G : CG} {scc : List Nat} (h : callees G scc = none) :
    (∃ n ∈ scc, G.fn n = none) ∨ ∃ n ∈ scc, ∃ m ∈ G.calls n, G.fn m = none := by
  unfold callees at h
  split at h
  · simp only at h
    split at h
    · cases h
    · rename_i h2
      simp only [List.all_eq_true, Option.isSome_iff_exists, List.mem_flatMap, not_forall] at h2
      obtain ⟨m, ⟨n, hn, hm⟩, h2⟩ := h2
      refine .inr ⟨n, hn, m, hm, ?_⟩
      cases hf : G.fn m with
      | none => rfl
      | some f => exact absurd ⟨f, hf⟩ h2
  · rename_i h1
    simp only [List.all_eq_true, Option.isSome_iff_exists, not_forall] at h1
    obtain ⟨n, hn, h1⟩ := h1
    refine .inl ⟨n, hn, ?_⟩
    cases hf : G.fn n with
    | none => rfl
    | some f => exact absurd ⟨f, hf⟩ h1

theorem runOnSCC_inv {G : CG} {ok : Nat → Fn → Bool} {sccs P rest : List (List Nat)} {scc : List Nat} {A : Set}
    (hO : Order G sccs) (hs : sccs = P ++ scc :: rest) (h : Inv G ok P A) : Inv G ok (P ++ [scc]) (runOnSCC G ok A scc) := by
  have hpost := hO.post P scc rest hs
  have hstrong := hO.strong scc (by simp [hs])
  have hnd : ∀ n ∈ scc, n ∉ P.flatten := by
    have := hO.nodup
    rw [hs] at this
    simp only [List.flatten_append, List.flatten_cons] at this
    intro n hn hp
    exact (List.nodup_append.1 this).2.2 n hp n (by simp [hn]) rfl
  have hdbg : ∀ n ∈ (P ++ [scc]).flatten, ∀ f, G.fn n = some f → f.dbg = false := by
    intro n hn f hf
    refine hO.noDbg n ?_ f hf
    rw [hs]
    simp only [List.flatten_append, List.flatten_cons, List.mem_append] at hn ⊢
    simp only [List.flatten_nil, List.not_mem_nil, or_false] at hn
    rcases hn with h | h
    · exact .inl h
    · exact .inr (.inl h)
  let A' : Set := fun n => A n || (match G.fn n with | some f => f.dbg | none => false)
  have hA' : ∀ n ∈ (P ++ [scc]).flatten, A' n = A n := by
    intro n hn
    show (A n || _) = A n
    cases hf : G.fn n with
    | none => simp
    | some f => simp [hdbg n hn f hf]
  have hold : ∀ n ∈ P.flatten, (A' n = true ↔ Good G ok n) := by
    intro n hn
    rw [hA' n (by simp only [List.flatten_append, List.mem_append]; exact .inl hn)]
    exact h.done n hn
  have hoth : ∀ n, n ∉ P.flatten → A' n = true → ∃ f, G.fn n = some f ∧ f.dbg = true := by
    intro n hn ha
    have ha : (A n || (match G.fn n with | some f => f.dbg | none => false)) = true := ha
    rw [Bool.or_eq_true] at ha
    rcases ha with ha | ha
    · exact h.other n hn ha
    · cases hf : G.fn n with
      | none => simp [hf] at ha
      | some f => exact ⟨f, rfl, by simpa [hf] using ha⟩
  have hnew : ∀ n ∈ scc, A' n = false := by
    intro n hn
    rw [Bool.eq_false_iff]
    intro ha
    obtain ⟨f, hf, hd⟩ := hoth n (hnd n hn) ha
    have := hdbg n (by simp [hn]) f hf
    rw [this] at hd
    cases hd
  have hfl : ∀ n, n ∈ (P ++ [scc]).flatten ↔ n ∈ P.flatten ∨ n ∈ scc := by simp
  unfold runOnSCC
  simp only
  change Inv G ok (P ++ [scc]) (match callees G scc with
    | none => A'
    | some cs => if deduced G ok scc cs A' then addAll A' scc else A')
  have keep : (∀ n ∈ scc, ¬ Good G ok n) → Inv G ok (P ++ [scc]) A' := by
    intro hb
    refine ⟨fun n hn => ?_, fun n hn ha => hoth n (fun hp => hn ((hfl n).2 (.inl hp))) ha⟩
    rcases (hfl n).1 hn with hp | hp
    · exact hold n hp
    · simp [hnew n hp, hb n hp]
  split
  · rename_i hc
    refine keep fun n hn hg => ?_
    rcases callees_none hc with ⟨m, hm, hf⟩ | ⟨k, hk, m, hm, hf⟩
    · obtain ⟨f, hf', -⟩ := hg m (hstrong n hn m hm)
      rw [hf] at hf'
      cases hf'
    · obtain ⟨f, hf', -⟩ := hg m ((hstrong n hn k hk).tail hm)
      rw [hf] at hf'
      cases hf'
  · rename_i cs hc
    obtain ⟨c1, c2, c3⟩ := callees_some hc
    have hcs : ∀ m ∈ cs, m ∈ P.flatten := by
      intro m hm
      obtain ⟨m1, n, hn, m2⟩ := (c3 m).1 hm
      rcases hpost n hn m m2 with h | h
      · exact absurd h m1
      · exact h
    split
    · rename_i hd
      simp only [deduced, Bool.and_eq_true, List.all_eq_true] at hd
      have hgood : ∀ n ∈ scc, Good G ok n := by
        intro n hn m hr
        induction hr using Relation.ReflTransGen.head_induction_on with
        | refl =>
          obtain ⟨f, hf⟩ := c1 m hn
          have := hd.1 m hn
          simp only [hf] at this
          exact ⟨f, hf, this⟩
        | head hac hcb ih =>
          rename_i a c
          by_cases hcs' : c ∈ scc
          · exact ih hcs'
          · have hc' : c ∈ cs := (c3 c).2 ⟨hcs', a, hn, hac⟩
            exact (hold c (hcs c hc')).1 (hd.2 c hc') m hcb
      refine ⟨fun n hn => ?_, fun n hn ha => ?_⟩
      · rcases (hfl n).1 hn with hp | hp
        · have : n ∉ scc := fun hs => hnd n hs hp
          simp only [addAll, List.contains_eq_mem, this, decide_false, Bool.or_false]
          exact hold n hp
        · simp [addAll, hp, hgood n hp]
      · have h1 : n ∉ scc := fun hp => hn ((hfl n).2 (.inr hp))
        simp only [addAll, List.contains_eq_mem, h1, decide_false, Bool.or_false] at ha
        exact hoth n (fun hp => hn ((hfl n).2 (.inl hp))) ha
    · rename_i hd
      refine keep fun n hn hg => hd ?_
      simp only [deduced, Bool.and_eq_true, List.all_eq_true]
      constructor
      · intro m hm
        obtain ⟨f, hf, ho⟩ := hg m (hstrong n hn m hm)
        simp [hf, ho]
      · intro m hm
        obtain ⟨m1, k, hk, m2⟩ := (c3 m).1 hm
        exact (hold m (hcs m hm)).2 (hg.step ((hstrong n hn k hk).tail m2))

theorem foldl_inv {G : CG} {ok : Nat → Fn → Bool} {sccs : List (List Nat)} (hO : Order G sccs) :
    ∀ (rest P : List (List Nat)) (A : Set), sccs = P ++ rest → Inv G ok P A →
      Inv G ok sccs (rest.foldl (runOnSCC G ok) A) := by
  intro rest
  induction rest with
  | nil =>
    intro P A hs h
    rw [hs, List.append_nil]
    exact h
  | cons scc rest ih =>
    intro P A hs h
    exact ih (P ++ [scc]) _ (by simp [hs]) (runOnSCC_inv hO hs h)

theorem runPO_iff {G : CG} {ok : Nat → Fn → Bool} {sccs : List (List Nat)} (hO : Order G sccs) (n : Nat)
    (hn : n ∈ sccs.flatten) : runPO G ok sccs (fun _ => false) n = true ↔ Good G ok n :=
  (foldl_inv hO sccs [] _ rfl ⟨by simp, by simp⟩).done n hn

/-- C85. A function is marked as a function without input/output if and only if all functions which may be executed are
known and there are no input/output functions among them. -/
theorem noIO_iff {G : CG} {sccs : List (List Nat)} (hO : Order G sccs) (n : Nat) (hn : n ∈ sccs.flatten) :
    noIO G sccs n = true ↔ ∀ m, Reach G n m → ∃ f, G.fn m = some f ∧ ¬ f.MayIO := by
  unfold noIO
  rw [runPO_iff hO n hn]
  simp only [Good, okNoIO_iff]

/-- C85. A function is marked as a function which always returns if and only if all functions which may be executed are
known and none of them may stop execution of a program by itself. -/
theorem alwaysReturn_iff {G : CG} {sccs : List (List Nat)} (hO : Order G sccs) (libFunc : Set) (n : Nat)
    (hn : n ∈ sccs.flatten) :
    alwaysReturn G libFunc sccs n = true ↔ ∀ m, Reach G n m → ∃ f, G.fn m = some f ∧ ¬ f.MayNotReturn (libFunc m) := by
  unfold alwaysReturn
  rw [runPO_iff hO n hn]
  simp only [Good, okReturn_iff]

/-- C85. A function is marked as a function without indirect calls if and only if all functions which may be executed are
known. -/
theorem direct_iff {G : CG} {sccs : List (List Nat)} (hO : Order G sccs) (n : Nat) (hn : n ∈ sccs.flatten) :
    direct G sccs n = true ↔ ∀ m, Reach G n m → ∃ f, G.fn m = some f := by
  unfold direct
  rw [runPO_iff hO n hn]
  simp [Good, okDirect]

/-! ## Loops -/

theorem scanBlock_iff (G : CG) (noIO always : Set) : ∀ (is : List Inst) (fl : Flags),
    ((scanBlock G noIO always is fl).io = false ↔ fl.io = false ∧ ∀ c, .call c ∈ is → ∃ n, c = some n ∧ noIO n = true) ∧
    ((scanBlock G noIO always is fl).noReturn = false ↔
      fl.noReturn = false ∧ ∀ c, .call c ∈ is → ∃ n, c = some n ∧ always n = true) ∧
    ((scanBlock G noIO always is fl).unwind = false ↔
      fl.unwind = false ∧ ∀ c, .call c ∈ is → ∃ n, c = some n ∧ ((G.fn n).getD {}).noUnwind = true) ∧
    ((scanBlock G noIO always is fl).twice = false ↔
      fl.twice = false ∧ ∀ c, .call c ∈ is → ∃ n, c = some n ∧ ((G.fn n).getD {}).returnsTwice = false) := by
  intro is
  induction is with
  | nil => intro fl; simp [scanBlock]
  | cons i is ih =>
    intro fl
    cases i with
    | plain =>
      have := ih fl
      simpa [scanBlock] using this
    | call c =>
      cases c with
      | none =>
        simp only [scanBlock, Bool.true_eq_false, false_iff, not_and, List.mem_cons]
        refine ⟨fun _ h => ?_, fun _ h => ?_, fun _ h => ?_, fun _ h => ?_⟩ <;>
          (obtain ⟨n, hn, -⟩ := h none (.inl rfl); cases hn)
      | some n =>
        obtain ⟨i1, i2, i3, i4⟩ := ih ⟨fl.io || !noIO n, fl.noReturn || !always n, fl.unwind || !((G.fn n).getD {}).noUnwind,
          fl.twice || ((G.fn n).getD {}).returnsTwice⟩
        simp only [scanBlock, i1, i2, i3, i4, Bool.or_eq_false_iff, Bool.not_eq_false', List.mem_cons, Inst.call.injEq,
          forall_eq_or_imp, Option.some.injEq, exists_eq_left']
        simp only [and_assoc, true_and, and_self]

theorem loopFlags_iff (G : CG) (noIO always : Set) (blocks : List (List Inst)) :
    ((loopFlags G noIO always blocks).io = false ↔ ∀ b ∈ blocks, ∀ c, .call c ∈ b → ∃ n, c = some n ∧ noIO n = true) ∧
    ((loopFlags G noIO always blocks).noReturn = false ↔
      ∀ b ∈ blocks, ∀ c, .call c ∈ b → ∃ n, c = some n ∧ always n = true) ∧
    ((loopFlags G noIO always blocks).unwind = false ↔
      ∀ b ∈ blocks, ∀ c, .call c ∈ b → ∃ n, c = some n ∧ ((G.fn n).getD {}).noUnwind = true) ∧
    ((loopFlags G noIO always blocks).twice = false ↔
      ∀ b ∈ blocks, ∀ c, .call c ∈ b → ∃ n, c = some n ∧ ((G.fn n).getD {}).returnsTwice = false) := by
  have : ∀ (bs : List (List Inst)) (fl : Flags),
      ((bs.foldl (fun fl b => scanBlock G noIO always b fl) fl).io = false ↔
        fl.io = false ∧ ∀ b ∈ bs, ∀ c, .call c ∈ b → ∃ n, c = some n ∧ noIO n = true) ∧
      ((bs.foldl (fun fl b => scanBlock G noIO always b fl) fl).noReturn = false ↔
        fl.noReturn = false ∧ ∀ b ∈ bs, ∀ c, .call c ∈ b → ∃ n, c = some n ∧ always n = true) ∧
      ((bs.foldl (fun fl b => scanBlock G noIO always b fl) fl).unwind = false ↔
        fl.unwind = false ∧ ∀ b ∈ bs, ∀ c, .call c ∈ b → ∃ n, c = some n ∧ ((G.fn n).getD {}).noUnwind = true) ∧
      ((bs.foldl (fun fl b => scanBlock G noIO always b fl) fl).twice = false ↔
        fl.twice = false ∧ ∀ b ∈ bs, ∀ c, .call c ∈ b → ∃ n, c = some n ∧ ((G.fn n).getD {}).returnsTwice = false) := by
    intro bs
    induction bs with
    | nil => intro fl; simp
    | cons b bs ih =>
      intro fl
      obtain ⟨i1, i2, i3, i4⟩ := ih (scanBlock G noIO always b fl)
      obtain ⟨s1, s2, s3, s4⟩ := scanBlock_iff G noIO always b fl
      simp only [List.foldl_cons, i1, i2, i3, i4, s1, s2, s3, s4, List.forall_mem_cons, and_assoc, and_self]
  have h := this blocks {}
  simpa [loopFlags] using h

/-- C85. Attributes of a loop: each of them is set if and only if it is set for all functions which are called in the loop,
and all of these functions are known (a loop returns twice if there is at least one such a call, or an unknown one). -/
theorem loop_iff (G : CG) (noIO always : Set) (blocks : List (List Inst)) :
    (loopNoIO (loopFlags G noIO always blocks) = true ↔
      ∀ b ∈ blocks, ∀ c, .call c ∈ b → ∃ n, c = some n ∧ noIO n = true) ∧
    (loopAlwaysReturn (loopFlags G noIO always blocks) = true ↔
      ∀ b ∈ blocks, ∀ c, .call c ∈ b → ∃ n, c = some n ∧ always n = true) ∧
    (loopNoUnwind (loopFlags G noIO always blocks) = true ↔
      ∀ b ∈ blocks, ∀ c, .call c ∈ b → ∃ n, c = some n ∧ ((G.fn n).getD {}).noUnwind = true) ∧
    (loopReturnsTwice (loopFlags G noIO always blocks) = false ↔
      ∀ b ∈ blocks, ∀ c, .call c ∈ b → ∃ n, c = some n ∧ ((G.fn n).getD {}).returnsTwice = false) := by
  have := loopFlags_iff G noIO always blocks
  simpa [loopNoIO, loopAlwaysReturn, loopNoUnwind, loopReturnsTwice] using this

/-- C85. A loop passes the checks if and only if each call in it is a call of a known function which has all suitable
attributes. -/
theorem safeLoop_iff (G : CG) (noIO always direct : Set) (blocks : List (List Inst)) :
    safeLoop G noIO always direct blocks = true ↔
      ∀ b ∈ blocks, ∀ c, .call c ∈ b → ∃ n, c = some n ∧ noIO n = true ∧ always n = true ∧ direct n = true ∧
        ((G.fn n).getD {}).noUnwind = true ∧ ((G.fn n).getD {}).returnsTwice = false := by
  obtain ⟨l1, l2, l3, l4⟩ := loop_iff G noIO always blocks
  simp only [safeLoop, Bool.and_eq_true, Bool.not_eq_true', l1, l2, l3, l4, List.all_eq_true]
  constructor
  · rintro ⟨⟨⟨⟨h2, h1⟩, h3⟩, h4⟩, h5⟩ b hb c hc
    obtain ⟨n, rfl, n1⟩ := h1 b hb c hc
    obtain ⟨n', hn, n2⟩ := h2 b hb _ hc
    cases hn
    obtain ⟨n', hn, n3⟩ := h3 b hb _ hc
    cases hn
    obtain ⟨n', hn, n4⟩ := h4 b hb _ hc
    cases hn
    exact ⟨n, rfl, n1, n2, h5 b hb _ hc, n3, n4⟩
  · intro h
    refine ⟨⟨⟨⟨?_, ?_⟩, ?_⟩, ?_⟩, ?_⟩
    · intro b hb c hc
      obtain ⟨n, hn, n1, n2, n3, n4, n5⟩ := h b hb c hc
      exact ⟨n, hn, n2⟩
    · intro b hb c hc
      obtain ⟨n, hn, n1, n2, n3, n4, n5⟩ := h b hb c hc
      exact ⟨n, hn, n1⟩
    · intro b hb c hc
      obtain ⟨n, hn, n1, n2, n3, n4, n5⟩ := h b hb c hc
      exact ⟨n, hn, n4⟩
    · intro b hb c hc
      obtain ⟨n, hn, n1, n2, n3, n4, n5⟩ := h b hb c hc
      exact ⟨n, hn, n5⟩
    · intro b hb i hi
      cases i with
      | plain => rfl
      | call c =>
        obtain ⟨n, rfl, n1, n2, n3, n4, n5⟩ := h b hb c hi
        exact n3

/-- C85. If a loop passes the checks which are made before its parallelization, each function which may be executed in the
loop is known, it is not an input/output function and it does not stop execution by itself (intrinsics with debug
information are not executed). -/
theorem safeLoop_sound {G : CG} {sccs : List (List Nat)} (hO : Order G sccs) (libFunc : Set) (blocks : List (List Inst))
    (hin : ∀ b ∈ blocks, ∀ n, .call (some n) ∈ b → n ∈ sccs.flatten ∨ ∃ f, G.fn n = some f ∧ f.dbg = true)
    (h : safeLoop G (noIO G sccs) (alwaysReturn G libFunc sccs) (direct G sccs) blocks = true) :
    ∀ b ∈ blocks, ∀ c, .call c ∈ b → ∃ n, c = some n ∧ ((G.fn n).getD {}).noUnwind = true ∧
      ((G.fn n).getD {}).returnsTwice = false ∧
      ((∃ f, G.fn n = some f ∧ f.dbg = true) ∨
        ∀ m, Reach G n m → ∃ f, G.fn m = some f ∧ ¬ f.MayIO ∧ ¬ f.MayNotReturn (libFunc m)) := by
  obtain ⟨l1, l2, l3, l4⟩ := loop_iff G (noIO G sccs) (alwaysReturn G libFunc sccs) blocks
  simp only [safeLoop, Bool.and_eq_true, Bool.not_eq_true'] at h
  obtain ⟨⟨⟨⟨h2, h1⟩, h3⟩, h4⟩, -⟩ := h
  intro b hb c hc
  obtain ⟨n, rfl, n1⟩ := l1.1 h1 b hb c hc
  obtain ⟨n', hn, n2⟩ := l2.1 h2 b hb _ hc
  cases hn
  obtain ⟨n', hn, n3⟩ := l3.1 h3 b hb _ hc
  cases hn
  obtain ⟨n', hn, n4⟩ := l4.1 h4 b hb _ hc
  cases hn
  refine ⟨n, rfl, n3, n4, ?_⟩
  rcases hin b hb n hc with hin | hin
  · right
    intro m hm
    obtain ⟨f, hf, f1⟩ := (noIO_iff hO n hin).1 n1 m hm
    obtain ⟨f', hf', f2⟩ := (alwaysReturn_iff hO libFunc n hin).1 n2 m hm
    rw [hf] at hf'
    cases hf'
    exact ⟨f, hf, f1, f2⟩
  · exact .inl hin

/-! ## Library functions -/

theorem foldl_topDown_mono (users : Nat → List Nat) : ∀ (l : List Nat) (A : Set) (n : Nat), A n = true →
    l.foldl (libTopDown users) A n = true := by
  intro l
  induction l with
  | nil => intro A n h; exact h
  | cons a l ih =>
    intro A n h
    refine ih _ n ?_
    unfold libTopDown
    split
    · simp [addAll, h]
    · exact h

theorem foldl_topDown_other (users : Nat → List Nat) : ∀ (l : List Nat) (A : Set) (n : Nat), n ∉ l →
    l.foldl (libTopDown users) A n = A n := by
  intro l
  induction l with
  | nil => intro A n _; rfl
  | cons a l ih =>
    intro A n h
    simp only [List.mem_cons, not_or] at h
    simp only [List.foldl_cons]
    rw [ih _ n h.2]
    unfold libTopDown
    split
    · simp [addAll, h.1]
    · rfl

theorem foldl_topDown_sound (users : Nat → List Nat) (Q : Nat → Prop) (hQ : ∀ n u, u ∈ users n → Q u → Q n) :
    ∀ (l : List Nat) (A : Set), (∀ n, A n = true → Q n) → ∀ n, l.foldl (libTopDown users) A n = true → Q n := by
  intro l
  induction l with
  | nil => intro A h n hn; exact h n hn
  | cons a l ih =>
    intro A h
    refine ih _ fun n hn => ?_
    unfold libTopDown at hn
    split at hn
    · rename_i hany
      obtain ⟨u, hu, ha⟩ := List.any_eq_true.1 hany
      simp only [addAll, Bool.or_eq_true, List.contains_eq_mem, List.mem_singleton, decide_eq_true_eq] at hn
      rcases hn with hn | rfl
      · exact h n hn
      · exact hQ n u hu (h u ha)
    · exact h n hn

theorem libInit_iff (G : CG) (sccs : List (List Nat)) (n : Nat) :
    libInit G sccs n = true ↔ ∃ scc ∈ sccs, hasLib G scc = true ∧ n ∈ funcs G scc := by
  have : ∀ (l : List (List Nat)) (A : Set),
      l.foldl (fun A scc => if hasLib G scc then addAll A (funcs G scc) else A) A n = true ↔
        A n = true ∨ ∃ scc ∈ l, hasLib G scc = true ∧ n ∈ funcs G scc := by
    intro l
    induction l with
    | nil => intro A; simp
    | cons s l ih =>
      intro A
      simp only [List.foldl_cons]
      rw [ih]
      by_cases hs : hasLib G s = true
      · simp [hs, addAll, or_assoc]
      · simp [hs]
  unfold libInit
  rw [this]
  simp

/-- There is a call which is located in the first function, such that the second function is an operand of this call. -/
def Used (users : Nat → List Nat) : Nat → Nat → Prop := Relation.ReflTransGen fun a b => a ∈ users b

/-- C86. Each function which is marked as a library one is used (directly or indirectly) in a function which is known to be
a library one, or in a function which is mutually recursive with it. -/
theorem libFunc_sound (G : CG) (users : Nat → List Nat) (sccs : List (List Nat)) (n : Nat)
    (h : libFunc G users sccs n = true) :
    ∃ scc ∈ sccs, (∃ m ∈ scc, ∃ f, G.fn m = some f ∧ f.intrinsic = false ∧ f.lib = true) ∧ ∃ m ∈ scc, Used users m n := by
  refine foldl_topDown_sound users (fun n => ∃ scc ∈ sccs, (∃ m ∈ scc, ∃ f, G.fn m = some f ∧ f.intrinsic = false ∧
    f.lib = true) ∧ ∃ m ∈ scc, Used users m n) ?_ _ _ ?_ n h
  · rintro n u hu ⟨scc, h1, h2, m, hm, h3⟩
    exact ⟨scc, h1, h2, m, hm, h3.tail hu⟩
  · intro n hn
    obtain ⟨scc, h1, h2, h3⟩ := (libInit_iff G sccs n).1 hn
    refine ⟨scc, h1, ?_, n, (List.mem_filter.1 h3).1, .refl⟩
    obtain ⟨m, hm, h2⟩ := List.any_eq_true.1 h2
    obtain ⟨hm, hi⟩ := List.mem_filter.1 hm
    cases hf : G.fn m with
    | none => simp [hf] at hi
    | some f => exact ⟨m, hm, f, hf, by simpa [hf] using hi, by simpa [hf] using h2⟩

/-- C86. Functions which are known to be library ones, and functions which are mutually recursive with them, are
marked. -/
theorem libFunc_known (G : CG) (users : Nat → List Nat) (sccs : List (List Nat)) (scc : List Nat) (hs : scc ∈ sccs)
    (m : Nat) (hm : m ∈ scc) (f : Fn) (hf : G.fn m = some f) (hi : f.intrinsic = false) (hl : f.lib = true)
    (n : Nat) (hn : n ∈ scc) (f' : Fn) (hf' : G.fn n = some f') (hi' : f'.intrinsic = false) :
    libFunc G users sccs n = true := by
  refine foldl_topDown_mono users _ _ n ((libInit_iff G sccs n).2 ⟨scc, hs, ?_, ?_⟩)
  · exact List.any_eq_true.2 ⟨m, List.mem_filter.2 ⟨hm, by simp [hf, hi]⟩, by simp [hf, hl]⟩
  · exact List.mem_filter.2 ⟨hn, by simp [hf', hi']⟩

/-- C86 (partial). A function which is called from a library function is marked, if these functions are not mutually
recursive (the caller is in a component which is visited later). Missing: mutually recursive functions, see
`libFunc_recursion_fails`. -/
theorem libFunc_closed_partial (G : CG) (users : Nat → List Nat) (pre rest : List (List Nat)) (scc : List Nat)
    (hnd : (pre ++ scc :: rest).flatten.Nodup) (n u : Nat) (hn : n ∈ scc) (f : Fn) (hf : G.fn n = some f)
    (hi : f.intrinsic = false) (hu : u ∈ rest.flatten) (huse : u ∈ users n)
    (h : libFunc G users (pre ++ scc :: rest) u = true) : libFunc G users (pre ++ scc :: rest) n = true := by
  have hnf : n ∈ funcs G scc := List.mem_filter.2 ⟨hn, by simp [hf, hi]⟩
  unfold libFunc at h ⊢
  generalize libInit G (pre ++ scc :: rest) = A at *
  obtain ⟨a, b, hab⟩ := List.append_of_mem hnf
  have hsplit : ((pre ++ scc :: rest).flatMap (funcs G)).reverse =
      ((rest.flatMap (funcs G)).reverse ++ b.reverse) ++ n :: (a.reverse ++ (pre.flatMap (funcs G)).reverse) := by
    simp [List.flatMap_append, hab]
  rw [hsplit, List.foldl_append] at h ⊢
  simp only [List.foldl_cons] at h ⊢
  have hnot : u ∉ n :: (a.reverse ++ (pre.flatMap (funcs G)).reverse) := by
    have hdis : ∀ x ∈ scc, x ∉ rest.flatten := by
      simp only [List.flatten_append, List.flatten_cons] at hnd
      have := (List.nodup_append.1 (List.nodup_append.1 hnd).2.1).2.2
      exact fun x hx hy => this x hx x hy rfl
    have hdis2 : ∀ x ∈ pre.flatten, x ∉ rest.flatten := by
      simp only [List.flatten_append, List.flatten_cons] at hnd
      have := (List.nodup_append.1 hnd).2.2
      exact fun x hx hy => this x hx x (by simp [hy]) rfl
    simp only [List.mem_cons, List.mem_append, List.mem_reverse, List.mem_flatMap, not_or]
    refine ⟨fun he => hdis n hn (he ▸ hu), fun ha => ?_, fun ⟨s, hs, ha⟩ => ?_⟩
    · have : u ∈ funcs G scc := by rw [hab]; simp [ha]
      exact hdis u (List.mem_filter.1 this).1 hu
    · exact hdis2 u (List.mem_flatten.2 ⟨s, hs, (List.mem_filter.1 ha).1⟩) hu
  have hu' : (((rest.flatMap (funcs G)).reverse ++ b.reverse).foldl (libTopDown users) A) u = true := by
    have := foldl_topDown_other users (n :: (a.reverse ++ (pre.flatMap (funcs G)).reverse))
      (((rest.flatMap (funcs G)).reverse ++ b.reverse).foldl (libTopDown users) A) u hnot
    rw [← this]
    exact h
  refine foldl_topDown_mono users _ _ n ?_
  generalize List.foldl (libTopDown users) A ((rest.flatMap (funcs G)).reverse ++ b.reverse) = B at hu' ⊢
  unfold libTopDown
  rw [if_pos (List.any_eq_true.2 ⟨u, huse, hu'⟩)]
  simp [addAll]

/-! ## Functions which are not called directly -/

/-- An address of the function is available in the program: it is passed to another function, or it is used by an
instruction which is not a call. -/
inductive Escapes : User → Prop where
  | arg (callee : Bool) (args : Nat) : 0 < args → Escapes (.call callee args)
  | cast (us : List User) (u : User) : u ∈ us → Escapes u → Escapes (.bitcast us)
  | other : Escapes .other

/-- The same, but arguments of calls are ignored. -/
inductive EscapesLocally : User → Prop where
  | cast (us : List User) (u : User) : u ∈ us → EscapesLocally u → EscapesLocally (.bitcast us)
  | other : EscapesLocally .other

mutual
theorem expand_iff : ∀ u : User, (expand u).any (fun u => !u.isCall) = true ↔ EscapesLocally u
  | .call a b => by
    simp only [expand, List.any_cons, List.any_nil, User.isCall]
    exact ⟨fun h => by simp at h, fun h => by cases h⟩
  | .bitcast us => by
    simp only [expand]
    rw [expandAll_iff us]
    exact ⟨fun ⟨u, hu, h⟩ => .cast us u hu h, fun h => by cases h with | cast _ u hu h => exact ⟨u, hu, h⟩⟩
  | .other => by
    simp only [expand, List.any_cons, List.any_nil, User.isCall]
    exact ⟨fun _ => .other, fun _ => by simp⟩
theorem expandAll_iff : ∀ us : List User, (expandAll us).any (fun u => !u.isCall) = true ↔ ∃ u ∈ us, EscapesLocally u
  | [] => by simp [expandAll]
  | u :: us => by
    simp only [expandAll, List.any_append, Bool.or_eq_true, expand_iff u, expandAll_iff us, List.mem_cons]
    constructor
    · rintro (h | ⟨v, hv, h⟩)
      · exact ⟨u, .inl rfl, h⟩
      · exact ⟨v, .inr hv, h⟩
    · rintro ⟨v, rfl | hv, h⟩
      · exact .inl h
      · exact .inr ⟨v, hv, h⟩
end

/-- C86 (partial). A function is marked as a function with indirect calls if and only if its address is used by an
instruction which is not a call. Missing: an address which is passed to another function, see
`indirectCall_arg_fails`. -/
theorem indirectCall_iff_partial (users : List User) : indirectCall users = true ↔ ∃ u ∈ users, EscapesLocally u := by
  unfold indirectCall
  simp only [List.any_eq_true (p := fun u => (expand u).any fun u => !u.isCall), expand_iff]

end Attrs
end Tsar
