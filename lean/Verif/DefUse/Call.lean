import Verif.DefUse.BlockFails

/-!
# Accesses to memory which are made by calls

Models interprocedural analysis of calls in construction of def-use sets (`DataFlowTraits<ReachDFFwk*>::initialize()`,
lib/Analysis/Memory/DefinedMemory.cpp) and `isPure()` (lib/Analysis/Memory/Utils.cpp), property C90.
-/

namespace Tsar
namespace DefUse

open Tsar.Range Tsar.MemSet

/-! ## Model -/

/-- Accesses to memory which is pointed by the parameter `arg` of a function with the def-use set `d`: write and read
accesses (DefinedMemory.cpp:738-751). `size` is a size of the actual argument. -/
def argInfo (S : Solver) (d : DU) (arg : Nat) (size : Alias.Size) : Info × Info :=
  let l := toRange ⟨arg, size⟩
  (if contain S d.defs l then .must
    else if overlap S d.defs l || overlap S d.mayDefs l then .may
    else .no,
   if overlap S d.uses l then .must else .no)

/-- Accesses to a global variable (DefinedMemory.cpp:790-801): `hasMayDef()` checks the set of possible definitions only. -/
def globalInfo (S : Solver) (d : DU) (g : Alias.Loc) : Info × Info :=
  let l := toRange g
  (if contain S d.defs l then .must else if overlap S d.mayDefs l then .may else .no,
   if overlap S d.uses l then .must else .no)

/-- `AAResults::getArgModRefInfo()` is used if a def-use set is not known (DefinedMemory.cpp:753-764). -/
def modRefInfo (mod ref : Bool) : Info × Info := (if mod then .may else .no, if ref then .may else .no)

/-- A pointer: a global variable, some other object (a parameter, a local variable), a loaded value, a conversion of an
integer which has been obtained from a pointer, an offset from a pointer. -/
inductive Ptr where
  | glob (g : Nat)
  | other (n : Nat)
  | load (p : Ptr)
  | intToPtr (p : Ptr)
  | offset (p : Ptr)
  deriving DecidableEq, Repr

/-- `getUnderlyingObject(Ptr, 0)` (LLVM): offsets and casts of pointers are stripped. -/
def Ptr.under : Ptr → Ptr
  | .offset p => p.under
  | p => p

/-- `stripPointer()` (EstimateMemory.cpp:87-97). -/
def Ptr.strip : Ptr → Ptr
  | .offset p => p.strip
  | .load p => p.strip
  | .intToPtr p => p.strip
  | p => p

/-- `isa<GlobalValue>`. -/
def Ptr.isGlobal : Ptr → Bool
  | .glob _ => true
  | _ => false

/-- Attributes of a function: there are accesses to unknown memory, instructions which convert integers to pointers, and
parameters which are pointers to objects with pointers (or to objects of an unknown type); pointers of explicit accesses. -/
structure Callee where
  unknowns : Bool
  intToPtr : Bool
  ptrToPtr : Bool
  accesses : List Ptr

/-- The loop over explicit accesses (Utils.cpp:534-541). -/
def pureLoop : List Ptr → Bool → Bool × Bool
  | [], g => (!g, g)
  | p :: ps, g =>
    let g := g || p.under.isGlobal
    if p.under.strip.isGlobal then (false, false) else pureLoop ps g

/-- `isPure()` (Utils.cpp:519-542): a function does not access global memory, a function accesses global variables only. -/
def isPure (c : Callee) : Bool × Bool :=
  if c.unknowns || c.intToPtr || c.ptrToPtr then (false, false) else pureLoop c.accesses false

/-! ## Specification -/

/-- A global variable (or a value which has been loaded from it) is used to obtain the pointer. -/
def Ptr.From (g : Nat) : Ptr → Prop
  | .glob g' => g' = g
  | .other _ => False
  | .load p | .intToPtr p | .offset p => p.From g

/-- The effect of a function in the memory with the location `m`. -/
def Eff.inside (addr : Nat → Int) (m : Alias.Loc) (wr ex : Int → Prop) : Eff :=
  ⟨fun x => wr x ∧ m.bytes addr x, fun x => ex x ∧ m.bytes addr x⟩

/-! ## Theorems -/

/-- Bytes of a location which are not before its pointer. -/
theorem bytes_nat {addr : Nat → Int} {m : Alias.Loc} (hs : m.size ≠ .beforeOrAfter) {x : Int} (h : m.bytes addr x) :
    ∃ b : Nat, HasByte m b ∧ x = addr m.ptr + b := by
  unfold Alias.Loc.bytes Alias.Size.bytes at h
  unfold HasByte
  refine ⟨(x - addr m.ptr).toNat, ?_⟩
  cases hm : m.size <;> simp only [hm, Alias.Size.value, Option.some.injEq, reduceCtorEq] at h ⊢
  · exact ⟨fun n hn => by omega, by omega⟩
  · exact ⟨fun n hn => by omega, by omega⟩
  · exact ⟨(fun n hn => by cases hn), by omega⟩
  · exact absurd hm hs

/-- C90 (partial). If memory which is pointed by a parameter is explicitly accessed in a function, the kind of an access to
the corresponding argument of a call is right. Missing: accesses to a part of this memory through another pointer, see
`arg_field_fails`; memory before the pointer. -/
theorem arg_does_partial (S : Solver) (hS : SolverOK S) (addr : Nat → Int) (ob : Option Nat → Obj) (all : List Alias.Loc)
    (d : DU) (hwf : SetWf ob d.defs ∧ SetWf ob d.mayDefs ∧ SetWf ob d.uses) (wr ex : Int → Prop)
    (hd : Describes addr all d wr ex) (arg : Nat) (m : Alias.Loc) (hs : m.size ≠ .beforeOrAfter)
    (hl : WfLoc (ob (some arg)) (toRange ⟨arg, m.size⟩)) (hin : ⟨arg, m.size⟩ ∈ all) (heq : addr arg = addr m.ptr)
    (caller visited : List Alias.Loc) (hv : ∀ a ∈ caller, a ∉ visited → ∀ x, a.bytes addr x → ¬ m.bytes addr x) :
    (Acs.known m (argInfo S d arg m.size).1 (argInfo S d arg m.size).2 visited).Does addr caller
      (Eff.inside addr m wr ex) := by
  have hbyte : ∀ x, m.bytes addr x → ∃ b : Nat, HasByte ⟨arg, m.size⟩ b ∧ x = addr arg + b := by
    intro x hx
    obtain ⟨b, hb, rfl⟩ := bytes_nat hs hx
    exact ⟨b, hb, by rw [heq]⟩
  refine ⟨?_, ?_, ?_, hv⟩
  · rintro x ⟨hw, hx⟩
    refine ⟨fun hno => ?_, hx⟩
    obtain ⟨b, hb, rfl⟩ := hbyte x hx
    simp only [argInfo] at hno
    split at hno
    · cases hno
    · split at hno
      · cases hno
      · rename_i ho
        simp only [Bool.or_eq_true, not_or, Bool.not_eq_true] at ho
        rcases hd.mayDefs _ hin b hb hw with h | h
        · exact overlap_sound ob S hS d.defs _ hwf.1 hl ho.1 b (reach_toRange.2 hb) h
        · exact overlap_sound ob S hS d.mayDefs _ hwf.2.1 hl ho.2 b (reach_toRange.2 hb) h
  · rintro x ⟨hr, hx⟩
    refine ⟨fun hno => ?_, hx⟩
    obtain ⟨b, hb, rfl⟩ := hbyte x hx
    simp only [argInfo] at hno
    split at hno
    · cases hno
    · rename_i ho
      exact overlap_sound ob S hS d.uses _ hwf.2.2 hl (by simpa using ho) b (reach_toRange.2 hb)
        (hd.uses _ hin b hb hr)
  · intro hm x hx
    refine ⟨?_, hx⟩
    obtain ⟨b, hb, rfl⟩ := hbyte x hx
    simp only [argInfo] at hm
    split at hm
    · rename_i hc
      exact hd.defs _ _ (contain_sound ob S hS d.defs _ hwf.1 hl hc b (reach_toRange.2 hb))
    · split at hm <;> cases hm

/-- C90 (partial). The kind of an access to a global variable is right if it is not defined partially. Missing: variables
such that a part of them is always defined in a function, see `global_part_fails`. -/
theorem global_does_partial (S : Solver) (hS : SolverOK S) (addr : Nat → Int) (ob : Option Nat → Obj)
    (all : List Alias.Loc) (d : DU) (hwf : SetWf ob d.defs ∧ SetWf ob d.mayDefs ∧ SetWf ob d.uses) (wr ex : Int → Prop)
    (hd : Describes addr all d wr ex) (m : Alias.Loc) (hs : m.size ≠ .beforeOrAfter)
    (hl : WfLoc (ob (some m.ptr)) (toRange m)) (hin : m ∈ all)
    (hpart : overlap S d.defs (toRange m) = true → contain S d.defs (toRange m) = true)
    (caller visited : List Alias.Loc) (hv : ∀ a ∈ caller, a ∉ visited → ∀ x, a.bytes addr x → ¬ m.bytes addr x) :
    (Acs.known m (globalInfo S d m).1 (globalInfo S d m).2 visited).Does addr caller (Eff.inside addr m wr ex) := by
  have := arg_does_partial S hS addr ob all d hwf wr ex hd m.ptr m hs hl hin rfl caller visited hv
  have heq : globalInfo S d m = argInfo S d m.ptr m.size := by
    unfold globalInfo argInfo
    simp only
    by_cases hc : contain S d.defs (toRange m) = true
    · rw [if_pos hc, if_pos hc]
    · have ho : overlap S d.defs (toRange m) = false := by
        rw [← Bool.not_eq_true]
        exact fun h => hc (hpart h)
      rw [if_neg hc, if_neg hc, ho, Bool.false_or]
  rw [heq]
  exact this

/-- C90. If a function is considered to be pure, global variables are not used to access memory explicitly. -/
theorem isPure_sound (c : Callee) (h : (isPure c).1 = true) :
    c.unknowns = false ∧ c.intToPtr = false ∧ c.ptrToPtr = false ∧ ∀ p ∈ c.accesses, ∀ g, ¬ p.From g := by
  have hstrip : ∀ p : Ptr, p.strip.isGlobal = false → ∀ g, ¬ p.From g := by
    intro p
    induction p with
    | glob g => simp [Ptr.strip, Ptr.isGlobal]
    | other n => simp [Ptr.From]
    | load p ih => exact ih
    | intToPtr p ih => exact ih
    | offset p ih => exact ih
  have hunder : ∀ p : Ptr, p.under.strip = p.strip := by
    intro p
    induction p with
    | offset p ih => exact ih
    | _ => rfl
  have hloop : ∀ (ps : List Ptr) (g : Bool), (pureLoop ps g).1 = true → ∀ p ∈ ps, ∀ g, ¬ p.From g := by
    intro ps
    induction ps with
    | nil => simp
    | cons q ps ih =>
      intro g hg p hp
      simp only [pureLoop] at hg
      split at hg
      · cases hg
      · rename_i hq
        rcases List.mem_cons.1 hp with rfl | hp
        · rw [hunder, Bool.not_eq_true] at hq
          exact hstrip p hq
        · exact ih _ hg p hp
  unfold isPure at h
  split at h
  · cases h
  · rename_i hc
    simp only [Bool.or_eq_true, not_or, Bool.not_eq_true] at hc
    exact ⟨hc.1.1, hc.1.2, hc.2, hloop _ _ h⟩

/-- C90. A function without unknown accesses which does not use global variables is considered to be pure. -/
theorem isPure_complete (c : Callee) (h1 : c.unknowns = false) (h2 : c.intToPtr = false) (h3 : c.ptrToPtr = false)
    (h : ∀ p ∈ c.accesses, ∀ g, ¬ p.From g) : (isPure c).1 = true := by
  have hstrip : ∀ p : Ptr, (∀ g, ¬ p.From g) → p.strip.isGlobal = false ∧ p.under.strip.isGlobal = false ∧
      p.under.isGlobal = false := by
    intro p
    induction p with
    | glob g => intro h; exact absurd rfl (h g)
    | other n => simp [Ptr.strip, Ptr.under, Ptr.isGlobal]
    | load p ih => intro h; exact ⟨(ih h).1, (ih h).1, rfl⟩
    | intToPtr p ih => intro h; exact ⟨(ih h).1, (ih h).1, rfl⟩
    | offset p ih => intro h; exact ih h
  have hloop : ∀ ps : List Ptr, (∀ p ∈ ps, ∀ g, ¬ p.From g) → (pureLoop ps false).1 = true := by
    intro ps
    induction ps with
    | nil => intro _; rfl
    | cons q ps ih =>
      intro h
      obtain ⟨-, h1, h2⟩ := hstrip q (h q (by simp))
      simp only [pureLoop, h1, h2, Bool.or_false]
      exact ih fun p hp => h p (by simp [hp])
  simp only [isPure, h1, h2, h3, Bool.or_false, Bool.false_eq_true, if_false]
  exact hloop _ h

/-- C90. A function is never recognised as one which accesses arguments and global variables only: the check of
`stripPointer()` rejects global variables themselves. Hence, all functions which access global variables are processed as
functions which access unknown memory. -/
theorem isPure_globals_never (c : Callee) : (isPure c).2 = false := by
  have hloop : ∀ ps : List Ptr, (pureLoop ps false).2 = false := by
    intro ps
    induction ps with
    | nil => rfl
    | cons q ps ih =>
      simp only [pureLoop]
      split
      · rfl
      · rename_i hq
        have : q.under.isGlobal = false := by
          cases hu : q.under <;> simp_all [Ptr.strip, Ptr.isGlobal]
        rw [this]
        exact ih
  unfold isPure
  split
  · rfl
  · exact hloop _

/-! ## Examples -/

/-- A function writes the second half of the object which is pointed by its parameter: `p->b = ...`. -/
def exCallee : List Ins := [[(.known vp .must .no [vp], ⟨vp.bytes exAddr, fun _ => False⟩)]]

theorem exCallee_set : block (exEnv 0) (exCallee.map fun i => i.map (·.1)) = { defs := [(some 1, [toRange vp])] } := by
  decide +kernel

theorem exCallee_ok : ∀ i ∈ exCallee, ∀ e ∈ i, e.1.OK (exEnv 0) exAddr exOb ∧ e.1.Does exAddr [vp] e.2 := by
  intro i hi e he
  simp only [exCallee, List.mem_singleton] at hi
  subst hi
  simp only [List.mem_singleton] at he
  subst he
  refine ⟨fun a ha => ?_, by simp [Acs.Does]⟩
  rw [List.mem_singleton.1 ha]
  exact ex_pairOK (n := 4) (k := 4) rfl rfl (by decide) (by decide) (by decide)

/-- The function writes its parameter entirely: `arg_does_partial`. -/
example : (Acs.known ⟨3, .precise 8⟩ .must .no [vx]).Does exAddr [vx]
    (Eff.inside exAddr ⟨3, .precise 8⟩ (vx.bytes exAddr) fun _ => False) := by
  have hw : WfLoc (exOb (some 0)) (toRange vx) := (ex_locOK 0 _ (by simp [toRange]) rfl rfl ⟨0, rfl⟩).1
  have hset : SetWf exOb [(some 0, [toRange vx])] := by
    refine ⟨by simp, fun e he => ?_⟩
    rw [List.mem_singleton.1 he]
    exact ⟨by simp, fun l hl => by rw [List.mem_singleton.1 hl]; exact ⟨rfl, hw⟩⟩
  have hnil : SetWf exOb [] := ⟨by simp, by simp⟩
  have := arg_does_partial refSolver refSolver_ok exAddr exOb [vx] { defs := [(some 0, [toRange vx])] } ⟨hset, hnil, hnil⟩
    (vx.bytes exAddr) (fun _ => False) ⟨?_, ?_, fun _ _ _ _ h => h.elim⟩ 0 ⟨3, .precise 8⟩ (by simp) hw (by simp [vx]) rfl
    [vx] [vx] (by simp)
  · have hi : argInfo refSolver { defs := [(some 0, [toRange vx])] } 0 (.precise 8) = (.must, .no) := by decide +kernel
    simp only [hi] at this
    exact this
  · rintro p b ⟨e, he, l, hl, hp, hr⟩
    rw [List.mem_singleton.1 he] at hl
    rw [List.mem_singleton.1 hl] at hp hr
    cases hp
    exact bytes_hasByte (reach_toRange.1 hr)
  · intro a ha b hb _
    rw [List.mem_singleton.1 ha] at hb ⊢
    exact .inl ⟨_, List.mem_singleton.2 rfl, _, List.mem_singleton.2 rfl, rfl, reach_toRange.2 hb⟩

/-- A function writes a global variable entirely: `global_does_partial`. -/
example : (Acs.known vx .must .no [vx]).Does exAddr [vx] (Eff.inside exAddr vx (vx.bytes exAddr) fun _ => False) := by
  have hw : WfLoc (exOb (some 0)) (toRange vx) := (ex_locOK 0 _ (by simp [toRange]) rfl rfl ⟨0, rfl⟩).1
  have hset : SetWf exOb [(some 0, [toRange vx])] := by
    refine ⟨by simp, fun e he => ?_⟩
    rw [List.mem_singleton.1 he]
    exact ⟨by simp, fun l hl => by rw [List.mem_singleton.1 hl]; exact ⟨rfl, hw⟩⟩
  have hnil : SetWf exOb [] := ⟨by simp, by simp⟩
  have := global_does_partial refSolver refSolver_ok exAddr exOb [vx] { defs := [(some 0, [toRange vx])] } ⟨hset, hnil, hnil⟩
    (vx.bytes exAddr) (fun _ => False) ⟨?_, ?_, fun _ _ _ _ h => h.elim⟩ vx (by simp [vx]) hw (by simp)
    (fun _ => by decide +kernel) [vx] [vx] (by simp)
  · have hi : globalInfo refSolver { defs := [(some 0, [toRange vx])] } vx = (.must, .no) := by decide +kernel
    simp only [hi] at this
    exact this
  · rintro p b ⟨e, he, l, hl, hp, hr⟩
    rw [List.mem_singleton.1 he] at hl
    rw [List.mem_singleton.1 hl] at hp hr
    cases hp
    exact bytes_hasByte (reach_toRange.1 hr)
  · intro a ha b hb _
    rw [List.mem_singleton.1 ha] at hb ⊢
    exact .inl ⟨_, List.mem_singleton.2 rfl, _, List.mem_singleton.2 rfl, rfl, reach_toRange.2 hb⟩

/-- C90. A part of memory which is pointed by a parameter is written through a pointer to this part (it is not a
delinearized array): the call is considered to be without side effects. -/
theorem arg_field_fails : ¬ ∀ (E : Env) (addr : Nat → Int) (ob : Option Nat → Obj) (all : List Alias.Loc) (is : List Ins),
    SolverOK E.S → E.A.Sound addr → (∀ i ∈ is, ∀ e ∈ i, e.1.OK E addr ob ∧ e.1.Does addr all e.2) →
    (∀ i ∈ is, NoInterference i) → ∀ (arg : Nat) (size : Alias.Size),
    (argInfo E.S (block E (is.map fun i => i.map (·.1))) arg size).1 = .no →
    ∀ x, (Alias.Loc.mk arg size).bytes addr x → ¬ BlockWr is x := by
  intro h
  refine h (exEnv 0) exAddr exOb [vp] exCallee refSolver_ok (exLlvm_sound rfl) exCallee_ok (by simp [exCallee, NoInterference])
    0 (.precise 8) ?_ 104 ?_ ⟨_, List.mem_singleton.2 rfl, _, List.mem_singleton.2 rfl, ?_⟩
  · rw [exCallee_set]
    decide +kernel
  · simp [Alias.Loc.bytes, Alias.Size.bytes, exAddr]
  · simp [vp, Alias.Loc.bytes, Alias.Size.bytes, exAddr]

/-- C90. A part of a global variable is always written: the variable is considered to be unchanged. -/
theorem global_part_fails : ¬ ∀ (S : Solver) (addr : Nat → Int) (ob : Option Nat → Obj) (all : List Alias.Loc) (d : DU)
    (wr ex : Int → Prop), SolverOK S → SetWf ob d.defs ∧ SetWf ob d.mayDefs ∧ SetWf ob d.uses → Describes addr all d wr ex →
    ∀ m ∈ all, WfLoc (ob (some m.ptr)) (toRange m) → (globalInfo S d m).1 = .no → ∀ x, m.bytes addr x → ¬ wr x := by
  intro h
  have hw : WfLoc (exOb (some 0)) (toRange vx) := (ex_locOK 0 _ (by simp [toRange]) rfl rfl ⟨0, rfl⟩).1
  have hw4 : WfLoc (exOb (some 0)) (toRange ⟨0, .precise 4⟩) := (ex_locOK 0 _ (by simp [toRange]) rfl rfl ⟨0, rfl⟩).1
  have hset : SetWf exOb [(some 0, [toRange ⟨0, .precise 4⟩])] := by
    refine ⟨by simp, fun e he => ?_⟩
    rw [List.mem_singleton.1 he]
    exact ⟨by simp, fun l hl => by rw [List.mem_singleton.1 hl]; exact ⟨rfl, hw4⟩⟩
  have hnil : SetWf exOb [] := ⟨by simp, by simp⟩
  refine h refSolver exAddr exOb [vx] { defs := [(some 0, [toRange ⟨0, .precise 4⟩])] } (fun x => 100 ≤ x ∧ x < 104)
    (fun _ => False) refSolver_ok ⟨hset, hnil, hnil⟩ ⟨?_, ?_, fun _ _ _ _ h => h.elim⟩ vx (by simp) hw (by decide +kernel) 100
    (by simp [vx, Alias.Loc.bytes, Alias.Size.bytes, exAddr]) (by simp)
  · rintro p b ⟨e, he, l, hl, hp, hr⟩
    rw [List.mem_singleton.1 he] at hl
    rw [List.mem_singleton.1 hl] at hp hr
    cases hp
    have := reach_toRange.1 hr
    simp only [HasByte, Alias.Size.value, Option.some.injEq, forall_eq'] at this
    simp [exAddr]; omega
  · intro a ha b hb hx
    rw [List.mem_singleton.1 ha] at hb hx ⊢
    refine .inl ⟨_, List.mem_singleton.2 rfl, _, List.mem_singleton.2 rfl, rfl, reach_toRange.2 ?_⟩
    simp only [HasByte, Alias.Size.value, Option.some.injEq, forall_eq']
    simp [exAddr, vx] at hx
    omega

/-- A pure function: it uses its parameters only. -/
example : isPure ⟨false, false, false, [.other 0, .offset (.load (.other 1))]⟩ = (true, false) := by decide

/-- A function which accesses its parameter and a global variable. -/
example : isPure ⟨false, false, false, [.other 0, .offset (.glob 1)]⟩ = (false, false) := by decide

end DefUse
end Tsar
