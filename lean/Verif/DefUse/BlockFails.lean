import Verif.DefUse.Block
import Verif.Range.Props

/-!
# Definitions and uses in a basic block: examples and counterexamples
-/

namespace Tsar
namespace DefUse

open Tsar.Range Tsar.MemSet

/-! ## Simple instructions -/

/-- What an instruction does: `AtomicCmpXchgInst` writes memory if values are equal. -/
def Simple.Exec (s : Simple) (addr : Nat → Int) (m : Alias.Loc) (e : Eff) : Prop :=
  match s with
  | .load => (∀ x, ¬ e.wr x) ∧ ∀ x, e.rd x ↔ m.bytes addr x
  | .store => (∀ x, e.wr x ↔ m.bytes addr x) ∧ ∀ x, ¬ e.rd x
  | .atomicRMW => (∀ x, e.wr x ↔ m.bytes addr x) ∧ ∀ x, e.rd x ↔ m.bytes addr x
  | .cmpXchg => ((∀ x, e.wr x ↔ m.bytes addr x) ∨ ∀ x, ¬ e.wr x) ∧ ∀ x, e.rd x ↔ m.bytes addr x

/-- C89 (partial). Kinds of accesses which are made by instructions. Missing: `cmpxchg`. -/
theorem simple_does_partial (s : Simple) (hs : s ≠ .cmpXchg) (addr : Nat → Int) (all visited : List Alias.Loc)
    (m : Alias.Loc) (e : Eff) (h : s.Exec addr m e)
    (hv : ∀ a ∈ all, a ∉ visited → ∀ x, a.bytes addr x → ¬ m.bytes addr x) :
    (Acs.known m s.info.1 s.info.2 visited).Does addr all e := by
  refine ⟨?_, ?_, ?_, hv⟩ <;> cases s <;> simp_all [Simple.Exec, Simple.info]

/-! ## A sample machine -/

/-- Addresses of pointers: a variable at the address 100, its part at the address 104, a variable at the address 200; the
pointer 3 is equal to the pointer 0. -/
def exAddr : Nat → Int
  | 0 => 100
  | 1 => 104
  | 2 => 200
  | 3 => 100
  | _ => 300

/-- Alias analysis which knows addresses. -/
def exQuery (l r : Alias.Loc) : Alias.AR :=
  if exAddr l.ptr = exAddr r.ptr then .must
  else match l.size, r.size with
    | .precise n, .precise m =>
      if max (exAddr l.ptr) (exAddr r.ptr) < min (exAddr l.ptr + n) (exAddr r.ptr + m) then .partial_ else .no
    | _, _ => .may

/-- The pointer 1 is based on the specified pointer. -/
def exLlvm (base1 : Nat) : Alias.Llvm where
  query := exQuery
  base p := if p = 1 then base1 else p
  offset p := if p = 1 then 4 else 0

theorem exLlvm_sound {base1 : Nat} (h : exAddr base1 = 100) : (exLlvm base1).Sound exAddr where
  no := by
    intro l r hq x
    simp only [exLlvm, exQuery] at hq
    split at hq
    · cases hq
    · split at hq
      · rename_i n m h1 h2
        split at hq
        · cases hq
        · simp only [Alias.Loc.bytes, h1, h2, Alias.Size.bytes]
          omega
      · cases hq
  overlap := by
    intro l r hq
    simp only [exLlvm, exQuery] at hq
    split at hq
    · cases hq
    · split at hq
      · rename_i n m h1 h2
        split at hq
        · refine ⟨max (exAddr l.ptr) (exAddr r.ptr), ?_⟩
          simp only [Alias.Loc.bytes, h1, h2, Alias.Size.bytes]
          omega
        · cases hq
      · cases hq
  must := by
    intro l r hq
    simp only [exLlvm, exQuery] at hq
    split at hq
    · assumption
    · split at hq
      · split at hq <;> cases hq
      · cases hq
  offset := by
    intro p
    simp only [exLlvm]
    split
    · rename_i hp; rw [hp, h]; rfl
    · simp

def exEnv (base1 : Nat) : Env := ⟨exLlvm base1, refSolver, id⟩

def exOb : Option Nat → Obj := fun _ => ⟨1, []⟩

theorem ex_locOK (base1 : Nat) (l : Loc) (h1 : l.ptr ≠ none) (h2 : l.kind = Kind.default) (h3 : l.dims = [])
    (h4 : ∃ lo, l.lower = some lo) : LocOK exAddr exOb (exEnv base1).agg l := by
  have : WfLoc (exOb l.ptr) l := ⟨h1, .inl ⟨by rw [h2]; rfl, h3, h4, fun _ _ => .inl rfl⟩⟩
  refine ⟨this, this, fun p b hp hr => ⟨p, b, hp, hr, rfl⟩⟩

theorem ex_pairOK {base1 : Nat} {m a : Alias.Loc} {n k : Nat} (hm : m.size = .precise n) (ha : a.size = .precise k)
    (hn : n < 2 ^ 62) (hk : k < 2 ^ 62)
    (hb : (Alias.relation (exLlvm base1) m a).kind = .partial_ → (Alias.relation (exLlvm base1) m a).contained = true →
      (exLlvm base1).base m.ptr = (exLlvm base1).base a.ptr) : PairOK (exEnv base1) exAddr exOb m a where
  fits := ⟨fun p => by simp only [exEnv, exLlvm]; split <;> omega, by simp [hm]; omega, by simp [ha]; omega⟩
  side := by
    intro nl nr _ _
    simp only [exEnv, exLlvm]
    split <;> split <;> omega
  base := hb
  whole := ex_locOK _ _ (by simp [toRange]) rfl rfl ⟨0, rfl⟩
  size := by simp [hm, Alias.Size.value]; omega
  part := by
    intro _
    refine ex_locOK _ _ (by simp [subRange_ptr]) ?_ ?_ ?_ <;> unfold subRange <;> split <;> simp

/-- A variable of 8 bytes, its second half, another variable. -/
def vx : Alias.Loc := ⟨0, .precise 8⟩
def vp : Alias.Loc := ⟨1, .precise 4⟩
def vy : Alias.Loc := ⟨2, .precise 4⟩

/-- An instruction with a single access. -/
def one (s : Simple) (m : Alias.Loc) : Ins :=
  [(.known m s.info.1 s.info.2 [vx, vp, vy],
    ⟨fun x => s.info.1 ≠ .no ∧ m.bytes exAddr x, fun x => s.info.2 ≠ .no ∧ m.bytes exAddr x⟩)]

/-- `y = *p; *p = ...; ... = x` -/
def exBlock : List Ins := [one .load vp, one .store vy, one .store vp, one .load vx]

theorem exBlock_set : block (exEnv 0) (exBlock.map fun i => i.map (·.1)) =
    { defs := [(some 2, [toRange vy]), (some 0, [⟨some 0, some 4, some 8, [], Kind.default⟩]), (some 1, [toRange vp])],
      mayDefs := [],
      uses := [(some 0, [toRange vx]), (some 1, [toRange vp])] } := by
  decide +kernel

/-- The example meets assumptions of `block_describes_partial`. -/
theorem exBlock_ok : (∀ i ∈ exBlock, ∀ e ∈ i, e.1.OK (exEnv 0) exAddr exOb ∧ e.1.Does exAddr [vx, vp, vy] e.2) ∧
    ∀ i ∈ exBlock, NoInterference i := by
  have key : ∀ (s : Simple) (m : Alias.Loc), m ∈ [vx, vp, vy] → ∀ e ∈ one s m,
      e.1.OK (exEnv 0) exAddr exOb ∧ e.1.Does exAddr [vx, vp, vy] e.2 := by
    intro s m hm e he
    simp only [one, List.mem_singleton] at he
    subst he
    refine ⟨fun a ha => ?_, fun x h => h, fun x h => h, fun h x hx => ⟨?_, hx⟩, fun a ha hv => absurd ha hv⟩
    · simp only [List.mem_cons, List.not_mem_nil, or_false] at hm ha
      rcases hm with rfl | rfl | rfl <;> rcases ha with rfl | rfl | rfl <;>
        refine ex_pairOK rfl rfl (by decide) (by decide) (by decide)
    · rw [h]; decide
  refine ⟨?_, ?_⟩
  · intro i hi
    simp only [exBlock, List.mem_cons, List.not_mem_nil, or_false] at hi
    rcases hi with rfl | rfl | rfl | rfl <;> exact key _ _ (by simp)
  · intro i hi
    simp only [exBlock, List.mem_cons, List.not_mem_nil, or_false] at hi
    rcases hi with rfl | rfl | rfl | rfl <;> simp [NoInterference, one]

example : Describes exAddr [vx, vp, vy] (block (exEnv 0) (exBlock.map fun i => i.map (·.1))) (BlockWr exBlock)
    (BlockExposed exBlock) :=
  block_describes_partial (exEnv 0) exAddr exOb [vx, vp, vy] refSolver_ok (exLlvm_sound rfl) exBlock exBlock_ok.1 exBlock_ok.2

/-! ## Counterexamples -/

/-- C89. A call `f(&x, &x)` of a function which reads memory through the second parameter and overwrites it through the first
one: the use is lost. -/
theorem block_interference_fails : ¬ ∀ (E : Env) (addr : Nat → Int) (ob : Option Nat → Obj) (all : List Alias.Loc),
    SolverOK E.S → E.A.Sound addr → ∀ is : List Ins,
    (∀ i ∈ is, ∀ e ∈ i, e.1.OK E addr ob ∧ e.1.Does addr all e.2) →
    Describes addr all (block E (is.map fun i => i.map (·.1))) (BlockWr is) (BlockExposed is) := by
  intro h
  let w : Acs × Eff := (.known vx .must .no [vx], ⟨vx.bytes exAddr, fun _ => False⟩)
  let r : Acs × Eff := (.known vx .no .must [vx], ⟨fun _ => False, vx.bytes exAddr⟩)
  have hp : PairOK (exEnv 0) exAddr exOb vx vx := ex_pairOK (n := 8) (k := 8) rfl rfl (by decide) (by decide) (by decide)
  have := (h (exEnv 0) exAddr exOb [vx] refSolver_ok (exLlvm_sound rfl) [[w, r]] (by
    intro i hi e he
    simp only [List.mem_singleton] at hi
    subst hi
    simp only [List.mem_cons, List.not_mem_nil, or_false] at he
    rcases he with rfl | rfl
    · exact ⟨by simpa [w, Acs.OK] using hp, by simp [w, Acs.Does]⟩
    · exact ⟨by simpa [r, Acs.OK] using hp, by simp [r, Acs.Does]⟩)).uses vx (by simp) 0 (by simp [HasByte, vx, Alias.Size.value])
    (.inl ⟨r, by simp, by simp [r, vx, Alias.Loc.bytes, Alias.Size.bytes]⟩)
  have hb : (block (exEnv 0) ([[w, r]].map fun i => i.map (·.1))).uses = [] := by decide +kernel
  rw [hb] at this
  obtain ⟨_, h, _⟩ := this
  cases h

/-- C89. Bases of pointers are different values with the same address: definitions of wrong bytes are added. -/
theorem contained_base_fails : ¬ ∀ (E : Env) (addr : Nat → Int) (ob : Option Nat → Obj) (m a : Alias.Loc),
    SolverOK E.S → E.A.Sound addr → Alias.Fits E.A m a → Alias.SameSide E.A m a → LocOK addr ob E.agg (toRange a) →
    LocOK addr ob E.agg (subRange E.A m a) → ∀ p b, SetByte (stepKnown E m .must .no {} a).defs (some p) b →
    m.bytes addr (addr p + b) := by
  intro h
  have hp : PairOK (exEnv 3) exAddr exOb vp vp := ex_pairOK (n := 4) (k := 4) rfl rfl (by decide) (by decide) (by decide)
  have := h (exEnv 3) exAddr exOb vp vx refSolver_ok (exLlvm_sound rfl)
    ⟨hp.fits.offset, hp.fits.left, by simp [vx]⟩ (by
      intro nl nr _ _
      simp only [exEnv, exLlvm, vp, vx]
      simp; omega)
    (ex_locOK _ _ (by simp [toRange]) rfl rfl ⟨0, rfl⟩)
    (ex_locOK _ _ (by simp [subRange_ptr]) rfl rfl ⟨0, rfl⟩) 0 0
  have hb : (stepKnown (exEnv 3) vp .must .no {} vx).defs = [(some 0, [⟨some 0, some 0, some 4, [], Kind.default⟩])] := by
    decide +kernel
  rw [hb] at this
  have := this ⟨_, List.mem_singleton.2 rfl, _, List.mem_singleton.2 rfl, rfl, by simp [Reach, Kind.default]⟩
  simp [vp, Alias.Loc.bytes, Alias.Size.bytes, exAddr] at this

/-- C89. `cmpxchg` is considered as a definition although memory may remain unchanged. -/
theorem simple_cmpXchg_fails : ¬ ∀ (s : Simple) (addr : Nat → Int) (all visited : List Alias.Loc) (m : Alias.Loc) (e : Eff),
    s.Exec addr m e → (∀ a ∈ all, a ∉ visited → ∀ x, a.bytes addr x → ¬ m.bytes addr x) →
    (Acs.known m s.info.1 s.info.2 visited).Does addr all e := by
  intro h
  have := (h .cmpXchg exAddr [] [] vx ⟨fun _ => False, vx.bytes exAddr⟩ ⟨.inr fun x => id, fun x => Iff.rfl⟩ (by simp)).2.2.1
    rfl 100 (by simp [vx, Alias.Loc.bytes, Alias.Size.bytes, exAddr])
  exact this

end DefUse
end Tsar
