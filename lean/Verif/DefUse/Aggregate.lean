import Verif.MemSet.Spec
import Mathlib.Tactic.Linarith
import Mathlib.Tactic.Ring

/-!
# Aggregation of accesses to arrays

Models `aggregate()` (lib/Analysis/Memory/DefinedMemory.cpp), property C88. A location which is accessed on each iteration of
a loop is replaced with a range of elements of an array which are accessed on all iterations.

Results of delinearization and scalar evolution are input data. Values of `int64_t` and `uint64_t` are unbounded.
-/

namespace Tsar
namespace DefUse

open Tsar.Range Tsar.MemSet

/-! ## Model -/

/-- A size of a dimension of a delinearized array (DefinedMemory.cpp:308, 315). -/
inductive Sz where
  | unknown
  | const (n : Nat)
  | symbolic
  deriving DecidableEq, Repr

/-- A subscript after `computeSCEVAddRec()`: a constant, a recurrence in a loop (its step if it is constant and the result of
`getSignedRangeMin()`), some other expression (DefinedMemory.cpp:325-377). -/
inductive Expr where
  | const (c : Int)
  | addRec (loop : Nat) (step : Option Int) (min : Int)
  | other
  deriving DecidableEq, Repr

/-- A subscript and a flag which is set if there are no unsafe casts in it (DefinedMemory.cpp:322). -/
structure Sub where
  expr : Expr
  safe : Bool := true
  deriving DecidableEq, Repr

/-- The result of `DelinearizeInfo::findRange()` (DefinedMemory.cpp:260-295): attributes of an array (`typed` is set if a type
of the array is known, `noSize` if `arraySize()` does not know sizes, `elem` is a size of an element or nothing if it is
scalable) and of an access to it. -/
structure Acc where
  base : Nat
  delinearized : Bool := true
  valid : Bool := true
  addressOfVariable : Bool := false
  typed : Bool := true
  noSize : Bool := false
  elem : Option Nat
  dims : List Sz
  subs : List Sub
  deriving DecidableEq, Repr

/-- A region (the parameter `R`): a null pointer, a loop (with a set of loops which it contains, itself included) or some other
region. -/
inductive Reg where
  | null
  | loop (contains : Nat → Bool)
  | other

/-- A region, `getSmallConstantTripCount()` for loops (0 if it is not known) and the option `IsSafeTypeCast`. -/
structure Ctx where
  reg : Reg
  trip : Nat → Nat
  safeCast : Bool := false

/-- `LocKind::NonCollapsable`. -/
def nonCollapsable : Kind := ⟨true, false, false⟩

/-- `LocKind::Collapsed`. -/
def collapsed : Kind := ⟨false, true, false⟩

/-- The size of a dimension (DefinedMemory.cpp:308-321): nothing if the loop is left. -/
def dimSize (n : Nat) : Sz → Option Nat
  | .const k => some k
  | .unknown | .symbolic => if n ≠ 0 then none else some 0

/-- An iteration of the loop over subscripts (DefinedMemory.cpp:305-378): a dimension, or a kind of a location if the loop is
left. -/
def stepDim (C : Ctx) (n : Nat) (sz : Sz) (s : Sub) : Except Kind Dim :=
  match dimSize n sz with
  | none => .error nonCollapsable
  | some size =>
    if C.safeCast && !s.safe then .error nonCollapsable
    else match s.expr with
      | .const c => if c < 0 then .error nonCollapsable else .ok ⟨c.toNat, 1, 1, size⟩
      | .other => .error nonCollapsable
      | .addRec l st m =>
        match C.reg with
        | .null => .error Kind.default
        | _ =>
          match st with
          | none => .error nonCollapsable
          | some st =>
            if C.trip l ≤ 1 then .error nonCollapsable
            else if m < 0 then .error nonCollapsable
            else if n ≠ 0 ∧ m.toNat + st.natAbs * (C.trip l - 1 - 1) ≥ size then .error nonCollapsable
            else .ok ⟨m.toNat, st.natAbs, C.trip l - 1, size⟩

/-- The loop over subscripts (DefinedMemory.cpp:303-379): dimensions, or a kind of a location if the loop is left. The number
of subscripts is the number of dimensions. -/
def aggLoop (C : Ctx) : Nat → List Sz → List Sub → Except Kind (List Dim)
  | n, z :: zs, s :: ss =>
    match stepDim C n z s with
    | .error k => .error k
    | .ok d =>
      match aggLoop C (n + 1) zs ss with
      | .error k => .error k
      | .ok ds => .ok (d :: ds)
  | _, _, _ => .ok []

/-- `LoopMatchCount` (DefinedMemory.cpp:341-346). -/
def loopMatch (C : Ctx) (subs : List Sub) : Nat :=
  match C.reg with
  | .loop contains => subs.countP fun s => match s.expr with | .addRec l _ _ => contains l | _ => false
  | _ => 0

/-- `ConstMatchCount` (DefinedMemory.cpp:329). -/
def constMatch (subs : List Sub) : Nat :=
  subs.countP fun s => match s.expr with | .const _ => true | _ => false

/-- `aggregate()` (DefinedMemory.cpp:249-406). -/
def aggregate (C : Ctx) (find : Option Acc) (loc : Loc) : Loc × Bool :=
  if loc.kind ≠ Kind.default then (loc, true)
  else match find with
    | none => (loc, true)
    | some a =>
      if !a.delinearized || !a.valid then (loc, true)
      else if !a.typed || a.addressOfVariable then ({ loc with kind := nonCollapsable }, true)
      else if a.noSize && a.dims.length ≠ 1 then ({ loc with kind := nonCollapsable }, true)
      else if a.elem = none ∨ a.subs.length ≠ a.dims.length ∨ loc.lower ≠ some 0 ∨ loc.upper = none ∨
          loc.upper ≠ a.elem then ({ loc with kind := nonCollapsable }, true)
      else
        match aggLoop C 0 a.dims a.subs with
        | .error k => ({ loc with kind := k }, true)
        | .ok ds =>
          let res : Loc × Bool := ({ ptr := some a.base, lower := some 0, upper := a.elem, dims := ds, kind := collapsed }, true)
          match C.reg with
          | .loop _ =>
            if loopMatch C a.subs = 0 ∧ constMatch a.subs ≠ a.dims.length then (res.1, false)
            else if loopMatch C a.subs > 0 ∧ loopMatch C a.subs + constMatch a.subs < a.dims.length then (loc, true)
            else res
          | _ => res

/-! ## Specification -/

/-- Values of a subscript for numbers of iterations of loops: the number of a loop is mapped to the number of its iteration. -/
abbrev Value := (Nat → Nat) → Int

/-- The loop with number `l` executes the access `n l` times. -/
def Run (n : Nat → Nat) (it : Nat → Nat) : Prop := ∀ l, it l < n l

/-- The number of an element in row-major order. -/
def element : List Nat → List Int → Int
  | _ :: zs, i :: is => i * zs.prod + element zs is
  | _, _ => 0

/-- A byte `b` of an array is accessed on some iteration: `sizes` are sizes of dimensions, `e` is a size of an element, `fs` are
subscripts. -/
def Accessed (sizes : List Nat) (e : Nat) (n : Nat → Nat) (fs : List Value) (b : Nat) : Prop :=
  ∃ it, Run n it ∧ ∃ o < e, (b : Int) = element sizes (fs.map fun f => f it) * e + o

/-- Sizes of dimensions are known (the first one may be unknown). -/
def SizesOK : List Sz → List Nat → Prop
  | _ :: zs, _ :: ns => List.Forall₂ (fun z n => ∀ k, z = .const k → k = n) zs ns
  | [], [] => True
  | _, _ => False

/-- A subscript is an arithmetic progression with a constant beginning, the lower bound is exact and each loop is left from its
header. -/
def Regular (C : Ctx) (n : Nat → Nat) : Expr → Value → Prop
  | .const c, f => ∀ it, f it = c
  | .addRec l (some s) m, f => ∃ c, (∀ it, f it = c + s * it l) ∧ n l = C.trip l - 1 ∧
      m = if 0 ≤ s then c else c + s * ((n l : Int) - 1)
  | _, _ => True

/-- Loops of recurrences. -/
def loopsOf (subs : List Sub) : List Nat :=
  subs.filterMap fun s => match s.expr with | .addRec l _ _ => some l | _ => none

/-! ## Lemmas -/

theorem stepDim_size {C : Ctx} {n : Nat} {z : Sz} {s : Sub} {d : Dim} (h : stepDim C n z s = .ok d) (hn : n ≠ 0) :
    z = .const d.size := by
  unfold stepDim at h
  split at h
  · cases h
  · rename_i size hz
    have hzs : z = .const size := by
      cases z <;> simp [dimSize, hn] at hz
      rw [hz]
    rw [hzs]
    split at h
    · cases h
    · split at h
      · split at h
        · cases h
        · simp only [Except.ok.injEq] at h; rw [← h]
      · cases h
      · split at h
        · cases h
        · split at h
          · cases h
          · split at h
            · cases h
            · split at h
              · cases h
              · split at h
                · cases h
                · simp only [Except.ok.injEq] at h; rw [← h]

/-- Indexes of a dimension. -/
theorem stepDim_mem {C : Ctx} {n : Nat} {z : Sz} {s : Sub} {d : Dim} (h : stepDim C n z s = .ok d) {cnt : Nat → Nat}
    {f : Value} (hr : Regular C cnt s.expr f) :
    (∀ it, Run cnt it → ∃ i, f it = (i : Nat) ∧ d.Mem i) ∧
    ∀ i, d.Mem i → (∀ l st m, s.expr = .addRec l st m → ∃ k < cnt l, ∀ it, it l = k → f it = (i : Nat)) ∧
      ((∀ l st m, s.expr ≠ .addRec l st m) → ∀ it, f it = (i : Nat)) := by
  unfold stepDim at h
  split at h
  · cases h
  · rename_i size hz
    split at h
    · cases h
    · split at h
      · rename_i c he
        rw [he] at hr
        split at h
        · cases h
        · rename_i hc
          simp only [Except.ok.injEq] at h
          subst h
          have hr : ∀ it, f it = c := hr
          refine ⟨fun it _ => ⟨c.toNat, by rw [hr]; omega, 0, by simp, by simp⟩, fun i ⟨k, hk, hi⟩ => ⟨?_, ?_⟩⟩
          · intro l st m hm
            rw [he] at hm
            cases hm
          · intro _ it
            rw [hr]
            simp only [Nat.one_mul] at hi hk
            omega
      · cases h
      · rename_i l st m he
        rw [he] at hr
        split at h
        · cases h
        · split at h
          · cases h
          · rename_i st'
            split at h
            · cases h
            · rename_i ht
              split at h
              · cases h
              · rename_i hm
                split at h
                · cases h
                · simp only [Except.ok.injEq] at h
                  subst h
                  obtain ⟨c, hf, hn, hmin⟩ : ∃ c, (∀ it, f it = c + st' * it l) ∧ cnt l = C.trip l - 1 ∧
                    m = if 0 ≤ st' then c else c + st' * ((cnt l : Int) - 1) := hr
                  have hm0 : ((m.toNat : Nat) : Int) = m := by omega
                  constructor
                  · intro it hit
                    have hl := hit l
                    split at hmin
                    · rename_i hs
                      refine ⟨m.toNat + st'.natAbs * it l, ?_, it l, by simpa [← hn] using hl, rfl⟩
                      rw [hf]
                      push_cast
                      rw [hm0, hmin, abs_of_nonneg hs]
                    · rename_i hs
                      refine ⟨m.toNat + st'.natAbs * (cnt l - 1 - it l), ?_, cnt l - 1 - it l, ?_, rfl⟩
                      · rw [hf]
                        push_cast
                        rw [hm0, abs_of_neg (by omega)]
                        have : ((cnt l - 1 - it l : Nat) : Int) = (cnt l : Int) - 1 - it l := by omega
                        rw [this, hmin]
                        ring
                      · show cnt l - 1 - it l < C.trip l - 1
                        omega
                  · rintro i ⟨k, hk, hi⟩
                    have hk : k < C.trip l - 1 := hk
                    have hi : i = m.toNat + st'.natAbs * k := hi
                    refine ⟨?_, fun hno => absurd he (hno _ _ _)⟩
                    intro l' st2 m2 he2
                    rw [he] at he2
                    cases he2
                    split at hmin
                    · rename_i hs
                      refine ⟨k, by omega, fun it hit => ?_⟩
                      rw [hf, hi, hit]
                      push_cast
                      rw [hm0, hmin, abs_of_nonneg hs]
                    · rename_i hs
                      refine ⟨cnt l - 1 - k, by omega, fun it hit => ?_⟩
                      rw [hf, hi, hit]
                      push_cast
                      rw [hm0, abs_of_neg (by omega)]
                      have : ((cnt l - 1 - k : Nat) : Int) = (cnt l : Int) - 1 - k := by omega
                      rw [this, hmin]
                      ring

theorem aggLoop_cons {C : Ctx} {n : Nat} {z : Sz} {zs : List Sz} {s : Sub} {ss : List Sub} {ds : List Dim}
    (h : aggLoop C n (z :: zs) (s :: ss) = .ok ds) :
    ∃ d ds', ds = d :: ds' ∧ stepDim C n z s = .ok d ∧ aggLoop C (n + 1) zs ss = .ok ds' := by
  simp only [aggLoop] at h
  split at h
  · cases h
  · rename_i d hd
    split at h
    · cases h
    · rename_i ds' hds
      simp only [Except.ok.injEq] at h
      exact ⟨d, ds', h.symm, hd, hds⟩

theorem aggLoop_len {C : Ctx} : ∀ {zs : List Sz} {n : Nat} {ss : List Sub} {ds : List Dim}, ss.length = zs.length →
    aggLoop C n zs ss = .ok ds → ds.length = zs.length := by
  intro zs
  induction zs with
  | nil =>
    intro n ss ds hl h
    simp only [aggLoop, Except.ok.injEq] at h
    simp [← h]
  | cons z zs ih =>
    intro n ss ds hl h
    cases ss with
    | nil => simp at hl
    | cons s ss =>
      obtain ⟨d, ds', rfl, -, h⟩ := aggLoop_cons h
      simp [ih (by simpa using hl) h]

theorem aggLoop_sizes {C : Ctx} : ∀ {zs : List Sz} {n : Nat} {ss : List Sub} {ds : List Dim} {ns : List Nat}, n ≠ 0 →
    ss.length = zs.length → aggLoop C n zs ss = .ok ds → List.Forall₂ (fun z n => ∀ k, z = .const k → k = n) zs ns →
    ds.map Dim.size = ns := by
  intro zs
  induction zs with
  | nil =>
    intro n ss ds ns hn hl h hz
    simp only [aggLoop, Except.ok.injEq] at h
    cases hz
    simp [← h]
  | cons z zs ih =>
    intro n ss ds ns hn hl h hz
    cases hz with
    | cons hz1 hz2 =>
      cases ss with
      | nil => simp at hl
      | cons s ss =>
        obtain ⟨d, ds', rfl, hd, h⟩ := aggLoop_cons h
        simp only [List.map_cons, ih (Nat.succ_ne_zero n) (by simpa using hl) h hz2, List.cons.injEq, and_true]
        exact hz1 _ (stepDim_size hd hn)

/-- Each accessed element belongs to the range. -/
theorem aggLoop_may {C : Ctx} {cnt : Nat → Nat} {it : Nat → Nat} (hit : Run cnt it) :
    ∀ {zs : List Sz} {n : Nat} {ss : List Sub} {ds : List Dim} {fs : List Value}, ss.length = zs.length →
    aggLoop C n zs ss = .ok ds → List.Forall₂ (fun s f => Regular C cnt s.expr f) ss fs →
    ∃ v : List Nat, DimsMem ds v ∧ (fs.map fun f => f it) = v.map (fun i : Nat => (i : Int)) := by
  intro zs
  induction zs with
  | nil =>
    intro n ss ds fs hl h hr
    simp only [aggLoop, Except.ok.injEq] at h
    subst h
    cases ss with
    | cons => simp at hl
    | nil =>
      cases hr
      exact ⟨[], trivial, rfl⟩
  | cons z zs ih =>
    intro n ss ds fs hl h hr
    cases hr with
    | nil => simp at hl
    | cons h1 h2 =>
      obtain ⟨d, ds', rfl, hd, h⟩ := aggLoop_cons h
      obtain ⟨v, hv, he⟩ := ih (by simpa using hl) h h2
      obtain ⟨i, hi, hm⟩ := (stepDim_mem hd h1).1 it hit
      exact ⟨i :: v, ⟨hm, hv⟩, by simp [hi, he]⟩

/-- A value does not depend on loops which are not mentioned. -/
theorem regular_indep {C : Ctx} {cnt : Nat → Nat} {z : Sz} {n : Nat} {s : Sub} {f : Value} {d : Dim}
    (hd : stepDim C n z s = .ok d) (hr : Regular C cnt s.expr f) {it it' : Nat → Nat}
    (h : ∀ l st m, s.expr = .addRec l st m → it l = it' l) : f it = f it' := by
  cases he : s.expr with
  | const c =>
    rw [he] at hr
    have hr : ∀ it, f it = c := hr
    rw [hr, hr]
  | other =>
    unfold stepDim at hd
    rw [he] at hd
    split at hd
    · cases hd
    · split at hd <;> cases hd
  | addRec l st m =>
    cases st with
    | none =>
      unfold stepDim at hd
      rw [he] at hd
      split at hd
      · cases hd
      · split at hd
        · cases hd
        · simp only at hd
          split at hd <;> cases hd
    | some st =>
      rw [he] at hr
      obtain ⟨c, hf, -⟩ := hr
      rw [hf, hf, h l _ _ he]

/-- Each element of the range is accessed if recurrences belong to different loops. -/
theorem aggLoop_must {C : Ctx} {cnt : Nat → Nat} (hpos : ∀ l, 0 < cnt l) :
    ∀ {zs : List Sz} {n : Nat} {ss : List Sub} {ds : List Dim} {fs : List Value}, ss.length = zs.length →
    aggLoop C n zs ss = .ok ds → List.Forall₂ (fun s f => Regular C cnt s.expr f) ss fs → (loopsOf ss).Nodup →
    ∀ v, DimsMem ds v → ∃ it, Run cnt it ∧ (∀ l, l ∉ loopsOf ss → it l = 0) ∧
      (fs.map fun f => f it) = v.map (fun i : Nat => (i : Int)) ∧
      ∀ it', (∀ l ∈ loopsOf ss, it' l = it l) → (fs.map fun f => f it') = v.map (fun i : Nat => (i : Int)) := by
  intro zs
  induction zs with
  | nil =>
    intro n ss ds fs hl h hr hnd v hv
    simp only [aggLoop, Except.ok.injEq] at h
    subst h
    cases ss with
    | cons => simp at hl
    | nil =>
      cases hr
      cases v with
      | nil => exact ⟨fun _ => 0, fun l => hpos l, fun _ _ => rfl, rfl, fun _ _ => rfl⟩
      | cons => exact absurd hv (by simp [DimsMem])
  | cons z zs ih =>
    intro n ss ds fs hl h hr hnd v hv
    cases hr with
    | nil => simp at hl
    | @cons s f ss fs h1 h2 =>
      obtain ⟨d, ds', rfl, hd, h⟩ := aggLoop_cons h
      cases v with
      | nil => exact absurd hv (by simp [DimsMem])
      | cons i v =>
        obtain ⟨hm, hv⟩ := hv
        obtain ⟨m1, m2⟩ := (stepDim_mem hd h1).2 i hm
        by_cases hrec : ∃ l st m, s.expr = .addRec l st m
        · obtain ⟨l, st, m, he⟩ := hrec
          have hlo : loopsOf (s :: ss) = l :: loopsOf ss := by simp [loopsOf, he]
          rw [hlo] at hnd ⊢
          obtain ⟨hnl, hnd⟩ := List.nodup_cons.1 hnd
          obtain ⟨it, r1, r2, r3, r4⟩ := ih (by simpa using hl) h h2 hnd v hv
          obtain ⟨k, hk, hfk⟩ := m1 l st m he
          refine ⟨fun x => if x = l then k else it x, fun x => ?_, fun x hx => ?_, ?_, fun it' hit' => ?_⟩
          · by_cases hx : x = l
            · simpa [hx] using hk
            · simpa [hx] using r1 x
          · simp only [List.mem_cons, not_or] at hx
            simpa [hx.1] using r2 x hx.2
          · simp only [List.map_cons, List.cons.injEq]
            refine ⟨hfk _ (by simp), r4 _ fun x hx => ?_⟩
            rw [if_neg fun hxl : x = l => hnl (hxl ▸ hx)]
          · simp only [List.map_cons, List.cons.injEq]
            refine ⟨hfk _ (by simpa using hit' l List.mem_cons_self), r4 _ fun x hx => ?_⟩
            rw [hit' x (List.mem_cons_of_mem _ hx)]
            exact if_neg fun hxl : x = l => hnl (hxl ▸ hx)
        · have hrec' : ∀ l st m, s.expr ≠ .addRec l st m := fun l st m he => hrec ⟨l, st, m, he⟩
          have hlo : loopsOf (s :: ss) = loopsOf ss := by
            cases he : s.expr with
            | addRec l st m => exact absurd he (hrec' l st m)
            | const c => simp [loopsOf, he]
            | other => simp [loopsOf, he]
          rw [hlo] at hnd ⊢
          obtain ⟨it, r1, r2, r3, r4⟩ := ih (by simpa using hl) h h2 hnd v hv
          refine ⟨it, r1, r2, ?_, fun it' hit' => ?_⟩
          · simp [m2 hrec' it, r3]
          · simp only [List.map_cons, List.cons.injEq]
            exact ⟨m2 hrec' it', r4 it' hit'⟩

theorem element_linear : ∀ {ds : List Dim} {v : List Nat}, ds.length = v.length →
    element (ds.map Dim.size) (v.map (fun i : Nat => (i : Int))) = (linear ds v : Nat)
  | [], [], _ => rfl
  | [], _ :: _, h => by simp at h
  | _ :: _, [], h => by simp at h
  | d :: ds, i :: v, h => by
    simp only [List.map_cons, element, linear, element_linear (ds := ds) (v := v) (by simpa using h)]
    push_cast
    rfl

theorem element_head {a b : Nat} (ns : List Nat) : ∀ is : List Int, element (a :: ns) is = element (b :: ns) is
  | [] => rfl
  | _ :: _ => rfl

theorem dimsMem_len : ∀ {ds : List Dim} {v : List Nat}, DimsMem ds v → ds.length = v.length
  | [], [], _ => rfl
  | [], _ :: _, h => by simp [DimsMem] at h
  | _ :: _, [], h => by simp [DimsMem] at h
  | _ :: _, _ :: _, ⟨_, h⟩ => by simp [dimsMem_len h]

/-- Sizes of dimensions of the range are sizes of dimensions of the array. -/
theorem aggLoop_element {C : Ctx} {zs : List Sz} {ss : List Sub} {ds : List Dim} {ns : List Nat}
    (hl : ss.length = zs.length) (h : aggLoop C 0 zs ss = .ok ds) (hz : SizesOK zs ns) (v : List Nat)
    (hv : ds.length = v.length) : element ns (v.map (fun i : Nat => (i : Int))) = (linear ds v : Nat) := by
  rw [← element_linear hv]
  cases zs with
  | nil =>
    cases ns with
    | cons => exact absurd hz (by simp [SizesOK])
    | nil =>
      simp only [aggLoop, Except.ok.injEq] at h
      subst h
      rfl
  | cons z zs =>
    cases ns with
    | nil => exact absurd hz (by simp [SizesOK])
    | cons n ns =>
      cases ss with
      | nil => simp at hl
      | cons s ss =>
        obtain ⟨d, ds', rfl, -, h⟩ := aggLoop_cons h
        rw [List.map_cons, aggLoop_sizes (Nat.succ_ne_zero 0) (by simpa using hl) h hz]
        exact element_head ns _

/-- Cases of the result. -/
theorem aggregate_collapsed {C : Ctx} {find : Option Acc} {loc : Loc} (hd : loc.kind = Kind.default)
    (h : (aggregate C find loc).1.kind.collapsed = true) :
    ∃ a e ds, find = some a ∧ a.elem = some e ∧ a.subs.length = a.dims.length ∧ loc.lower = some 0 ∧ loc.upper = some e ∧
      aggLoop C 0 a.dims a.subs = .ok ds ∧
      (aggregate C find loc).1 = { ptr := some a.base, lower := some 0, upper := some e, dims := ds, kind := collapsed } := by
  unfold aggregate at h ⊢
  rw [if_neg (by simp [hd])] at h ⊢
  cases find with
  | none => simp [hd, Kind.default] at h
  | some a =>
    simp only at h ⊢
    split at h
    · simp [hd, Kind.default] at h
    · rename_i h1
      rw [if_neg h1]
      split at h
      · simp [nonCollapsable] at h
      · rename_i h2
        rw [if_neg h2]
        split at h
        · simp [nonCollapsable] at h
        · rename_i h3
          rw [if_neg h3]
          split at h
          · simp [nonCollapsable] at h
          · rename_i h4
            rw [if_neg h4]
            simp only [not_or, not_not] at h4
            obtain ⟨g1, g2, g3, g4, g5⟩ := h4
            obtain ⟨e, he⟩ := Option.ne_none_iff_exists'.1 g1
            rw [he] at g5
            split at h
            · rename_i k hk
              exfalso
              have : ∀ {zs : List Sz} {n : Nat} {ss : List Sub}, aggLoop C n zs ss = .error k → k.collapsed = false := by
                intro zs
                induction zs with
                | nil => intro n ss h; simp [aggLoop] at h
                | cons z zs ih =>
                  intro n ss h
                  cases ss with
                  | nil => simp [aggLoop] at h
                  | cons s ss =>
                    simp only [aggLoop] at h
                    split at h
                    · rename_i k' hs
                      simp only [Except.error.injEq] at h
                      subst h
                      unfold stepDim at hs
                      repeat' split at hs
                      all_goals first | (cases hs; rfl) | cases hs
                    · split at h
                      · rename_i k' hs
                        simp only [Except.error.injEq] at h
                        subst h
                        exact ih hs
                      · cases h
              have hk' := this hk
              simp [hk'] at h
            · rename_i ds hds
              refine ⟨a, e, ds, rfl, he, g2, g3, g5, hds, ?_⟩
              simp only [he] at h ⊢
              split at h
              · split at h
                · rename_i h5
                  simp only [if_pos h5]
                · rename_i h5
                  split at h
                  · simp [hd, Kind.default] at h
                  · rename_i h6
                    simp only [if_neg h5, if_neg h6]
              · rfl

/-! ## Theorems -/

/-- C88 (partial). If an access is replaced with a range of elements of an array, each byte which is accessed on iterations of
loops belongs to the range. Missing: subscripts with a variable beginning, loops which are left from their ends, see
`aggregate_start_fails`, `aggregate_nested_fails`, `aggregate_trip_fails`. -/
theorem aggregate_may_partial (C : Ctx) (a : Acc) (loc : Loc) (hd : loc.kind = Kind.default) (res : Loc) (own : Bool)
    (h : aggregate C (some a) loc = (res, own)) (hc : res.kind.collapsed = true) (sizes : List Nat)
    (hz : SizesOK a.dims sizes) (cnt : Nat → Nat) (fs : List Value)
    (hr : List.Forall₂ (fun s f => Regular C cnt s.expr f) a.subs fs) (e : Nat) (he : a.elem = some e) (b : Nat)
    (hb : Accessed sizes e cnt fs b) : res.ptr = some a.base ∧ MemSet.Reach res b := by
  obtain ⟨a', e', ds, ha, he', h1, h2, h3, h4, h5⟩ := aggregate_collapsed (find := some a) hd (by rw [h]; exact hc)
  cases ha
  rw [he] at he'
  cases he'
  rw [h] at h5
  subst h5
  refine ⟨rfl, ?_⟩
  obtain ⟨it, hit, o, ho, hb⟩ := hb
  obtain ⟨v, hv, hf⟩ := aggLoop_may hit h1 h4 hr
  rw [hf, aggLoop_element h1 h4 hz v (dimsMem_len hv)] at hb
  simp only [MemSet.Reach, collapsed, if_true, Loc.Byte]
  exact ⟨v, hv, o, ho, by exact_mod_cast hb⟩

/-- C88 (partial). If in addition subscripts of different dimensions are governed by different loops, each byte of the range is
accessed on some iteration. Missing: one loop for several dimensions, see `aggregate_diagonal_fails`. -/
theorem aggregate_must_partial (C : Ctx) (a : Acc) (loc : Loc) (hd : loc.kind = Kind.default) (res : Loc) (own : Bool)
    (h : aggregate C (some a) loc = (res, own)) (hc : res.kind.collapsed = true) (sizes : List Nat)
    (hz : SizesOK a.dims sizes) (cnt : Nat → Nat) (hpos : ∀ l, 0 < cnt l) (fs : List Value)
    (hr : List.Forall₂ (fun s f => Regular C cnt s.expr f) a.subs fs) (hnd : (loopsOf a.subs).Nodup) (e : Nat)
    (he : a.elem = some e) (b : Nat) (hb : MemSet.Reach res b) : Accessed sizes e cnt fs b := by
  obtain ⟨a', e', ds, ha, he', h1, h2, h3, h4, h5⟩ := aggregate_collapsed (find := some a) hd (by rw [h]; exact hc)
  cases ha
  rw [he] at he'
  cases he'
  rw [h] at h5
  subst h5
  simp only [MemSet.Reach, collapsed, if_true, Loc.Byte] at hb
  obtain ⟨v, hv, o, ho, hb⟩ := hb
  obtain ⟨it, r1, -, r3, -⟩ := aggLoop_must hpos h1 h4 hr hnd v hv
  refine ⟨it, r1, o, ho, ?_⟩
  rw [r3, aggLoop_element h1 h4 hz v (dimsMem_len hv), hb]
  push_cast
  rfl

/-- C88. A range which is considered to be a part of a loop depends on this loop and on nested loops only. -/
theorem aggregate_own (C : Ctx) (contains : Nat → Bool) (hreg : C.reg = .loop contains) (a : Acc) (loc : Loc)
    (hd : loc.kind = Kind.default) (res : Loc) (h : aggregate C (some a) loc = (res, true)) (hc : res.kind.collapsed = true)
    (l : Nat) (hl : l ∈ loopsOf a.subs) : contains l = true := by
  obtain ⟨a', e', ds, ha, he', h1, h2, h3, h4, h5⟩ := aggregate_collapsed (find := some a) hd (by rw [h]; exact hc)
  cases ha
  rw [h] at h5
  have key : ∀ ss : List Sub, (∃ l ∈ loopsOf ss, contains l = false) →
      (ss.countP fun s => match s.expr with | .addRec l _ _ => contains l | _ => false) + constMatch ss < ss.length := by
    intro ss
    induction ss with
    | nil => rintro ⟨l, hl, -⟩; simp [loopsOf] at hl
    | cons s ss ih =>
      rintro ⟨l, hl, hcl⟩
      have hle : ∀ ss : List Sub, (ss.countP fun s => match s.expr with | .addRec l _ _ => contains l | _ => false) +
          constMatch ss ≤ ss.length := by
        intro ss
        induction ss with
        | nil => simp [constMatch]
        | cons s ss ih =>
          unfold constMatch at ih ⊢
          simp only [List.countP_cons, List.length_cons]
          cases s.expr with
          | const c => simp; omega
          | other => simp; omega
          | addRec l st m => simp; split <;> omega
      have hle := hle ss
      unfold constMatch at ih hle ⊢
      simp only [List.countP_cons, List.length_cons]
      cases he : s.expr with
      | const c =>
        have := ih ⟨l, by simpa [loopsOf, he] using hl, hcl⟩
        simp; omega
      | other =>
        have := ih ⟨l, by simpa [loopsOf, he] using hl, hcl⟩
        simp; omega
      | addRec l' st m =>
        have hl' : l = l' ∨ l ∈ loopsOf ss := by simpa [loopsOf, he] using hl
        rcases hl' with rfl | hl'
        · simp [hcl]; omega
        · have := ih ⟨l, hl', hcl⟩
          simp; split <;> omega
  by_contra hcl
  have hk := key a.subs ⟨l, hl, by simpa using hcl⟩
  unfold aggregate at h
  rw [if_neg (by simp [hd])] at h
  simp only at h
  repeat' split at h
  all_goals first
    | (simp only [Prod.mk.injEq] at h; obtain ⟨h, -⟩ := h; subst h; simp [hd, Kind.default, nonCollapsable] at hc; done)
    | skip
  · rename_i k hk'
    rw [h4] at hk'
    cases hk'
  · simp at h
  · rename_i g1 g2
    simp only [loopMatch, hreg] at g1 g2
    rw [h1] at hk
    omega
  · rename_i hno
    exact hno contains hreg

end DefUse
end Tsar
