import Verif.DefUse.Block
import Verif.DefUse.Aggregate

/-!
# Aggregation of a single access

The contract of `aggregate(nullptr, Loc)`, which is used in construction of def-use sets of basic blocks (C89), follows from
correctness of delinearization.
-/

namespace Tsar
namespace DefUse

open Tsar.Range Tsar.MemSet

/-- Values of constant subscripts. -/
def constVal : Expr → Int
  | .const c => c
  | _ => 0

/-- If a location is not replaced with a range of elements, only its kind may be changed. -/
theorem aggregate_same {C : Ctx} {find : Option Acc} {loc : Loc}
    (h : (aggregate C find loc).1.kind.collapsed = false) :
    (aggregate C find loc).1 = { loc with kind := (aggregate C find loc).1.kind } := by
  unfold aggregate at h ⊢
  split
  · rfl
  · cases find with
    | none => rfl
    | some a =>
      rename_i h0
      rw [if_neg h0] at h
      simp only at h ⊢
      split
      · rfl
      · split
        · rfl
        · split
          · rfl
          · split
            · rfl
            · rename_i h1 h2 h3 h4
              rw [if_neg h1, if_neg h2, if_neg h3, if_neg h4] at h
              cases hl : aggLoop C 0 a.dims a.subs with
              | error k => rfl
              | ok ds =>
                simp only [hl] at h ⊢
                cases hr : C.reg with
                | null => simp [hr, collapsed] at h
                | other => simp [hr, collapsed] at h
                | loop c =>
                  simp only [hr] at h ⊢
                  split
                  · rename_i h5; simp [h5, collapsed] at h
                  · rename_i h5
                    rw [if_neg h5] at h
                    split
                    · rfl
                    · rename_i h6; simp [h6, collapsed] at h

/-- A null region: all subscripts are constant. -/
theorem aggLoop_null {C : Ctx} (hC : C.reg = .null) : ∀ {zs : List Sz} {n : Nat} {ss : List Sub} {ds : List Dim},
    ss.length = zs.length → aggLoop C n zs ss = .ok ds → ∀ s ∈ ss, ∃ c, s.expr = .const c
  | [], _, ss, _, hl, _ => by
    rw [List.length_nil, List.length_eq_zero_iff] at hl
    simp [hl]
  | z :: zs, n, ss, ds, hl, h => by
    cases ss with
    | nil => simp at hl
    | cons s ss =>
      obtain ⟨d, ds', -, h1, h2⟩ := aggLoop_cons h
      intro s' hs'
      rcases List.mem_cons.1 hs' with rfl | hs'
      · unfold stepDim at h1
        split at h1
        · cases h1
        · split at h1
          · cases h1
          · split at h1
            · rename_i c hc; exact ⟨c, hc⟩
            · cases h1
            · simp [hC] at h1
      · exact aggLoop_null hC (by simpa using hl) h2 s' hs'

/-- C89. A single access: the range of elements has the same bytes as the location if delinearization is right, that is the
address of the location is the address of an element of an array. -/
theorem aggregate_bytes (C : Ctx) (hC : C.reg = .null) (find : Option Acc) (loc : Loc) (hd : loc.kind = Kind.default)
    (addr : Nat → Int) (q : Nat) (hq : loc.ptr = some q)
    (hfind : ∀ a e, find = some a → a.elem = some e → ∃ sizes, SizesOK a.dims sizes ∧
      addr q = addr a.base + element sizes (a.subs.map fun s => constVal s.expr) * e) :
    ∀ p b, (aggregate C find loc).1.ptr = some p → Reach (aggregate C find loc).1 b →
      ∃ q b', loc.ptr = some q ∧ Reach loc b' ∧ addr p + b = addr q + b' := by
  intro p b hp hb
  cases hc : (aggregate C find loc).1.kind.collapsed with
  | false =>
    have hs := aggregate_same hc
    rw [hs] at hp hb
    refine ⟨p, b, hp, ?_, rfl⟩
    unfold Reach at hb ⊢
    simp only [hc, Bool.false_eq_true, if_false] at hb
    rw [hd]
    simpa [Kind.default] using hb
  | true =>
    obtain ⟨a, e, ds, ha, he, h1, h2, h3, h4, h5⟩ := aggregate_collapsed hd hc
    obtain ⟨sizes, hz, hadr⟩ := hfind a e ha he
    have hconst := aggLoop_null hC h1 h4
    have hr : List.Forall₂ (fun s f => Regular C (fun _ => 1) s.expr f) a.subs
        (a.subs.map fun s => (fun _ => constVal s.expr : Value)) := by
      rw [List.forall₂_map_right_iff, List.forall₂_same]
      intro s hs
      obtain ⟨c, hc⟩ := hconst s hs
      rw [hc]
      exact fun _ => rfl
    have hnd : (loopsOf a.subs).Nodup := by
      have : loopsOf a.subs = [] := by
        rw [loopsOf, List.filterMap_eq_nil_iff]
        intro s hs
        obtain ⟨c, hc⟩ := hconst s hs
        rw [hc]
      rw [this]
      exact List.nodup_nil
    subst ha
    obtain ⟨it, -, o, ho, hbo⟩ := aggregate_must_partial C a loc hd _ _ rfl hc sizes hz (fun _ => 1) (fun _ => Nat.one_pos) _
      hr hnd e he b hb
    rw [h5] at hp
    cases hp
    refine ⟨q, o, hq, ?_, ?_⟩
    · unfold Reach
      rw [hd]
      simp [Kind.default, h2, h3, ho]
    · rw [hadr, hbo, List.map_map]
      simp only [Function.comp_def]
      ring

/-- An access to `A[1][2]` (an array with rows of 4 elements of 8 bytes at the address 1000) through the pointer with the address
1048. -/
def exAcc : Acc := { base := 0, elem := some 8, dims := [.unknown, .const 4], subs := [⟨.const 1, true⟩, ⟨.const 2, true⟩] }
def exAccLoc : Loc := ⟨some 1, some 0, some 8, [], Kind.default⟩

example : (aggregate ⟨.null, fun _ => 0, false⟩ (some exAcc) exAccLoc).1 =
    ⟨some 0, some 0, some 8, [⟨1, 1, 1, 0⟩, ⟨2, 1, 1, 4⟩], collapsed⟩ := by rfl

example (p b : Nat) := aggregate_bytes ⟨.null, fun _ => 0, false⟩ rfl (some exAcc) exAccLoc rfl
  (fun p => if p = 0 then 1000 else 1048) 1 rfl (by
    intro a e ha he
    cases ha
    cases he
    refine ⟨[0, 4], ?_, by simp [exAcc, element, constVal]⟩
    simp [SizesOK, exAcc]) p b

end DefUse
end Tsar
