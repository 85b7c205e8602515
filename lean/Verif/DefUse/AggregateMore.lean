import Verif.DefUse.AggregateFails

/-!
# Aggregation of accesses to arrays: when it is performed
-/

namespace Tsar
namespace DefUse

open Tsar.Range Tsar.MemSet

/-- A subscript of a dimension may be used to build a range: sizes of all dimensions but the first one are known, there are no
unsafe casts (if they are not allowed), indexes are not negative, the number of iterations is known and indexes do not exceed
the size of the dimension. -/
def Usable (C : Ctx) (first : Bool) (z : Sz) (s : Sub) : Prop :=
  (first = true ∨ ∃ k, z = .const k) ∧ (C.safeCast = true → s.safe = true) ∧
  ((∃ c, s.expr = .const c ∧ 0 ≤ c) ∨
    ∃ l st m, s.expr = .addRec l (some st) m ∧ C.reg ≠ .null ∧ 1 < C.trip l ∧ 0 ≤ m ∧
      (first = true ∨ ∀ k, z = .const k → m + st.natAbs * ((C.trip l : Int) - 2) < k))

/-- Subscripts of all dimensions may be used. -/
def AllUsable (C : Ctx) : Bool → List Sz → List Sub → Prop
  | first, z :: zs, s :: ss => Usable C first z s ∧ AllUsable C false zs ss
  | _, _, _ => True

theorem stepDim_ok_iff (C : Ctx) (n : Nat) (z : Sz) (s : Sub) :
    (∃ d, stepDim C n z s = .ok d) ↔ Usable C (n == 0) z s := by
  have hz : (∃ k, dimSize n z = some k) ↔ ((n == 0) = true ∨ ∃ k, z = .const k) := by
    cases z <;> simp [dimSize]
  unfold Usable
  rw [← hz]
  unfold stepDim
  cases hd : dimSize n z with
  | none => simp
  | some size =>
    have hsz : ∀ k, z = .const k → k = size := by
      rintro k rfl
      simpa [dimSize] using hd
    have hcon : n ≠ 0 → z = .const size := by
      intro hn
      cases z <;> simp [dimSize, hn] at hd
      rw [hd]
    simp only [Option.some.injEq, exists_eq', true_and]
    by_cases hc : (C.safeCast && !s.safe) = true
    · rw [if_pos hc]
      simp only [Bool.and_eq_true, Bool.not_eq_true'] at hc
      simp [hc.1, hc.2]
    · rw [if_neg hc]
      have hc' : C.safeCast = true → s.safe = true := by
        intro h
        simpa [h] using hc
      refine Iff.trans ?_ (and_iff_right hc').symm
      cases he : s.expr with
      | const c =>
        simp only [Expr.const.injEq, reduceCtorEq, false_and, exists_const, or_false, exists_eq_left']
        split <;> simp <;> omega
      | other => simp
      | addRec l st m =>
        simp only [reduceCtorEq, false_and, exists_const, false_or, Expr.addRec.injEq]
        cases hr : C.reg with
        | null => simp
        | _ =>
          simp only
          cases st with
          | none => simp
          | some st =>
            simp only
            constructor
            · rintro ⟨d, h⟩
              split at h
              · cases h
              · split at h
                · cases h
                · split at h
                  · cases h
                  · rename_i h1 h2 h3
                    refine ⟨l, st, m, ⟨rfl, rfl, rfl⟩, by simp, by omega, by omega, ?_⟩
                    by_cases hn : n = 0
                    · left; simp [hn]
                    · right
                      intro k hk
                      rw [hsz k hk]
                      have h3' : m.toNat + st.natAbs * (C.trip l - 1 - 1) < size := by
                        by_contra hcon
                        exact h3 ⟨hn, by omega⟩
                      have : ((m.toNat + st.natAbs * (C.trip l - 1 - 1) : Nat) : Int) < size := by exact_mod_cast h3'
                      push_cast at this
                      rw [show ((C.trip l - 1 - 1 : Nat) : Int) = (C.trip l : Int) - 2 by omega,
                        Int.toNat_of_nonneg (by omega)] at this
                      rw [Int.natCast_natAbs]
                      exact this
            · rintro ⟨l', st', m', ⟨rfl, hst, rfl⟩, -, h1, h2, h3⟩
              cases hst
              rw [if_neg (by omega), if_neg (by omega)]
              split
              · rename_i h4
                exfalso
                rcases h3 with h3 | h3
                · simp at h3; exact h4.1 h3
                · have := h3 _ (hcon h4.1)
                  have h5 : ((size : Nat) : Int) ≤ (m.toNat + st.natAbs * (C.trip l - 1 - 1) : Nat) := by exact_mod_cast h4.2
                  push_cast at h5
                  rw [show ((C.trip l - 1 - 1 : Nat) : Int) = (C.trip l : Int) - 2 by omega,
                    Int.toNat_of_nonneg (by omega)] at h5
                  rw [Int.natCast_natAbs] at this
                  omega
              · exact ⟨_, rfl⟩

theorem aggLoop_ok_iff (C : Ctx) : ∀ (zs : List Sz) (n : Nat) (ss : List Sub),
    (∃ ds, aggLoop C n zs ss = .ok ds) ↔ AllUsable C (n == 0) zs ss
  | [], n, ss => by simp [aggLoop, AllUsable]
  | z :: zs, n, [] => by simp [aggLoop, AllUsable]
  | z :: zs, n, s :: ss => by
    have h1 := stepDim_ok_iff C n z s
    have h2 := aggLoop_ok_iff C zs (n + 1) ss
    simp only [AllUsable, ← h1]
    rw [show (n + 1 == 0) = false from rfl] at h2
    rw [← h2]
    constructor
    · rintro ⟨ds, h⟩
      obtain ⟨d, ds', -, h3, h4⟩ := aggLoop_cons h
      exact ⟨⟨d, h3⟩, ds', h4⟩
    · rintro ⟨⟨d, h3⟩, ds', h4⟩
      exact ⟨d :: ds', by simp [aggLoop, h3, h4]⟩

/-- All subscripts are constant or recurrences. -/
theorem usable_expr {C : Ctx} : ∀ {zs : List Sz} {f : Bool} {ss : List Sub}, ss.length = zs.length → AllUsable C f zs ss →
    ∀ s ∈ ss, (∃ c, s.expr = .const c) ∨ ∃ l st m, s.expr = .addRec l st m
  | [], f, ss, hl, _ => by
    rw [List.length_nil, List.length_eq_zero_iff] at hl
    simp [hl]
  | z :: zs, f, [], hl, _ => by simp at hl
  | z :: zs, f, s :: ss, hl, h => by
    intro s' hs'
    rcases List.mem_cons.1 hs' with rfl | hs'
    · rcases h.1.2.2 with ⟨c, hc, -⟩ | ⟨l, st, m, hm, -⟩
      · exact .inl ⟨c, hc⟩
      · exact .inr ⟨l, _, m, hm⟩
    · exact usable_expr (by simpa using hl) h.2 s' hs'

/-- The number of constant subscripts and recurrences in specified loops. -/
theorem match_count {contains : Nat → Bool} : ∀ {ss : List Sub},
    (∀ s ∈ ss, (∃ c, s.expr = .const c) ∨ ∃ l st m, s.expr = .addRec l st m) →
    (ss.countP fun s => match s.expr with | .addRec l _ _ => contains l | _ => false) + constMatch ss ≤ ss.length ∧
    ((ss.countP fun s => match s.expr with | .addRec l _ _ => contains l | _ => false) + constMatch ss = ss.length ↔
      ∀ l ∈ loopsOf ss, contains l = true)
  | [], _ => by simp [constMatch, loopsOf]
  | s :: ss, h => by
    obtain ⟨h1, h2⟩ := match_count (contains := contains) (ss := ss) fun s' hs' => h s' (by simp [hs'])
    unfold constMatch at h1 h2 ⊢
    unfold loopsOf at h2 ⊢
    rcases h s (by simp) with ⟨c, hc⟩ | ⟨l, st, m, hm⟩
    · simp only [List.countP_cons, hc, List.length_cons, List.filterMap_cons, Bool.false_eq_true, if_false, if_true]
      exact ⟨by omega, by rw [← h2]; omega⟩
    · simp only [List.countP_cons, hm, List.length_cons, List.filterMap_cons, Bool.false_eq_true, if_false,
        List.forall_mem_cons]
      cases hcl : contains l
      · simp only [Bool.false_eq_true, if_false, false_and, iff_false]
        exact ⟨by omega, by omega⟩
      · simp only [if_true, true_and]
        exact ⟨by omega, by rw [← h2]; omega⟩

/-- C88. An access is replaced with a range of elements of an array in a region if and only if the array is delinearized and
has a known type, an element is accessed, all subscripts may be used, and they are constant or depend on the region only. -/
theorem aggregate_iff (C : Ctx) (a : Acc) (loc : Loc) (hd : loc.kind = Kind.default) :
    ((aggregate C (some a) loc).1.kind.collapsed = true ∧ (aggregate C (some a) loc).2 = true) ↔
      a.delinearized = true ∧ a.valid = true ∧ a.typed = true ∧ a.addressOfVariable = false ∧
      (a.noSize = true → a.dims.length = 1) ∧ a.subs.length = a.dims.length ∧
      (∃ e, a.elem = some e ∧ loc.lower = some 0 ∧ loc.upper = some e) ∧ AllUsable C true a.dims a.subs ∧
      ∀ contains, C.reg = .loop contains → ∀ l ∈ loopsOf a.subs, contains l = true := by
  constructor
  · rintro ⟨hc, ho⟩
    obtain ⟨a', e, ds, ha, he, h1, h2, h3, h4, h5⟩ := aggregate_collapsed hd hc
    cases ha
    have hus := (aggLoop_ok_iff C a.dims 0 a.subs).1 ⟨ds, h4⟩
    have hg : a.delinearized = true ∧ a.valid = true ∧ a.typed = true ∧ a.addressOfVariable = false ∧
        (a.noSize = true → a.dims.length = 1) := by
      unfold aggregate at hc
      rw [if_neg (by simp [hd])] at hc
      simp only at hc
      split at hc
      · simp [hd, Kind.default] at hc
      · rename_i g1
        split at hc
        · simp [nonCollapsable] at hc
        · rename_i g2
          split at hc
          · simp [nonCollapsable] at hc
          · rename_i g3
            simp at g1 g2 g3
            exact ⟨g1.1, g1.2, g2.1, g2.2, g3⟩
    refine ⟨hg.1, hg.2.1, hg.2.2.1, hg.2.2.2.1, hg.2.2.2.2, h1, ⟨e, he, h2, h3⟩, hus, ?_⟩
    intro contains hr l hl
    exact aggregate_own C contains hr a loc hd _ (Prod.ext rfl ho) hc l hl
  · rintro ⟨g1, g2, g3, g4, g5, h1, ⟨e, he, h2, h3⟩, hus, hreg⟩
    obtain ⟨ds, hds⟩ := (aggLoop_ok_iff C a.dims 0 a.subs).2 hus
    have hns : (a.noSize && decide (a.dims.length ≠ 1)) = false := by
      cases hn : a.noSize
      · rfl
      · simp [g5 hn]
    unfold aggregate
    rw [if_neg (by simp [hd])]
    simp only [g1, g2, g3, g4, hns, h1, he, h2, h3, hds]
    cases hr : C.reg with
    | null => simp [collapsed]
    | other => simp [collapsed]
    | loop contains =>
      obtain ⟨c1, c2⟩ := match_count (contains := contains) (usable_expr h1 hus)
      have c3 := c2.2 (hreg contains hr)
      have hlm : loopMatch C a.subs = a.subs.countP fun s => match s.expr with | .addRec l _ _ => contains l | _ => false := by
        unfold loopMatch; rw [hr]; rfl
      rw [← hlm, h1] at c3
      simp only [Bool.not_true, Bool.or_self, Bool.false_eq_true, if_false, ne_eq, not_true_eq_false, reduceCtorEq, or_self]
      rw [if_neg (by omega), if_neg (by omega)]
      exact ⟨rfl, rfl⟩

/-- Both directions are not trivial. -/
example : (aggregate nest (some (matrix whole)) elem8).1.kind.collapsed = true ∧
    (aggregate { nest with reg := .loop fun l => l == 1 } (some (matrix whole)) elem8).1.kind.collapsed = false := by decide

abbrev corner : Acc :=
  { base := 0, elem := some 8, dims := [.unknown, .const 4], subs := [⟨.const 0, true⟩, ⟨.const 0, true⟩] }

/-- The first dimension may be unknown, the zero subscript is accepted. -/
example : (aggregate { nest with reg := .null } (some corner) elem8).1.kind.collapsed = true := by decide

end DefUse
end Tsar
