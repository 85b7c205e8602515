import Verif.Calls.GlobalLive

/-!
# Precision of the interprocedural analysis of live memory, examples and disagreements
-/

namespace Tsar.GlobalLive

open Tsar.Range Tsar.MemSet

/-! ## Exact results -/

theorem calls_from (S : Solver) (M : Mod) (ext : List Nat) (order : List Nat) (st : State) :
    ∀ c ∈ (order.foldl (step S M ext) st).calls, c ∈ st.calls ∨
      ∃ r ∈ (order.foldl (step S M ext) st).results, ∃ s ∈ (M.fn r.1).calls,
        c = (s.callee, callOut S M r.2 s) := by
  induction order generalizing st with
  | nil => exact fun c hc => .inl hc
  | cons i is ih =>
    intro c hc
    rw [List.foldl_cons] at hc ⊢
    rcases ih _ c hc with h | h
    · simp only [step, List.mem_append, List.mem_map] at h
      rcases h with h | ⟨s, hs, e⟩
      · exact .inl h
      · refine .inr ⟨(i, mayLives S M ext st.calls i), ?_, s, hs, e.symm⟩
        exact (fold_mono S M ext is _).2 _ (by simp [step])
    · exact .inr h

theorem setWf_all {ob : Option Nat → Obj} {M : Mod} (hM : WfMod ob M) (S : Solver)
    {noExt : Bool} {sccs : List (List Node)} {w ext : List Nat}
    (hscan : scan M noExt sccs = some (w, ext)) (hw : Ordered M w) {i : Nat} {out : MSet}
    (h : (i, out) ∈ runOnModule S M noExt sccs) : SetWf ob out := by
  rw [(scan_covers hscan hw i out h).1]
  exact mayLives_wf hM S ext _ i

/-- **C92.** What is alive after exit from a function which is not called from outside: let `fout`
consist of bytes which are alive after calls of the function in the analyzed functions.  A byte is
alive after exit exactly if it belongs to a location which the function may write, the location is
not local and, if it is based on a parameter or on a global value, some memory starting at the base
is alive after a call and, if the location starts at the base, the location itself may be alive. -/
theorem lives_iff (ob : Option Nat → Obj) (S : Solver) (M : Mod) (hM : WfMod ob M)
    (noExt : Bool) (sccs : List (List Node)) (w ext : List Nat)
    (hscan : scan M noExt sccs = some (w, ext)) (hw : Ordered M w) (i : Nat) (hi : i ∉ ext)
    (out : MSet) (ho : (i, out) ∈ runOnModule S M noExt sccs) :
    ∃ fout : MSet, SetWf ob fout ∧
      (∀ p b, SetByte fout p b ↔ ∃ r ∈ runOnModule S M noExt sccs, ∃ s ∈ (M.fn r.1).calls,
        s.callee = i ∧ SetByte (callOut S M r.2 s) p b) ∧
      ∀ (q b : Nat), SetByte out (some q) b ↔
        (∃ r ∈ runOnModule S M noExt sccs, ∃ s ∈ (M.fn r.1).calls, s.callee = i) ∧
        ∃ l, Own M i l ∧ l.ptr = some q ∧ Reach l b ∧ M.isAlloca (M.base q) = false ∧
          (M.base q ∈ (M.fn i).args ∨ M.isGlobal (M.base q) = true →
            overlap S fout (after (M.base q)) = true ∧
            (M.base q = q → overlap S fout l = true)) := by
  obtain ⟨e, _⟩ := scan_covers hscan hw i out ho
  have hres : runOnModule S M noExt sccs = (w.reverse.foldl (step S M ext) {}).results := by
    unfold runOnModule; rw [hscan]
  have hcall : ∀ c, c ∈ (w.reverse.foldl (step S M ext) {}).calls ↔
      ∃ r ∈ runOnModule S M noExt sccs, ∃ s ∈ (M.fn r.1).calls,
        c = (s.callee, callOut S M r.2 s) := by
    intro c
    constructor
    · intro hc
      rcases calls_from S M ext w.reverse {} c hc with h | h
      · simp at h
      · rw [hres]; exact h
    · rintro ⟨r, hr, s, hs, rfl⟩
      exact (scan_covers hscan hw r.1 r.2 hr).2 s hs
  have hwfall := fold_wf hM S ext w.reverse {} (by simp)
  generalize (w.reverse.foldl (step S M ext) {}).calls = calls at e hcall hwfall
  have hout : ∀ o, o ∈ (calls.filter fun c => c.1 == i).map (·.2) ↔
      ∃ r ∈ runOnModule S M noExt sccs, ∃ s ∈ (M.fn r.1).calls,
        s.callee = i ∧ o = callOut S M r.2 s := by
    intro o
    simp only [List.mem_map, List.mem_filter, hcall]
    constructor
    · rintro ⟨c, ⟨⟨r, hr, s, hs, rfl⟩, hc⟩, rfl⟩
      exact ⟨r, hr, s, hs, by simpa using hc, rfl⟩
    · rintro ⟨r, hr, s, hs, hc, rfl⟩
      exact ⟨_, ⟨⟨r, hr, s, hs, rfl⟩, by simpa using hc⟩, rfl⟩
  obtain ⟨hfwf, hf⟩ := mergeAll_spec (ob := ob) ((calls.filter fun c => c.1 == i).map (·.2)) (by
    intro o ho
    obtain ⟨c, hc, rfl⟩ := List.mem_map.1 ho
    exact hwfall c (List.mem_filter.1 hc).1)
  refine ⟨_, hfwf, ?_, ?_⟩
  · intro p b
    rw [hf]
    constructor
    · rintro ⟨o, h1, h2⟩
      obtain ⟨r, hr, s, hs, hc, rfl⟩ := (hout o).1 h1
      exact ⟨r, hr, s, hs, hc, h2⟩
    · rintro ⟨r, hr, s, hs, hc, h2⟩
      exact ⟨_, (hout _).2 ⟨r, hr, s, hs, hc, rfl⟩, h2⟩
  · intro q b
    subst e
    unfold mayLives
    rw [if_neg (by simpa using hi)]
    simp only
    by_cases hem : ((calls.filter fun c => c.1 == i).map (·.2)).isEmpty = true
    · rw [if_pos hem]
      constructor
      · intro h; exact absurd h (by simp [setByte_nil])
      · rintro ⟨⟨r, hr, s, hs, hc⟩, _⟩
        have := (hout _).2 ⟨r, hr, s, hs, hc, rfl⟩
        rw [List.isEmpty_iff.1 hem] at this
        simp at this
    · rw [if_neg hem, (insertKept_spec _ _ (hM.defs i) (hM.mayDefs i)).2]
      have hsome : ∃ r ∈ runOnModule S M noExt sccs, ∃ s ∈ (M.fn r.1).calls, s.callee = i := by
        rw [List.isEmpty_iff] at hem
        obtain ⟨o, ho'⟩ := List.exists_mem_of_ne_nil _ hem
        obtain ⟨r, hr, s, hs, hc, _⟩ := (hout o).1 ho'
        exact ⟨r, hr, s, hs, hc⟩
      rw [and_iff_right hsome]
      refine exists_congr fun l => ?_
      generalize mergeAll _ = fout
      unfold Own
      constructor
      · rintro ⟨hl, hk, hp, hr⟩
        refine ⟨hl, hp, hr, ?_⟩
        unfold keep at hk
        rw [hp] at hk
        simp only at hk
        cases ha : M.isAlloca (M.base q) with
        | true => rw [ha] at hk; simp at hk
        | false =>
          refine ⟨rfl, fun hb => ?_⟩
          rw [ha] at hk
          have hb' : ((M.fn i).args.contains (M.base q) || M.isGlobal (M.base q)) = true := by
            rw [Bool.or_eq_true, List.contains_iff_mem]; exact hb
          simp only [Bool.false_eq_true, if_false, hb', if_true, Bool.not_or, Bool.not_and,
            Bool.not_not, Bool.and_eq_true, Bool.or_eq_true, Bool.not_eq_true',
            beq_eq_false_iff_ne] at hk
          exact ⟨hk.2, fun he => hk.1.resolve_left fun h => h he⟩
      · rintro ⟨hl, hp, hr, ha, hk⟩
        refine ⟨hl, ?_, hp, hr⟩
        unfold keep
        rw [hp]
        simp only [ha, Bool.false_eq_true, if_false]
        split
        next hb =>
          rw [Bool.or_eq_true, List.contains_iff_mem] at hb
          obtain ⟨h1, h2⟩ := hk hb
          rw [h1]
          by_cases he : M.base q = q
          · rw [h2 he]; simp
          · simp [he]
        next => rfl

theorem locs_insert_other (s : MSet) (l : Loc) (p : Option Nat) (h : p ≠ l.ptr) :
    locs (MemSet.insert s l).1 p = locs s p := by
  unfold MemSet.insert
  split
  · simp only [setLocs, locs]
    generalize (insertList _ l).1 = ls
    rename_i hany
    clear hany
    induction s with
    | nil => rfl
    | cons e es ih =>
      simp only [List.map_cons, List.find?_cons]
      by_cases he : e.1 = l.ptr
      · have h1 : decide (e.1 = p) = false := by
          simp only [decide_eq_false_iff_not]; intro h2; exact h (h2.symm.trans he)
        simp only [he, if_true]
        have h2 : decide (l.ptr = p) = false := by
          simp only [decide_eq_false_iff_not]; exact fun h3 => h h3.symm
        rw [he] at h1
        simp only [h2]
        exact ih
      · simp only [he, if_false]
        cases hd : decide (e.1 = p) with
        | true => rfl
        | false => exact ih
  · simp only [locs, List.find?_append]
    cases s.find? fun e => decide (e.1 = p) with
    | some e => rfl
    | none =>
      have : decide (l.ptr = p) = false := by
        simp only [decide_eq_false_iff_not]; exact fun h3 => h h3.symm
      simp [this]

/-- **C92.** The live set of a call consists of the locations alive after the block of the call
and of the parameters for which the memory of the argument may be alive (arguments are not
parameters of the callee, so there is no recursion). -/
theorem callOut_iff (ob : Option Nat → Obj) (S : Solver) (M : Mod) (hM : WfMod ob M) (i : Nat)
    (s : Site) (hs : s ∈ (M.fn i).calls) (lives : MSet) (hl : SetWf ob lives)
    (hva : (M.fn s.callee).vararg = false)
    (hargs : ∀ x ∈ s.actuals, x.ptr ∉ (M.fn s.callee).args) (p : Option Nat) (b : Nat) :
    SetByte (callOut S M lives s) p b ↔ SetByte (s.liveAt lives) p b ∨
      ∃ x ∈ s.actuals, ∃ a, (M.fn s.callee).args[x.idx]? = some a ∧ p = some a ∧
        (∀ n, x.size = some n → b < n) ∧
        overlap S (s.liveAt lives) ⟨some x.ptr, some 0, x.size, [], Kind.default⟩ = true := by
  unfold callOut
  simp only [hva, Bool.false_eq_true, if_false]
  have hwf := hM.live i s hs lives hl
  have ha := hM.arg i s hs
  generalize s.liveAt lives = out0 at hwf ⊢
  generalize (M.fn s.callee).args = args at hargs ha ⊢
  generalize s.actuals = as at hargs ha ⊢
  suffices h : ∀ out, SetWf ob out → (∀ q, q ∉ args → locs out (some q) = locs out0 (some q)) →
      (SetByte (as.foldl (addArg S args) out) p b ↔ SetByte out p b ∨
        ∃ x ∈ as, ∃ a, args[x.idx]? = some a ∧ p = some a ∧ (∀ n, x.size = some n → b < n) ∧
          overlap S out0 ⟨some x.ptr, some 0, x.size, [], Kind.default⟩ = true) from
    h out0 hwf fun _ _ => rfl
  induction as with
  | nil => intro out _ _; simp
  | cons x xs ih =>
    intro out ho hloc
    rw [List.foldl_cons]
    have hov : overlap S out ⟨some x.ptr, some 0, x.size, [], Kind.default⟩ =
        overlap S out0 ⟨some x.ptr, some 0, x.size, [], Kind.default⟩ := by
      unfold overlap
      simp only
      rw [hloc x.ptr (hargs x (by simp))]
    have ih' := ih (fun y hy => hargs y (by simp [hy])) (fun y hy => ha y (by simp [hy]))
    simp only [List.mem_cons, exists_eq_or_imp]
    by_cases hc : overlap S out0 ⟨some x.ptr, some 0, x.size, [], Kind.default⟩ = true
    · cases hx : args[x.idx]? with
      | none =>
        have e : addArg S args out x = out := by unfold addArg; rw [hov, if_pos hc, hx]
        rw [e, ih' out ho hloc]
        simp
      | some a =>
        have e : addArg S args out x =
            (MemSet.insert out ⟨some a, some 0, x.size, [], Kind.default⟩).1 := by
          unfold addArg; rw [hov, if_pos hc, hx]
        obtain ⟨h1, h2, _⟩ := insert_spec (loc := ⟨some a, some 0, x.size, [], Kind.default⟩) ho
          (actual_wf fun n hn => (ha x (by simp) n hn).2 a hx)
        have ham : a ∈ args := List.mem_of_getElem? hx
        rw [e, ih' _ h1 fun q hq => by
          rw [locs_insert_other _ _ _ (by
            simp only [ne_eq, Option.some.injEq]; rintro rfl; exact hq ham)]
          exact hloc q hq, h2]
        have hreach : Reach ⟨some a, some 0, x.size, [], Kind.default⟩ b ↔
            ∀ n, x.size = some n → b < n := by
          constructor
          · intro hr
            unfold Reach at hr
            rw [if_neg (by simp [Kind.default])] at hr
            exact hr.2
          · exact actual_reach
        rw [hreach]
        have hone : (∃ a', some a = some a' ∧ p = some a' ∧ (∀ n, x.size = some n → b < n) ∧
            overlap S out0 ⟨some x.ptr, some 0, x.size, [], Kind.default⟩ = true) ↔
            (p = some a ∧ ∀ n, x.size = some n → b < n) := by
          constructor
          · rintro ⟨a', e1, e2, h, _⟩
            cases e1
            exact ⟨e2, h⟩
          · rintro ⟨e2, h⟩
            exact ⟨a, rfl, e2, h, hc⟩
        rw [hone, or_assoc]
    · have e : addArg S args out x = out := by unfold addArg; rw [hov, if_neg hc]
      rw [e, ih' out ho hloc]
      simp [hc]

/-! ## Examples -/

/-- Bytes `[lo, up)` of the memory of the pointer `p`. -/
abbrev by' (p lo up : Nat) : Loc := ⟨some p, some lo, some up, [], Kind.default⟩

theorem by_reach (p lo up b : Nat) : Reach (by' p lo up) b ↔ lo ≤ b ∧ b < up := by
  unfold Reach
  rw [if_neg (by simp [Kind.default])]
  simp

abbrev exOb : Option Nat → Obj := fun _ => ⟨1, []⟩

theorem by_wf (p lo up : Nat) : WfLoc (exOb (some p)) (by' p lo up) :=
  ⟨by simp, .inl ⟨rfl, rfl, ⟨lo, rfl⟩, fun _ _ => .inl rfl⟩⟩

/-- A module: the function `0` calls the function `1` with the argument `ptr`; `ptr` points to
local memory.  The value `1` is `alloca`, `2` is derived from it, `10` is a global variable. -/
def exMod (f : Fn) (base6 ptr : Nat) (live : MSet) : Mod where
  fn i := if i = 0 then { args := [], defs := [], mayDefs := [],
                          calls := [⟨1, [⟨0, ptr, none⟩], fun _ => live⟩] }
    else f
  base p := if p = 6 then base6 else if p = 2 then 1 else p
  isAlloca p := p == 1
  isGlobal p := p == 10

/-- `void f(int *p) { *p = 1; g = 2; }`: writes of the parameter (`5`) and of a global variable. -/
def exF : Fn :=
  { args := [5], defs := [(some 5, [by' 5 0 4]), (some 10, [by' 10 0 4])], mayDefs := [], calls := [] }

/-- `int main() { int x; f(&x); return x; }`. -/
def exM : Mod := exMod exF 5 1 [(some 1, [by' 1 0 4])]

abbrev exSccs : List (List Node) := [[.fn 1], [.fn 0], [.ext [0]]]

theorem exM_scan : scan exM true exSccs = some ([1, 0], []) := by decide

/-- The write of the parameter is alive after exit, the write of the global variable is not. -/
theorem exM_result : runOnModule refSolver exM true exSccs =
    [(0, []), (1, [(some 5, [by' 5 0 4])])] := by
  decide +kernel

theorem exM_wf : WfMod exOb exM where
  defs i := by
    by_cases h : i = 0
    · subst h; exact setWf_nil _
    · have : (exM.fn i).defs = exF.defs := by simp [exM, exMod, h]
      rw [this]
      refine ⟨by decide, ?_⟩
      intro e he
      simp [exF] at he
      rcases he with rfl | rfl
      · refine ⟨by simp, fun l hl => ?_⟩
        simp at hl; subst hl; exact ⟨rfl, by_wf 5 0 4⟩
      · refine ⟨by simp, fun l hl => ?_⟩
        simp at hl; subst hl; exact ⟨rfl, by_wf 10 0 4⟩
  mayDefs i := by
    by_cases h : i = 0
    · subst h; exact setWf_nil _
    · have : (exM.fn i).mayDefs = [] := by simp [exM, exMod, h, exF]
      rw [this]; exact setWf_nil _
  live i s hs out _ := by
    by_cases h : i = 0
    · subst h
      simp [exM, exMod] at hs
      subst hs
      refine ⟨by simp, ?_⟩
      intro e he
      simp at he
      subst he
      refine ⟨by simp, fun l hl => ?_⟩
      simp at hl; subst hl; exact ⟨rfl, by_wf 1 0 4⟩
    · simp [exM, exMod, h, exF] at hs
  arg i s hs a ha n hn := by
    by_cases h : i = 0
    · subst h
      simp [exM, exMod] at hs
      subst hs
      simp at ha
      subst ha
      simp at hn
    · simp [exM, exMod, h, exF] at hs

theorem exM_ordered : Ordered exM [1, 0] := by
  constructor
  · simp [exM, exMod, exF]
  · intro i hi s hs
    simp at hi
    rcases hi with rfl | rfl
    · simp [exM, exMod, exF] at hs
    · simp [exM, exMod] at hs
      subst hs
      simp

/-- Activations: the local variable is at the address `100`. -/
def exAct (i : Nat) (addr : Nat → Int) : Act := ⟨i, addr⟩

abbrev exAddr : Nat → Int := fun p => if p = 1 ∨ p = 5 then 100 else 200
abbrev exAddr2 : Nat → Int := fun p => if p = 1 then 100 else if p = 2 ∨ p = 5 then 104
  else if p = 6 then 100 else 200
abbrev exNeed : Int → Prop := fun x => 100 ≤ x ∧ x < 104

theorem exM_active : Active exM [1, 0] [] (Nice exM) (exAct 1 exAddr) exNeed := by
  refine Active.call (G := exAct 0 exAddr) (s := ⟨1, [⟨0, 1, none⟩], fun _ => [(some 1, [by' 1 0 4])]⟩)
    .main (by simp [exAct, exAddr, exAddr2, exNeed]) ?_ ?_
  · refine ⟨by simp [exM, exMod, exAct], rfl, fun _ _ => rfl, ?_, ?_⟩
    · intro a ha _
      have : a = 5 := by simpa [exM, exMod, exAct, exF] using ha
      subst this
      exact ⟨⟨0, 1, none⟩, by simp, by simp [exM, exMod, exAct, exF], by simp [exAct, exAddr, exAddr2, exNeed]⟩
    · rintro out _ x ⟨h1, h2⟩
      refine ⟨1, (x - 100).toNat, by simp [exAct, exAddr, exAddr2, exNeed]; omega, ?_⟩
      exact ⟨_, List.mem_singleton.2 rfl, _, List.mem_singleton.2 rfl, rfl,
        (by_reach _ _ _ _).2 ⟨by omega, by omega⟩⟩
  · refine ⟨?_, ?_, ?_, ?_⟩
    · rintro out p hp b ⟨h1, h2⟩ _
      have hp1 : p = 1 := by
        rcases hp with hp | ⟨x, hx, rfl⟩
        · have : p = 10 := by simpa [exM, exMod] using hp
          subst this
          simp [exAct, exAddr, exAddr2, exNeed] at h2
          omega
        · simp at hx; rw [hx]
      subst hp1
      simp [exAct, exAddr, exAddr2, exNeed] at h1 h2
      exact ⟨_, List.mem_singleton.2 rfl, _, List.mem_singleton.2 rfl, rfl,
        (by_reach _ _ _ _).2 ⟨by omega, by omega⟩⟩
    · intro x hx n hn
      simp at hx
      subst hx
      simp at hn
    · intro l p hl hp
      have : l = by' 5 0 4 ∨ l = by' 10 0 4 := by
        simpa [Own, exAct, exM, exMod, exF, allLocs] using hl
      rcases this with rfl | rfl
      · simp at hp; subst hp; simp [exM, exMod]
      · simp at hp; subst hp; simp [exM, exMod]
    · simp [exAct, exM, exMod, exF]

/-- Non-vacuity of `live_sound_partial`. -/
example : SetByte [(some 5, [by' 5 0 4])] (some 5) 2 :=
  live_sound_partial exOb refSolver refSolver_ok exM exM_wf true exSccs [1, 0] [] exM_scan
    exM_ordered _ _ exM_active _ (by rw [exM_result]; simp [exAct, exAddr, exAddr2, exNeed]) (by' 5 0 4)
    (.inl (by decide)) 5 rfl rfl 2 ((by_reach _ _ _ _).2 ⟨by omega, by omega⟩) (by simp [exAct, exAddr, exAddr2, exNeed])

/-! ## Disagreements -/

/-- `void f(...) { g = 1; ...; f(); use(g); }`: a write before exit from the inner call is alive. -/
def exRec : Mod where
  fn i := if i = 0 then { args := [], defs := [], mayDefs := [], calls := [⟨1, [], fun _ => []⟩] }
    else { args := [], defs := [(some 10, [by' 10 0 4])], mayDefs := [],
           calls := [⟨1, [], fun _ => [(some 10, [by' 10 0 4])]⟩] }
  base p := p
  isAlloca _ := false
  isGlobal p := p == 10

theorem exRec_result : runOnModule refSolver exRec true exSccs = [(0, []), (1, [])] := by
  decide +kernel

/-- A recursive function which calls itself directly is a component with one node, so the analysis
is performed, but memory which is alive after the recursive call is ignored. -/
theorem self_recursion_fails :
    ¬ Sound refSolver exRec true exSccs [1, 0] [] (Nice exRec) := by
  intro h
  have h0 : Active exRec [1, 0] [] (Nice exRec) (exAct 1 exAddr) (fun _ => False) := .main
  have h1 : Active exRec [1, 0] [] (Nice exRec) (exAct 1 exAddr) (fun x => 200 ≤ x ∧ x < 204) := by
    refine Active.call (s := ⟨1, [], fun _ => [(some 10, [by' 10 0 4])]⟩) h0 (by simp [exAct, exAddr, exAddr2, exNeed]) ?_ ?_
    · refine ⟨by simp [exRec, exAct], rfl, fun _ _ => rfl, ?_, ?_⟩
      · intro a ha; simp [exRec, exAct] at ha
      · rintro out _ x ⟨h1, h2⟩
        refine ⟨10, (x - 200).toNat, by simp [exAct, exAddr, exAddr2, exNeed]; omega, ?_⟩
        exact ⟨_, List.mem_singleton.2 rfl, _, List.mem_singleton.2 rfl, rfl,
          (by_reach _ _ _ _).2 ⟨by omega, by omega⟩⟩
    · refine ⟨?_, ?_, ?_, ?_⟩
      · rintro out p hp b ⟨h1, h2⟩ _
        have hp1 : p = 10 := by
          rcases hp with hp | ⟨x, hx, _⟩
          · simpa [exRec] using hp
          · simp at hx
        subst hp1
        simp [exAct, exAddr, exAddr2, exNeed] at h1 h2
        exact ⟨_, List.mem_singleton.2 rfl, _, List.mem_singleton.2 rfl, rfl,
          (by_reach _ _ _ _).2 ⟨by omega, by omega⟩⟩
      · intro x hx; simp at hx
      · intro l p _ _; simp [exRec]
      · simp [exAct, exRec]
  have := h _ _ h1 [] (by rw [exRec_result]; simp [exAct, exAddr, exAddr2, exNeed]) (by' 10 0 4) (.inl (by decide)) 10 rfl rfl
    0 ((by_reach _ _ _ _).2 ⟨by omega, by omega⟩) (by simp [exAct, exAddr, exAddr2, exNeed])
  simp [setByte_nil] at this

/-- The function with a variable number of arguments: `void f(int *p, ...) { *p = 1; }`. -/
def exVar : Mod := exMod { exF with vararg := true } 5 1 [(some 1, [by' 1 0 4])]

theorem exVar_result : runOnModule refSolver exVar true exSccs = [(0, []), (1, [])] := by
  decide +kernel

/-- Assumptions except the one about a variable number of arguments. -/
def NiceButVararg (M : Mod) (G : Act) (s : Site) (F : Act) (n : Int → Prop) : Prop :=
  Named M G s F n ∧ Sized M G s F n ∧ Forward M G s F n

theorem link_ex {M : Mod} {F : Fn} {b6 : Nat} (hM : M = exMod F b6 1 [(some 1, [by' 1 0 4])])
    (hF : F.args = [5]) :
    Link M (exAct 0 exAddr) (fun _ => False)
      ⟨1, [⟨0, 1, none⟩], fun _ => [(some 1, [by' 1 0 4])]⟩ (exAct 1 exAddr) exNeed := by
  subst hM
  refine ⟨by simp [exMod, exAct], rfl, fun _ _ => rfl, ?_, ?_⟩
  · intro a ha _
    have : a = 5 := by simpa [exMod, exAct, hF] using ha
    subst this
    exact ⟨⟨0, 1, none⟩, by simp, by simp [exMod, exAct, hF], by simp [exAct, exAddr, exAddr2, exNeed]⟩
  · rintro out _ x ⟨h1, h2⟩
    refine ⟨1, (x - 100).toNat, by simp [exAct, exAddr, exAddr2, exNeed]; omega, ?_⟩
    exact ⟨_, List.mem_singleton.2 rfl, _, List.mem_singleton.2 rfl, rfl,
      (by_reach _ _ _ _).2 ⟨by omega, by omega⟩⟩

theorem named_ex {M : Mod} (hg : ∀ p, M.isGlobal p = (p == 10)) :
    Named M (exAct 0 exAddr) ⟨1, [⟨0, 1, none⟩], fun _ => [(some 1, [by' 1 0 4])]⟩
      (exAct 1 exAddr) exNeed := by
  rintro out p hp b ⟨h1, h2⟩ _
  have hp1 : p = 1 := by
    rcases hp with hp | ⟨x, hx, rfl⟩
    · rw [hg] at hp
      have : p = 10 := by simpa using hp
      subst this
      simp [exAct, exAddr, exAddr2, exNeed] at h2
      omega
    · simp at hx; rw [hx]
  subst hp1
  simp [exAct, exAddr, exAddr2, exNeed] at h1 h2
  exact ⟨_, List.mem_singleton.2 rfl, _, List.mem_singleton.2 rfl, rfl,
    (by_reach _ _ _ _).2 ⟨by omega, by omega⟩⟩

/-- Memory of named parameters of a function with a variable number of arguments is never alive
after exit from this function. -/
theorem vararg_fails :
    ¬ Sound refSolver exVar true exSccs [1, 0] [] (NiceButVararg exVar) := by
  intro h
  have h1 : Active exVar [1, 0] [] (NiceButVararg exVar) (exAct 1 exAddr) exNeed := by
    refine Active.call .main (by simp [exAct, exAddr, exAddr2, exNeed]) (link_ex rfl rfl) ⟨named_ex fun _ => rfl, ?_, ?_⟩
    · intro x hx n hn
      simp at hx
      subst hx
      simp at hn
    · intro l p hl hp
      have : l = by' 5 0 4 ∨ l = by' 10 0 4 := by
        simpa [Own, exAct, exVar, exMod, exF, allLocs] using hl
      rcases this with rfl | rfl
      · simp at hp; subst hp; simp [exVar, exMod]
      · simp at hp; subst hp; simp [exVar, exMod]
  have := h _ _ h1 [] (by rw [exVar_result]; simp [exAct, exAddr, exAddr2, exNeed]) (by' 5 0 4) (.inl (by decide)) 5 rfl rfl
    0 ((by_reach _ _ _ _).2 ⟨by omega, by omega⟩) (by simp [exAct, exAddr, exAddr2, exNeed])
  simp [setByte_nil] at this

/-- `int A[10]; f(&A[1]); use(A)`: memory which is alive after the call is known as `A` (`1`), the
argument is another pointer (`2`). -/
def exName : Mod := exMod exF 5 2 [(some 1, [by' 1 0 40])]

theorem exName_result : runOnModule refSolver exName true exSccs = [(0, []), (1, [])] := by
  decide +kernel

/-- Assumptions except the one about names. -/
def NiceButNamed (M : Mod) (G : Act) (s : Site) (F : Act) (n : Int → Prop) : Prop :=
  Sized M G s F n ∧ Forward M G s F n ∧ (M.fn F.fn).vararg = false

/-- If the memory of an argument is known in the caller under the name of another pointer (the
argument is derived from it) then the analysis ignores that the memory is alive. -/
theorem other_name_fails :
    ¬ Sound refSolver exName true exSccs [1, 0] [] (NiceButNamed exName) := by
  intro h
  have h1 : Active exName [1, 0] [] (NiceButNamed exName) (exAct 1 exAddr2)
      (fun x => 104 ≤ x ∧ x < 108) := by
    refine Active.call (G := exAct 0 exAddr2)
      (s := ⟨1, [⟨0, 2, none⟩], fun _ => [(some 1, [by' 1 0 40])]⟩)
      .main (by simp [exAct, exAddr, exAddr2, exNeed]) ?_ ⟨?_, ?_, ?_⟩
    · refine ⟨by simp [exName, exMod, exAct], rfl, fun _ _ => rfl, ?_, ?_⟩
      · intro a ha _
        have : a = 5 := by simpa [exName, exMod, exAct, exF] using ha
        subst this
        exact ⟨⟨0, 2, none⟩, by simp, by simp [exName, exMod, exAct, exF], by simp [exAct, exAddr, exAddr2, exNeed]⟩
      · rintro out _ x ⟨h1, h2⟩
        refine ⟨1, (x - 100).toNat, by simp [exAct, exAddr, exAddr2, exNeed]; omega, ?_⟩
        exact ⟨_, List.mem_singleton.2 rfl, _, List.mem_singleton.2 rfl, rfl,
          (by_reach _ _ _ _).2 ⟨by omega, by omega⟩⟩
    · intro x hx n hn
      simp at hx
      subst hx
      simp at hn
    · intro l p hl hp
      have : l = by' 5 0 4 ∨ l = by' 10 0 4 := by
        simpa [Own, exAct, exName, exMod, exF, allLocs] using hl
      rcases this with rfl | rfl
      · simp at hp; subst hp; simp [exName, exMod]
      · simp at hp; subst hp; simp [exName, exMod]
    · simp [exAct, exName, exMod, exF]
  have := h _ _ h1 [] (by rw [exName_result]; simp [exAct, exAddr, exAddr2, exNeed]) (by' 5 0 4) (.inl (by decide)) 5 rfl rfl
    0 ((by_reach _ _ _ _).2 ⟨by omega, by omega⟩) (by simp [exAct, exAddr, exAddr2, exNeed])
  simp [setByte_nil] at this

/-- `void f(int *p) { p[-1] = 1; }`, `int A[10]; f(&A[1]); use(A[0])`; the written location is `6`. -/
def exBack : Mod :=
  exMod { args := [5], defs := [(some 6, [by' 6 0 4])], mayDefs := [], calls := [] } 5 2
    [(some 1, [by' 1 0 4])]

theorem exBack_result : runOnModule refSolver exBack true exSccs = [(0, []), (1, [])] := by
  decide +kernel

/-- Assumptions except the one about derived pointers. -/
def NiceButForward (M : Mod) (G : Act) (s : Site) (F : Act) (n : Int → Prop) : Prop :=
  Named M G s F n ∧ Sized M G s F n ∧ (M.fn F.fn).vararg = false

/-- A write before the memory which a parameter points to is never alive after exit: only memory
after the parameter is checked. -/
theorem before_parameter_fails :
    ¬ Sound refSolver exBack true exSccs [1, 0] [] (NiceButForward exBack) := by
  intro h
  have h1 : Active exBack [1, 0] [] (NiceButForward exBack) (exAct 1 exAddr2) exNeed := by
    refine Active.call (G := exAct 0 exAddr2)
      (s := ⟨1, [⟨0, 2, none⟩], fun _ => [(some 1, [by' 1 0 4])]⟩)
      .main (by simp [exAct, exAddr, exAddr2, exNeed]) ?_ ⟨?_, ?_, ?_⟩
    · refine ⟨by simp [exBack, exMod, exAct], rfl, fun _ _ => rfl, ?_, ?_⟩
      · intro a ha _
        have : a = 5 := by simpa [exBack, exMod, exAct] using ha
        subst this
        exact ⟨⟨0, 2, none⟩, by simp, by simp [exBack, exMod, exAct], by simp [exAct, exAddr, exAddr2, exNeed]⟩
      · rintro out _ x ⟨h1, h2⟩
        refine ⟨1, (x - 100).toNat, by simp [exAct, exAddr, exAddr2, exNeed]; omega, ?_⟩
        exact ⟨_, List.mem_singleton.2 rfl, _, List.mem_singleton.2 rfl, rfl,
          (by_reach _ _ _ _).2 ⟨by omega, by omega⟩⟩
    · rintro out p hp b ⟨h1, h2⟩ _
      exfalso
      rcases hp with hp | ⟨x, hx, rfl⟩
      · have : p = 10 := by simpa [exBack, exMod] using hp
        subst this
        simp [exAct, exAddr, exAddr2, exNeed] at h2
        omega
      · simp at hx
        subst hx
        simp [exAct, exAddr, exAddr2, exNeed] at h2
        omega
    · intro x hx n hn
      simp at hx
      subst hx
      simp at hn
    · simp [exAct, exBack, exMod]
  have := h _ _ h1 [] (by rw [exBack_result]; simp [exAct, exAddr, exAddr2, exNeed]) (by' 6 0 4) (.inl (by decide)) 6 rfl rfl
    0 ((by_reach _ _ _ _).2 ⟨by omega, by omega⟩) (by simp [exAct, exAddr, exAddr2, exNeed])
  simp [setByte_nil] at this

end Tsar.GlobalLive
