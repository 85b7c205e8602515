import Verif.MemSet.Props
import Verif.DFValue.Props
import Verif.Reach.Spec

/-!
# Hints are never mixed with other locations
-/

namespace Tsar.Reach

open Tsar.Range Tsar.MemSet Tsar.DFValue Tsar.DataFlow

theorem join_kind (what tgt : Loc) : (join what tgt).kind = tgt.kind := by
  unfold join; split
  · rfl
  · split <;> rfl

theorem areJoinable_kind {l r : Loc} (h : areJoinable l r = true) : l.kind = r.kind := by
  unfold areJoinable at h
  split at h
  · simp at h
  · next hc => by_contra hk; exact hc (.inr hk)

theorem insertList_keep {o : Obj} {p : Option Nat} {ls : List Loc} {loc : Loc}
    (hls : ∀ l ∈ ls, l.ptr = p ∧ WfLoc o l) (hp : loc.ptr = p) (hl : WfLoc o loc) :
    (∀ l ∈ loc :: ls, ∃ l' ∈ (insertList ls loc).1, l'.ptr = p ∧ l'.kind = l.kind ∧
      ∀ b, MemSet.Reach l b → MemSet.Reach l' b) ∧
    ∀ l' ∈ (insertList ls loc).1, ∃ l ∈ loc :: ls, l'.kind = l.kind := by
  unfold insertList
  cases hf : ls.findIdx? fun c => areJoinable c loc with
  | some i =>
    obtain ⟨hi, hj, -⟩ := List.findIdx?_eq_some_iff_getElem.1 hf
    simp only [List.getElem?_eq_getElem hi]
    have hc := hls ls[i] (List.getElem_mem hi)
    obtain ⟨j1, j2, j3⟩ := join_spec hc.2 hl hj
    have hk := areJoinable_kind hj
    refine ⟨fun l hm => ?_, fun l' hm => ?_⟩
    · rcases List.mem_cons.1 hm with rfl | hm
      · exact ⟨_, (mem_set_iff hi).2 (.inl rfl), j1.trans hc.1, (join_kind _ _).trans hk,
          fun b hb => (j3 b).2 (.inr hb)⟩
      · obtain ⟨j, hj'⟩ := List.mem_iff_getElem?.1 hm
        by_cases hij : j = i
        · subst hij
          rw [List.getElem?_eq_getElem hi] at hj'
          obtain rfl := Option.some.inj hj'
          exact ⟨_, (mem_set_iff hi).2 (.inl rfl), j1.trans hc.1, join_kind _ _,
            fun b hb => (j3 b).2 (.inl hb)⟩
        · exact ⟨l, (mem_set_iff hi).2 (.inr ⟨j, hij, hj'⟩), (hls l hm).1, rfl, fun _ h => h⟩
    · rcases (mem_set_iff hi).1 hm with rfl | ⟨j, _, hx⟩
      · exact ⟨_, List.mem_cons_of_mem _ (List.getElem_mem hi), join_kind _ _⟩
      · exact ⟨l', List.mem_cons_of_mem _ (List.mem_of_getElem? hx), rfl⟩
  | none =>
    have hle : (if loc.dims.length > 0 then ls.length else insertPos loc ls.length ls) ≤
        ls.length := by
      split
      · exact le_rfl
      · exact insertPos_le
    simp only
    generalize (if loc.dims.length > 0 then ls.length else insertPos loc ls.length ls) = pos at hle
    refine ⟨fun l hm => ?_, fun l' hm => ?_⟩
    · refine ⟨l, (List.mem_insertIdx hle).2 (List.mem_cons.1 hm), ?_, rfl, fun _ h => h⟩
      rcases List.mem_cons.1 hm with rfl | hm
      · exact hp
      · exact (hls l hm).1
    · exact ⟨l', List.mem_cons.2 ((List.mem_insertIdx hle).1 hm), rfl⟩

theorem insert_keep {ob : Option Nat → Obj} {s : MSet} {loc : Loc} (h : SetWf ob s)
    (hl : WfLoc (ob loc.ptr) loc) :
    (∀ l ∈ loc :: allLocs s, ∃ l' ∈ allLocs (MemSet.insert s loc).1, l'.ptr = l.ptr ∧ l'.kind = l.kind ∧
      ∀ b, MemSet.Reach l b → MemSet.Reach l' b) ∧
    ∀ l' ∈ allLocs (MemSet.insert s loc).1, ∃ l ∈ loc :: allLocs s, l'.kind = l.kind := by
  unfold MemSet.insert
  by_cases ha : (s.any fun e => decide (e.1 = loc.ptr)) = true
  · rw [if_pos ha]
    simp only
    obtain ⟨k1, k2⟩ := insertList_keep (p := loc.ptr) (fun l hl => locs_wf h hl) rfl hl
    generalize insertList (locs s loc.ptr) loc = r at *
    obtain ⟨e, he, hep⟩ := List.any_eq_true.1 ha
    simp only [decide_eq_true_eq] at hep
    have hlocs : locs s loc.ptr = e.2 := by rw [← hep]; exact locs_of_mem h he
    have hin : ∀ l' ∈ r.1, l' ∈ allLocs (setLocs s loc.ptr r.1) := fun l' hm =>
      List.mem_flatMap.2 ⟨(loc.ptr, r.1), List.mem_map.2 ⟨e, he, by rw [if_pos hep]⟩, hm⟩
    refine ⟨fun l hm => ?_, fun l' hm => ?_⟩
    · rcases List.mem_cons.1 hm with rfl | hm
      · obtain ⟨l', x1, x2, x3⟩ := k1 l List.mem_cons_self
        exact ⟨l', hin l' x1, x2, x3⟩
      · obtain ⟨f, hf, hlf⟩ := List.mem_flatMap.1 hm
        by_cases hfp : f.1 = loc.ptr
        · have : locs s loc.ptr = f.2 := by rw [← hfp]; exact locs_of_mem h hf
          obtain ⟨l', x1, x2, x3⟩ := k1 l (List.mem_cons_of_mem _ (by rw [this]; exact hlf))
          exact ⟨l', hin l' x1, x2.trans ((((h.2 f hf).2 l hlf).1).trans hfp).symm, x3⟩
        · refine ⟨l, List.mem_flatMap.2 ⟨f, List.mem_map.2 ⟨f, hf, by rw [if_neg hfp]⟩, hlf⟩, rfl, rfl,
            fun _ h => h⟩
    · obtain ⟨g, hg, hlg⟩ := List.mem_flatMap.1 hm
      obtain ⟨f, hf, rfl⟩ := List.mem_map.1 hg
      by_cases hfp : f.1 = loc.ptr
      · rw [if_pos hfp] at hlg
        obtain ⟨l, y1, y2⟩ := k2 l' hlg
        refine ⟨l, ?_, y2⟩
        rcases List.mem_cons.1 y1 with rfl | y1
        · exact List.mem_cons_self
        · exact List.mem_cons_of_mem _ (List.mem_flatMap.2 ⟨e, he, hlocs ▸ y1⟩)
      · rw [if_neg hfp] at hlg
        exact ⟨l', List.mem_cons_of_mem _ (List.mem_flatMap.2 ⟨f, hf, hlg⟩), rfl⟩
  · rw [if_neg ha]
    have e : allLocs (s ++ [(loc.ptr, [loc])]) = allLocs s ++ [loc] := by simp [allLocs]
    simp only [e]
    refine ⟨fun l hm => ⟨l, ?_, rfl, rfl, fun _ h => h⟩, fun l' hm => ⟨l', ?_, rfl⟩⟩
    · rcases List.mem_cons.1 hm with rfl | hm <;> simp [*]
    · rcases List.mem_append.1 hm with hm | hm
      · exact List.mem_cons_of_mem _ hm
      · rw [List.mem_singleton.1 hm]; exact List.mem_cons_self

/-- Hints are never joined with other locations. -/
theorem insertAll_keep {ob : Option Nat → Obj} : ∀ {ls : List Loc} {s : MSet}, SetWf ob s →
    (∀ l ∈ ls, WfLoc (ob l.ptr) l) →
    (∀ l ∈ ls ++ allLocs s, ∃ l' ∈ allLocs (insertAll s ls).1, l'.ptr = l.ptr ∧ l'.kind = l.kind ∧
      ∀ b, MemSet.Reach l b → MemSet.Reach l' b) ∧
    ∀ l' ∈ allLocs (insertAll s ls).1, ∃ l ∈ ls ++ allLocs s, l'.kind = l.kind
  | [], s, h, _ => by
    simp only [insertAll, List.nil_append]
    exact ⟨fun l hl => ⟨l, hl, rfl, rfl, fun _ h => h⟩, fun l hl => ⟨l, hl, rfl⟩⟩
  | l :: ls, s, h, hl => by
    obtain ⟨k1, k2⟩ := insert_keep h (hl l (by simp))
    obtain ⟨i1, i2⟩ := insertAll_keep (ls := ls) (insert_spec h (hl l (by simp))).1
      (fun l hm => hl l (by simp [hm]))
    simp only [insertAll]
    refine ⟨fun x hx => ?_, fun x hx => ?_⟩
    · have : x ∈ ls ∨ x ∈ l :: allLocs s := by
        simp only [List.cons_append, List.mem_cons, List.mem_append] at hx ⊢
        tauto
      rcases this with hx | hx
      · exact i1 x (List.mem_append_left _ hx)
      · obtain ⟨y, y1, y2, y3, y4⟩ := k1 x hx
        obtain ⟨z, z1, z2, z3, z4⟩ := i1 y (List.mem_append_right _ y1)
        exact ⟨z, z1, z2.trans y2, z3.trans y3, fun b hb => z4 b (y4 b hb)⟩
    · obtain ⟨y, y1, y2⟩ := i2 x hx
      rcases List.mem_append.1 y1 with y1 | y1
      · exact ⟨y, by simp [y1], y2⟩
      · obtain ⟨z, z1, z2⟩ := k2 y y1
        refine ⟨z, ?_, y2.trans z2⟩
        simp only [List.cons_append, List.mem_cons, List.mem_append] at z1 ⊢
        tauto

theorem delinearize_hint {f w m : Loc} (h : delinearize f w = some m) :
    m.kind.hint = w.kind.hint := by
  unfold delinearize at h
  repeat' split at h
  all_goals first
    | (simp at h; done)
    | (obtain rfl := Option.some.inj h; rfl)

theorem scalar_hint {l r : Loc} :
    (∀ m, (intersectScalar l r).1 = .exact m → m.kind.hint = l.kind.hint) ∧
    ∀ m ∈ (intersectScalar l r).2.2, m.kind.hint = r.kind.hint := by
  unfold intersectScalar
  repeat' split
  all_goals first
    | (simp; done)
    | skip
  refine ⟨fun m h => ?_, fun m h => ?_⟩
  · simp only [Res.exact.injEq] at h; subst h; rfl
  · simp only at h
    rcases List.mem_append.1 h with h | h
    · split at h
      · rw [List.mem_singleton.1 h]
      · simp at h
    · split at h
      · rw [List.mem_singleton.1 h]
      · simp at h

theorem intersect_hint {S : Solver} {wl wr : Bool} {th : Nat} {l r : Loc} :
    (∀ m, (intersect S wl wr th l r).1 = .exact m → m.kind.hint = l.kind.hint) ∧
    ∀ m ∈ (intersect S wl wr th l r).2.2, m.kind.hint = r.kind.hint := by
  unfold intersect
  split
  · simp
  split
  · simp
  simp only
  generalize hl' : (if ¬ l.kind.collapsed ∧ ¬ l.kind.nonCollapsable ∧ r.kind.collapsed
            then delinearize r l else some l) = l'
  cases l' with
  | none => simp
  | some l1 =>
    have hl1 : l1.kind.hint = l.kind.hint := by
      split at hl'
      · exact delinearize_hint hl'
      · obtain rfl := Option.some.inj hl'; rfl
    simp only
    generalize hr' : (if ¬ r.kind.collapsed ∧ ¬ r.kind.nonCollapsable ∧ l1.kind.collapsed
            then delinearize l1 r else some r) = r'
    cases r' with
    | none => simp
    | some r1 =>
      have hr1 : r1.kind.hint = r.kind.hint := by
        split at hr'
        · exact delinearize_hint hr'
        · obtain rfl := Option.some.inj hr'; rfl
      rw [← hl1, ← hr1]
      simp only
      split
      · exact scalar_hint
      split
      · simp
      split
      · simp
      split
      · simp
      · generalize intersectDimsFrom S wl wr th [] [] l1.dims r1.dims [] [] [] = q
        obtain ⟨res, lc, rc⟩ := q
        refine ⟨fun m h => ?_, fun m h => ?_⟩
        · cases res <;> simp at h
          subst h; rfl
        · have : m ∈ rc.map fun ds => { r1 with dims := ds } := by cases res <;> exact h
          obtain ⟨ds, -, rfl⟩ := List.mem_map.1 this
          rfl

/-- There are no hints in a set. -/
def NoHint (s : MSet) : Prop := ∀ l ∈ allLocs s, l.kind.hint = false

/-- There are no hints in a data-flow value. -/
def ValNoHint : Val → Prop
  | .full => True
  | .mask s => NoHint s

theorem noHint_nil : NoHint [] := by simp [NoHint, allLocs]

theorem insertAll_noHint {ob : Option Nat → Obj} {s : MSet} {ls : List Loc} (h : SetWf ob s)
    (hl : ∀ l ∈ ls, WfLoc (ob l.ptr) l) (hn : NoHint s) (hln : ∀ l ∈ ls, l.kind.hint = false) :
    NoHint (insertAll s ls).1 := by
  intro l' hl'
  obtain ⟨l, h1, h2⟩ := (insertAll_keep h hl).2 l' hl'
  rw [h2]
  rcases List.mem_append.1 h1 with h1 | h1
  · exact hln l h1
  · exact hn l h1

theorem merge_eq (s w : MSet) : (merge s w).1 = (insertAll s (allLocs w)).1 := by
  unfold merge
  have : ∀ (ls : List Loc) (s : MSet) (c : Bool),
      (ls.foldl (fun (acc : MSet × Bool) loc =>
        ((MemSet.insert acc.1 loc).1, acc.2 || (MemSet.insert acc.1 loc).2)) (s, c)).1 =
      (insertAll s ls).1 := by
    intro ls
    induction ls with
    | nil => intro s c; rfl
    | cons l ls ih => intro s c; simp only [List.foldl_cons, insertAll]; exact ih _ _
  exact this _ _ _

theorem merge_noHint {ob : Option Nat → Obj} {s w : MSet} (h : SetWf ob s) (hw : SetWf ob w)
    (hn : NoHint s) (hwn : NoHint w) : NoHint (merge s w).1 := by
  rw [merge_eq]
  exact insertAll_noHint h (allLocs_wf hw) hn hwn

theorem mem_locs {s : MSet} {p : Option Nat} {l : Loc} (h : l ∈ locs s p) : l ∈ allLocs s := by
  unfold locs at h
  split at h
  · next e he => exact List.mem_flatMap.2 ⟨e, List.mem_of_find?_eq_some he, h⟩
  · simp at h

theorem coveredBy_noHint {S : Solver} {s : MSet} {loc : Loc} (hn : NoHint s) :
    ∀ m ∈ coveredBy S s loc, m.kind.hint = false := by
  intro m hm
  obtain ⟨c, hc, he⟩ := List.mem_filterMap.1 hm
  split at he
  · next x hx =>
    obtain rfl := Option.some.inj he
    rw [intersect_hint.1 x hx]
    exact hn c (mem_locs hc)
  · simp at he

theorem tailStep_hint {S : Solver} {c t m : Loc} (h : m ∈ tailStep S c t) :
    m.kind.hint = t.kind.hint := by
  unfold tailStep at h
  split at h
  · next heq =>
    have := (intersect_hint (S := S) (wl := false) (wr := true) (th := threshold) (l := c)
      (r := t)).2 m
    rw [heq] at this
    exact this h
  · next heq =>
    have := (intersect_hint (S := S) (wl := false) (wr := true) (th := threshold) (l := c)
      (r := t)).2 m
    rw [heq] at this
    rcases List.mem_append.1 h with h | h
    · exact this h
    · rw [List.mem_singleton.1 h]

theorem tailsOf_hint {S : Solver} : ∀ {cs ts : List Loc}, ∀ m ∈ tailsOf S cs ts,
    ∃ t ∈ ts, m.kind.hint = t.kind.hint
  | [], ts, m, h => ⟨m, h, rfl⟩
  | c :: cs, ts, m, h => by
    obtain ⟨t, h1, h2⟩ := tailsOf_hint (cs := cs) m h
    obtain ⟨t0, h3, h4⟩ := List.mem_flatMap.1 h1
    exact ⟨t0, h3, h2.trans (tailStep_hint h4)⟩

theorem intersectSet_noHint {ob : Option Nat → Obj} {S : Solver} (hS : SolverOK S) {s w : MSet}
    (hs : SetWf ob s) (hw : SetWf ob w) (hn : NoHint s) (hwn : NoHint w) :
    NoHint (intersectSet S s w).1 := by
  unfold intersectSet
  have : ∀ (ls : List Loc), (∀ l ∈ ls, WfLoc (ob l.ptr) l ∧ l.kind.hint = false) →
      ∀ (acc : MSet × Bool), SetWf ob acc.1 → NoHint acc.1 →
      NoHint (ls.foldl (intersectStep S w) acc).1 := by
    intro ls
    induction ls with
    | nil => intro _ acc _ h; exact h
    | cons l ls ih =>
      intro hls acc ha hna
      obtain ⟨hl, hlh⟩ := hls l List.mem_cons_self
      rw [List.foldl_cons]
      have hcov : ∀ m ∈ coveredBy S w l, WfLoc (ob m.ptr) m := fun m hm => by
        have := (coveredBy_spec hS hw hl).1 m hm
        rw [this.1] at *; exact this.2
      refine ih (fun x hx => hls x (List.mem_cons_of_mem _ hx)) _ ?_ ?_
      · unfold intersectStep
        split
        · exact (insert_spec ha hl).1
        · exact (insertAll_spec ha hcov).1
      · unfold intersectStep
        split
        · intro x hx
          obtain ⟨y, h1, h2⟩ := (insert_keep ha hl).2 x hx
          rw [h2]
          rcases List.mem_cons.1 h1 with rfl | h1
          · exact hlh
          · exact hna y h1
        · exact insertAll_noHint ha hcov hna (coveredBy_noHint hwn)
  exact this _ (fun l hl => ⟨allLocs_wf hs l hl, hn l hl⟩) _ (setWf_nil ob) noHint_nil

theorem val_copy_noHint {ob : Option Nat → Obj} {v : Val} (h : v.Wf ob) (hn : ValNoHint v) :
    ValNoHint v.copy := by
  cases v with
  | full => trivial
  | mask s => exact insertAll_noHint (setWf_nil ob) (allLocs_wf h) noHint_nil hn

theorem val_intersect_noHint {ob : Option Nat → Obj} {S : Solver} (hS : SolverOK S) {v w : Val}
    (hv : v.Wf ob) (hw : w.Wf ob) (hn : ValNoHint v) (hwn : ValNoHint w) :
    ValNoHint (v.intersect S w).1 := by
  cases v with
  | full =>
    cases w with
    | full => trivial
    | mask t => exact val_copy_noHint hw hwn
  | mask s =>
    cases w with
    | full => exact hn
    | mask t => exact intersectSet_noHint hS hv hw hn hwn

theorem val_merge_noHint {ob : Option Nat → Obj} {v w : Val}
    (hv : v.Wf ob) (hw : w.Wf ob) (hn : ValNoHint v) (hwn : ValNoHint w) :
    ValNoHint (v.merge w).1 := by
  cases v with
  | full => trivial
  | mask s =>
    cases w with
    | full => trivial
    | mask t => exact merge_noHint hv hw hn hwn

end Tsar.Reach
