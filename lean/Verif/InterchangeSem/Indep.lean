import Verif.InterchangeSem.Exec

/-!
# Independent iterations may be executed in any order
-/

namespace Tsar.InterchangeSem

/-- Independence of iterations: locations which are read in an iteration are not written by other
iterations, locations from `Sh` are written at most once. -/
structure Indep (acc : Acc) (S : Vec → Prop) (Sh : Loc → Prop) : Prop where
  read : ∀ v v', S v → S v' → v' ≠ v → ∀ x, acc.W v' x → ¬ acc.R v x
  write : ∀ v v', S v → S v' → v' ≠ v → ∀ x, Sh x → ¬ acc.red x → acc.W v' x → ¬ acc.W v x

section

variable {hs : List Hdr} {acc : Acc} {body : State → State} {S : Vec → Prop} {Sh : Loc → Prop}

/-- Iterations from a list see the same values in two states. -/
def Sees (hs : List Hdr) (acc : Acc) (L : List Vec) (s s' : State) : Prop :=
  ∀ v ∈ L, ∀ x, acc.R v x → setVars hs s v x = setVars hs s' v x

theorem Sees.next (hd : Describes hs acc body) (hi : Indep acc S Sh)
    (h0 : ∀ v, S v → ∀ y, ¬ IsVar hs y → v y = 0) {w : Vec} {L : List Vec}
    (hS : ∀ v ∈ w :: L, S v) (hn : (w :: L).Nodup) {s s' : State} (h : Sees hs acc (w :: L) s s') :
    Sees hs acc L s (inst hs body s' w) := by
  intro v hv x hx
  rw [List.nodup_cons] at hn
  rw [h v (List.mem_cons_of_mem _ hv) x hx]
  by_cases hx' : IsVar hs x
  · rw [setVars_var hx', setVars_var hx']
  · rw [setVars_ne hx', setVars_ne hx', inst, hd.keep, setVars_ne hx']
    rw [vecOf_setVars (h0 w (hS w List.mem_cons_self))]
    intro hw
    exact hi.read v w (hS v (List.mem_cons_of_mem _ hv)) (hS w List.mem_cons_self)
      (fun e => hn.1 (e ▸ hv)) x hw hx

theorem run_shared (hd : Describes hs acc body) (hi : Indep acc S Sh)
    (h0 : ∀ v, S v → ∀ y, ¬ IsVar hs y → v y = 0) {x : Loc} (hx : ¬ IsVar hs x) (hsh : Sh x)
    (hr : ¬ acc.red x) {s : State} : ∀ (L : List Vec), (∀ v ∈ L, S v) → L.Nodup → ∀ s' : State,
    Sees hs acc L s s' → s' x = s x → ∀ v ∈ L, acc.W v x → runL hs body L s' x = inst hs body s v x
  | w :: L, hS, hn, s', hse, hsx, v, hv, hw => by
    have e : runL hs body (w :: L) s' = runL hs body L (inst hs body s' w) := rfl
    have hSw := hS w List.mem_cons_self
    have hSL : ∀ v ∈ L, S v := fun v hv => hS v (List.mem_cons_of_mem _ hv)
    have hn' := List.nodup_cons.1 hn
    rw [e]
    rcases List.mem_cons.1 hv with rfl | hv
    · rw [runL_keep hd hx (fun u hu => h0 u (hSL u hu)) fun u hu =>
        hi.write u v (hSL u hu) hSw (fun e => hn'.1 (e ▸ hu)) x hsh hr hw]
      rw [inst, inst]
      have e1 : vecOf hs (setVars hs s' v) = v := vecOf_setVars (h0 v hSw)
      have e2 : vecOf hs (setVars hs s v) = v := vecOf_setVars (h0 v hSw)
      rcases hd.value (setVars hs s' v) (setVars hs s v) (by rw [e1, e2])
        (fun y hy => (hse v List.mem_cons_self y (by rw [e1] at hy; exact hy)).symm) x
        (by rw [e1]; exact hw) hr with h | ⟨h, h'⟩
      · exact h
      · rw [h, h', setVars_ne hx, setVars_ne hx, hsx]
    · refine run_shared hd hi h0 hx hsh hr L hSL hn'.2 _ (hse.next hd hi h0 hS hn) ?_ v hv hw
      rw [inst, hd.keep, setVars_ne hx, hsx]
      rw [vecOf_setVars (h0 w hSw)]
      exact hi.write w v hSw (hSL v hv) (fun e => hn'.1 (e ▸ hv)) x hsh hr hw

open Classical in
/-- Accumulation of a value by an iteration. -/
noncomputable def accumulate (hs : List Hdr) (acc : Acc) (s : State) (x : Loc) (a : ℤ) (v : Vec) :
    ℤ :=
  if acc.W v x then acc.oper x a (acc.con (setVars hs s v) x) else a

theorem run_red (hd : Describes hs acc body) (hi : Indep acc S Sh)
    (h0 : ∀ v, S v → ∀ y, ¬ IsVar hs y → v y = 0) {x : Loc} (hx : ¬ IsVar hs x)
    (hr : acc.red x) {s : State} : ∀ (L : List Vec), (∀ v ∈ L, S v) → L.Nodup → ∀ s' : State,
    Sees hs acc L s s' → runL hs body L s' x = L.foldl (accumulate hs acc s x) (s' x)
  | [], _, _, _, _ => rfl
  | w :: L, hS, hn, s', hse => by
    have e : runL hs body (w :: L) s' = runL hs body L (inst hs body s' w) := rfl
    have hSw := hS w List.mem_cons_self
    have hSL : ∀ v ∈ L, S v := fun v hv => hS v (List.mem_cons_of_mem _ hv)
    have hn' := List.nodup_cons.1 hn
    rw [e, run_red hd hi h0 hx hr L hSL hn'.2 _ (hse.next hd hi h0 hS hn), List.foldl_cons]
    congr 1
    have e1 : vecOf hs (setVars hs s' w) = w := vecOf_setVars (h0 w hSw)
    have e2 : vecOf hs (setVars hs s w) = w := vecOf_setVars (h0 w hSw)
    by_cases hw : acc.W w x
    · rw [accumulate, if_pos hw, inst, hd.accum _ _ (by rw [e1]; exact hw) hr, setVars_ne hx]
      rw [hd.contrib (setVars hs s' w) (setVars hs s w) (by rw [e1, e2])
        (fun y hy => (hse w List.mem_cons_self y (by rw [e1] at hy; exact hy)).symm) x hr]
    · rw [accumulate, if_neg hw, inst, hd.keep _ _ (by rw [e1]; exact hw), setVars_ne hx]

theorem run_perm (hd : Describes hs acc body) (hi : Indep acc S Sh)
    (h0 : ∀ v, S v → ∀ y, ¬ IsVar hs y → v y = 0) {L L' : List Vec} (hp : L.Perm L')
    (hS : ∀ v ∈ L, S v) (hn : L.Nodup) (s : State) {x : Loc} (hx : ¬ IsVar hs x)
    (hsh : Sh x ∨ acc.red x) : runL hs body L s x = runL hs body L' s x := by
  have hS' : ∀ v ∈ L', S v := fun v hv => hS v (hp.mem_iff.2 hv)
  have hn' : L'.Nodup := hp.nodup_iff.1 hn
  have hse : ∀ K, Sees hs acc K s s := fun _ _ _ _ _ => rfl
  by_cases hr : acc.red x
  · rw [run_red hd hi h0 hx hr L hS hn s (hse _), run_red hd hi h0 hx hr L' hS' hn' s (hse _)]
    refine hp.foldl_eq' (fun v _ w _ a => ?_) _
    unfold accumulate
    by_cases h1 : acc.W v x <;> by_cases h2 : acc.W w x <;> simp only [h1, h2, if_true, if_false]
    exact (hd.comm x hr _ _ _).symm
  · have hsh' := hsh.resolve_right hr
    by_cases hw : ∃ v ∈ L, acc.W v x
    · obtain ⟨v, hv, hw⟩ := hw
      rw [run_shared hd hi h0 hx hsh' hr L hS hn s (hse _) rfl v hv hw,
        run_shared hd hi h0 hx hsh' hr L' hS' hn' s (hse _) rfl v (hp.mem_iff.1 hv) hw]
    · have hw' : ∀ v ∈ L, ¬ acc.W v x := fun v hv h => hw ⟨v, hv, h⟩
      rw [runL_keep hd hx (fun v hv => h0 v (hS v hv)) hw',
        runL_keep hd hx (fun v hv => h0 v (hS' v hv)) fun v hv => hw' v (hp.mem_iff.2 hv)]

theorem run_last (hd : Describes hs acc body) (hi : Indep acc S Sh)
    (h0 : ∀ v, S v → ∀ y, ¬ IsVar hs y → v y = 0) {L : List Vec} {w : Vec}
    (hS : ∀ v ∈ L ++ [w], S v) (hn : (L ++ [w]).Nodup) (s : State) {x : Loc}
    (hdet : Determined hs acc body x) : runL hs body (L ++ [w]) s x = inst hs body s w x := by
  have hSw : S w := hS w (by simp)
  have hSL : ∀ v ∈ L, S v := fun v hv => hS v (by simp [hv])
  have hne : ∀ v ∈ L, v ≠ w := fun v hv e =>
    (List.nodup_append.1 hn).2.2 v hv w (by simp) e
  have e : runL hs body (L ++ [w]) s = inst hs body (runL hs body L s) w := by
    rw [runL_append]; rfl
  rw [e, inst, inst]
  have e1 : ∀ s', vecOf hs (setVars hs s' w) = w := fun s' => vecOf_setVars (h0 w hSw)
  refine hdet _ _ (by rw [e1, e1]) fun y hy => ?_
  rw [e1] at hy
  by_cases hy' : IsVar hs y
  · rw [setVars_var hy', setVars_var hy']
  · rw [setVars_ne hy', setVars_ne hy']
    exact runL_keep hd hy' (fun v hv => h0 v (hSL v hv)) fun v hv hw =>
      hi.read w v hSw (hSL v hv) (hne v hv) y hw hy

end

/-! ## Different iterations -/

theorem samePrefix_length {hs : List Hdr} {s : State} {v v' : Vec} (hv : Space hs s v)
    (hv' : Space hs s v') (h : SamePrefix hs hs.length v v') : v = v' := by
  funext x
  by_cases hx : IsVar hs x
  · obtain ⟨k, hm, rfl⟩ := hx
    obtain ⟨j, hj, e⟩ := List.mem_iff_getElem.1 hm
    exact h j hj k (by rw [List.getElem?_eq_getElem hj, e])
  · rw [hv.2 x hx, hv'.2 x hx]

theorem first_diff {hs : List Hdr} {s : State} {v v' : Vec} (hv : Space hs s v)
    (hv' : Space hs s v') (hne : v ≠ v') : ∀ (n i : ℕ), hs.length - i ≤ n → SamePrefix hs i v v' →
    ∃ k, i ≤ k ∧ k < hs.length ∧ SamePrefix hs k v v' ∧ ¬ SamePrefix hs (k + 1) v v'
  | n, i, hn, hp => by
    by_cases hi : i < hs.length
    · by_cases hp' : SamePrefix hs (i + 1) v v'
      · cases n with
        | zero => omega
        | succ n =>
          obtain ⟨k, h1, h2⟩ := first_diff hv hv' hne n (i + 1) (by omega) hp'
          exact ⟨k, by omega, h2⟩
      · exact ⟨i, le_refl _, hi, hp, hp'⟩
    · exfalso
      refine hne (samePrefix_length hv hv' fun j hj => hp j (by omega))

end Tsar.InterchangeSem
