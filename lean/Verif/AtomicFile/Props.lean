import Verif.AtomicFile.Model
import Mathlib.Data.Nat.Digits.Lemmas

/-!
# Writing of transformed sources (C180, C181)
-/

namespace Tsar.AtomicFile

/-! ## C180 -/

theorem take_fit {room : ℕ} {l : List ℕ} (h : l.length ≤ room) : l.take room = l :=
  List.take_of_length_le h

theorem temp_writes (room : ℕ) : ∀ (cs : List (List ℕ)) (fs s : Fs),
    s ∈ writes (putTemp room) cs fs → s.target = fs.target
  | [], fs, s, h => by
    rw [writes, List.mem_singleton] at h
    rw [h]
  | c :: cs, fs, s, h => by
    rw [writes] at h
    rcases List.mem_cons.1 h with rfl | h
    · rfl
    · exact (temp_writes room cs (putTemp room fs c) s h :)

theorem temp_final (room : ℕ) : ∀ (cs : List (List ℕ)) (t : Option (List ℕ)) (old : List ℕ),
    (old ++ cs.flatten).length ≤ room →
    cs.foldl (putTemp room) ⟨t, some old⟩ = ⟨t, some (old ++ cs.flatten)⟩
  | [], t, old, _ => by simp
  | c :: cs, t, old, h => by
    have h' : (old ++ c).length ≤ room := by
      simp only [List.flatten_cons, List.length_append] at h ⊢
      omega
    rw [List.foldl_cons]
    have e : putTemp room ⟨t, some old⟩ c = ⟨t, some (old ++ c)⟩ := by
      simp [putTemp, put, take_fit h']
    rw [e, temp_final room cs t (old ++ c) (by simpa [List.append_assoc] using h)]
    simp [List.append_assoc]

theorem temp_final_target (room : ℕ) : ∀ (cs : List (List ℕ)) (fs : Fs),
    (cs.foldl (putTemp room) fs).target = fs.target
  | [], _ => rfl
  | c :: cs, fs => temp_final_target room cs (putTemp room fs c)

theorem target_last (room : ℕ) : ∀ (cs : List (List ℕ)) (t : Option (List ℕ)) (old : List ℕ)
    (d : Fs), (old ++ cs.flatten).length ≤ room →
    (writes (putTarget room) cs ⟨some old, t⟩).getLastD d = ⟨some (old ++ cs.flatten), t⟩
  | [], t, old, _, _ => by simp [writes]
  | c :: cs, t, old, d, h => by
    have h' : (old ++ c).length ≤ room := by
      simp only [List.flatten_cons, List.length_append] at h ⊢
      omega
    have e : putTarget room ⟨some old, t⟩ c = ⟨some (old ++ c), t⟩ := by
      simp [putTarget, put, take_fit h']
    rw [writes, List.getLastD_cons, e,
      target_last room cs t (old ++ c) _ (by simpa [List.append_assoc] using h)]
    simp [List.append_assoc]

/-- **C180**, partial: if a temporary file can be created for a target, which is absent or a regular
file, and data can be stored then at each point, where execution may be interrupted, the target has
either the old content or the whole new content. Missing: direct writing (`direct_fails`) and errors of
writing (`room_fails`). -/
theorem atomic_partial {e : Env} {fs : Fs} (ht : e.tempOk = true)
    (hr : fs.target = none ∨ e.regular = true) {cs : List (List ℕ)}
    (hfit : cs.flatten.length ≤ e.room) :
    ∀ s ∈ (run e cs fs).1, s.target = fs.target ∨ s.target = some cs.flatten := by
  intro s hs
  have hu : useTemp e fs = true := by
    unfold useTemp
    rcases hr with h | h <;> simp [h, ht]
  unfold run at hs
  by_cases hc : canWrite e fs = true
  · rw [if_pos hc, if_pos hu] at hs
    simp only [List.cons_append, List.mem_cons, List.mem_append, List.not_mem_nil, or_false] at hs
    rcases hs with rfl | hs | rfl
    · exact Or.inl rfl
    · exact Or.inl (temp_writes e.room cs ⟨fs.target, some []⟩ s hs :)
    · rw [temp_final e.room cs fs.target [] (by simpa using hfit)]
      unfold close
      cases e.renameOk <;> simp
  · rw [if_neg hc, List.mem_singleton] at hs
    exact Or.inl (by rw [hs])

/-- **C180**: if data can be stored then the outcome is described by an error, no matter how the file
is written: without errors the target has new content, otherwise it has the old content; temporary
files are not left. -/
theorem outcome_exact (e : Env) {fs : Fs} (hn : fs.temp = none) {cs : List (List ℕ)}
    (hfit : cs.flatten.length ≤ e.room) :
    (run e cs fs).1.getLastD fs =
      ⟨if (run e cs fs).2 = none then some cs.flatten else fs.target, none⟩ := by
  have hfs : fs = ⟨fs.target, none⟩ := by
    rw [← hn]
  unfold run
  by_cases hc : canWrite e fs = true
  · rw [if_pos hc]
    by_cases hu : useTemp e fs = true
    · rw [if_pos hu]
      simp only [List.getLastD_concat]
      rw [temp_final e.room cs fs.target [] (by simpa using hfit)]
      unfold close
      cases e.renameOk <;> simp
    · rw [if_neg hu]
      by_cases ho : e.openOk = true
      · rw [if_pos ho]
        simp only [List.getLastD_cons]
        rw [target_last e.room cs fs.temp [] fs (by simpa using hfit), hn]
        simp
      · rw [if_neg ho]
        simpa using hfs
  · rw [if_neg hc]
    simpa using hfs

/-- **C180**: an error is reported exactly if the target cannot be replaced. -/
theorem error_exact (e : Env) (fs : Fs) (cs : List (List ℕ)) :
    ((run e cs fs).2 = some .unableToOpen ↔
      (fs.target ≠ none ∧ e.writable = false) ∨
      ((fs.target ≠ none ∧ e.regular = false ∨ e.tempOk = false) ∧ e.openOk = false)) ∧
    ((run e cs fs).2 = some .unableToRename ↔
      (fs.target = none ∨ e.writable = true ∧ e.regular = true) ∧ e.tempOk = true ∧
        e.renameOk = false) := by
  obtain ⟨w, r, t, o, rn, room⟩ := e
  obtain ⟨tg, tp⟩ := fs
  unfold run canWrite useTemp close
  cases tg <;> cases w <;> cases r <;> cases t <;> cases o <;> cases rn <;> simp

/-- **C180**: a file which cannot be written is not changed at any point. -/
theorem readonly_kept (e : Env) {fs : Fs} (cs : List (List ℕ)) (h : fs.target ≠ none)
    (hw : e.writable = false) : ∀ s ∈ (run e cs fs).1, s = fs := by
  have hc : ¬ canWrite e fs = true := by
    unfold canWrite
    cases ht : fs.target with
    | none => exact absurd ht h
    | some _ => simp [hw]
  unfold run
  rw [if_neg hc]
  simp

/-- **C180**, disagreement: if a temporary file cannot be created then the target is overwritten
directly and an interrupted execution leaves neither old nor new content. -/
theorem direct_fails : ∃ (e : Env) (fs : Fs) (cs : List (List ℕ)), e.regular = true ∧
    cs.flatten.length ≤ e.room ∧ (run e cs fs).2 = none ∧
    ∃ s ∈ (run e cs fs).1, s.target ≠ fs.target ∧ s.target ≠ some cs.flatten :=
  ⟨⟨true, true, false, true, true, 10⟩, ⟨some [1, 2], none⟩, [[3], [4]], rfl, by decide, by decide,
    ⟨some [3], none⟩, by decide, by decide, by decide⟩

/-- **C180**, disagreement: errors of writing to a temporary file are not checked before it replaces the
target, so the target loses its content and `AtomicallyMovedFile` reports no error. -/
theorem room_fails : ∃ (e : Env) (fs : Fs) (cs : List (List ℕ)), e.tempOk = true ∧
    e.regular = true ∧ (run e cs fs).2 = none ∧
    ((run e cs fs).1.getLastD fs).target ≠ fs.target ∧
    ((run e cs fs).1.getLastD fs).target ≠ some cs.flatten :=
  ⟨⟨true, true, true, true, true, 1⟩, ⟨some [1, 2], none⟩, [[3], [4]], rfl, rfl, by decide, by decide,
    by decide⟩

/-- Hypotheses are met: content is replaced through a temporary file. -/
example : (run ⟨true, true, true, true, true, 9⟩ [[3], [4, 5]] ⟨some [1], none⟩) =
    ([⟨some [1], none⟩, ⟨some [1], some []⟩, ⟨some [1], some [3]⟩, ⟨some [1], some [3, 4, 5]⟩,
      ⟨some [3, 4, 5], none⟩], none) := by decide
example : (run ⟨true, true, true, true, false, 9⟩ [[3]] ⟨some [1], none⟩).2 =
    some .unableToRename := by decide

/-! ## C181 -/

theorem printed_inj {a b : ℕ} (ha : a ≠ 0) (hb : b ≠ 0) (h : printed a = printed b) : a = b := by
  unfold printed at h
  rw [if_neg ha, if_neg hb, List.reverse_inj] at h
  exact Nat.digits_inj_iff.1 h

theorem suffix_eq {a : ℕ} (ha : a ≠ 0) (h : a < 10000) : suffix a = printed a := by
  unfold suffix printed
  rw [if_neg ha]
  refine List.take_of_length_le ?_
  rw [List.length_reverse]
  exact (Nat.digits_length_le_iff (by norm_num) a).2 (by norm_num; exact h)

/-- The number of times a file is dumped. -/
def times (f : ℕ) (fs : List ℕ) : ℕ := fs.count f

theorem adjust_value : ∀ (fs : List ℕ) (m : ℕ → Option ℕ) (i f : ℕ), fs[i]? = some f →
    (m f).getD 0 + times f fs < 65536 →
    (adjust fs m)[i]? = some (f, suffix ((m f).getD 0 + times f (fs.take (i + 1))))
  | [], _, _, _, h, _ => by simp at h
  | g :: fs, m, 0, f, h, hb => by
    simp only [List.getElem?_cons_zero, Option.some.injEq] at h
    subst h
    have : next (m g) = (m g).getD 0 + 1 := by
      simp only [times, List.count_cons_self] at hb
      cases hm : m g with
      | none => simp [next]
      | some v =>
        simp only [hm, Option.getD_some] at hb
        simp only [next, Option.getD_some]
        exact Nat.mod_eq_of_lt (by omega)
    simp [adjust, this, times]
  | g :: fs, m, i + 1, f, h, hb => by
    rw [List.getElem?_cons_succ] at h
    rw [adjust, List.getElem?_cons_succ]
    by_cases e : f = g
    · subst e
      have hv : next (m f) = (m f).getD 0 + 1 := by
        simp only [times, List.count_cons_self] at hb
        cases hm : m f with
        | none => simp [next]
        | some v =>
          simp only [hm, Option.getD_some] at hb
          simp only [next, Option.getD_some]
          exact Nat.mod_eq_of_lt (by omega)
      rw [adjust_value fs _ i f h (by
        simp only [if_true, Option.getD_some, hv]
        simp only [times, List.count_cons_self] at hb ⊢
        omega)]
      simp only [if_true, Option.getD_some, hv, List.take_succ_cons, times, List.count_cons_self]
      congr 3
      omega
    · have hne : ¬ g = f := fun h => e h.symm
      rw [adjust_value fs _ i f h (by
        simp only [if_neg e]
        simp only [times, List.count_cons_of_ne hne] at hb ⊢
        exact hb)]
      simp only [if_neg e, List.take_succ_cons, times, List.count_cons_of_ne hne]

theorem take_count_lt {fs : List ℕ} {i j f : ℕ} (hij : i < j) (hj : fs[j]? = some f) :
    times f (fs.take (i + 1)) < times f (fs.take (j + 1)) := by
  have h1 : fs.take (j + 1) = fs.take j ++ [f] := by
    rw [List.take_add_one, hj]
    rfl
  have h2 : fs.take (i + 1) = (fs.take j).take (i + 1) := by
    rw [List.take_take, Nat.min_eq_left (by omega)]
  unfold times
  rw [h1, h2, List.count_append]
  have := (List.take_sublist (i + 1) (fs.take j)).count_le f
  simp
  omega

theorem count_take_le (fs : List ℕ) (i f : ℕ) : times f (fs.take i) ≤ times f fs :=
  (List.take_sublist i fs).count_le f

/-- **C181**, partial: in each history of dumps different dumps of a file have different suffixes if
the file is dumped less than 10000 times. Missing: longer histories, see `truncated_fails`. -/
theorem suffixes_partial {fs : List ℕ} {i j f : ℕ} (hij : i < j) (hi : fs[i]? = some f)
    (hj : fs[j]? = some f) (hb : times f fs < 10000) :
    ∃ a b, (adjust fs fun _ => none)[i]? = some (f, a) ∧ (adjust fs fun _ => none)[j]? = some (f, b) ∧
      a ≠ b := by
  have hlt := take_count_lt hij hj
  have hle := count_take_le fs (j + 1) f
  have hpos : 0 < times f (fs.take (i + 1)) := by
    have h1 : fs.take (i + 1) = fs.take i ++ [f] := by
      rw [List.take_add_one, hi]
      rfl
    unfold times
    rw [h1, List.count_append]
    simp
  refine ⟨_, _, adjust_value fs _ i f hi (by simp; omega), adjust_value fs _ j f hj (by simp; omega), ?_⟩
  simp only [Option.getD_none, Nat.zero_add]
  rw [suffix_eq (by omega) (by omega), suffix_eq (by omega) (by omega)]
  intro h
  have := printed_inj (by omega) (by omega) h
  omega

/-- **C181**: the number of a dump of a file is the number of its dumps so far, dumps of other files do
not change it. -/
theorem numbered {fs : List ℕ} {i f : ℕ} (hi : fs[i]? = some f) (hb : times f fs < 10000) :
    (adjust fs fun _ => none)[i]? = some (f, printed (times f (fs.take (i + 1)))) := by
  have hle := count_take_le fs (i + 1) f
  have hpos : 0 < times f (fs.take (i + 1)) := by
    have h1 : fs.take (i + 1) = fs.take i ++ [f] := by
      rw [List.take_add_one, hi]
      rfl
    unfold times
    rw [h1, List.count_append]
    simp
  rw [adjust_value fs _ i f hi (by simp; omega)]
  simp only [Option.getD_none, Nat.zero_add]
  rw [suffix_eq (by omega) (by omega)]

/-- **C181**, disagreement: the buffer is too small for five digits, so the dump number 10000 has the
name of the dump number 1000 and overwrites it. -/
theorem truncated_fails : ∃ (fs : List ℕ) (f i j : ℕ), i < j ∧ fs[i]? = some f ∧ fs[j]? = some f ∧
    (adjust fs fun _ => none)[i]? = (adjust fs fun _ => none)[j]? := by
  obtain ⟨N, hN⟩ : ∃ N, N = 10000 := ⟨_, rfl⟩
  have hg : ∀ i, i < N → (List.replicate N 0)[i]? = some 0 := by
    intro i h
    rw [List.getElem?_replicate, if_pos h]
  have hc : ∀ k, k ≤ N → times 0 ((List.replicate N 0).take k) = k := by
    intro k h
    unfold times
    rw [List.take_replicate, List.count_replicate_self]
    omega
  have hb : ((fun _ => none : ℕ → Option ℕ) 0).getD 0 + times 0 (List.replicate N 0) < 65536 := by
    unfold times
    rw [List.count_replicate_self]
    simp [hN]
  refine ⟨List.replicate N 0, 0, 999, 9999, by omega, hg _ (by omega), hg _ (by omega), ?_⟩
  rw [adjust_value _ _ 999 0 (hg _ (by omega)) hb,
    adjust_value _ _ 9999 0 (hg _ (by omega)) hb, hc _ (by omega), hc _ (by omega)]
  simp [suffix, printed]

example : adjust [5, 6, 5] (fun _ => none) = [(5, [1]), (6, [1]), (5, [2])] := by
  simp [adjust, suffix, printed, next]
example : times 5 [5, 6, 5] < 10000 := by decide

end Tsar.AtomicFile
