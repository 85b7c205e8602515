import Mathlib.Data.List.Basic
import Mathlib.Data.List.Induction
import Mathlib.Data.List.Infix

/-!
# Output files (C48)

Models `OutputFile::create` and `OutputFile::clear` from `/repo/lib/Support/Utils.cpp:178-313` and the
destructor from `/repo/include/tsar/Support/OutputFile.h:51-54`.

The file system is a map from paths to contents.  Each function gives the list of its effects on the
file system, one after another; a crash may happen between any two effects.
-/

namespace Tsar.OutputFile

/-- Contents of files; `none` if a file does not exist.  Special files are not represented. -/
abbrev FS (α : Type) := String → Option (List α)

variable {α : Type}

/-- Effects. -/
inductive Eff (α : Type)
  /-- A file is created or truncated. -/
  | open (p : String)
  /-- A part of data is appended. -/
  | append (p : String) (d : List α)
  | rename (p q : String)
  | remove (p : String)

/-- An effect on the file system. -/
def Eff.exec (fs : FS α) : Eff α → FS α
  | .open p => Function.update fs p (some [])
  | .append p d => Function.update fs p ((fs p).map (· ++ d))
  | .rename p q => Function.update (Function.update fs q (fs p)) p none
  | .remove p => Function.update fs p none

/-- A sequence of effects. -/
def run (fs : FS α) (es : List (Eff α)) : FS α := es.foldl Eff.exec fs

/-- Environment: answers of the operating system. -/
structure Env (α : Type) where
  /-- The destination exists and cannot be written. -/
  readOnly : Bool
  /-- The destination exists and is not a regular file. -/
  special : Bool
  /-- A temporary file has been created, at once or after directories have been created. -/
  tempOk : Bool
  /-- The name of the temporary file. -/
  temp : String
  /-- The destination can be opened directly. -/
  openOk : Bool
  /-- `rename` succeeds. -/
  renameOk : Bool
  /-- Parts in which `copy_file` writes the copy, and whether it succeeds. -/
  copyParts : List α → List (List α)
  copyOk : Bool

/-- `OutputFile`: the name (empty for the standard output) and the temporary file. -/
structure File where
  name : String
  temp : Option String

/-- `create` (`Utils.cpp:178-279`): effects and the file or an error (`none`). -/
def create (env : Env α) (path : String) (useTemporary : Bool) : List (Eff α) × Option File :=
  if useTemporary && path != "-" && env.readOnly then ([], none)
  else
    let name := if path = "-" then "" else path
    if useTemporary && path != "-" && !env.special && env.tempOk then
      ([.open env.temp], some ⟨name, some env.temp⟩)
    else if path = "-" then ([], some ⟨name, none⟩)
    else if env.openOk then ([.open path], some ⟨name, none⟩)
    else ([], none)

/-- Data written to the stream reach the file in some parts (a raw stream with a buffer, or a buffered
wrapper of it; the rest is written when the stream is destroyed by `mOS.reset()`). -/
def write (f : File) (parts : List (List α)) : List (Eff α) :=
  match f.temp with
  | some t => parts.map (.append t)
  | none => if f.name = "" then [] else parts.map (.append f.name)

/-- `TempFile::keep` of LLVM: rename, copy on failure, remove if the copy fails. -/
def keep (env : Env α) (temp target : String) (data : List α) : List (Eff α) :=
  if env.renameOk then [.rename temp target]
  else .open target :: (env.copyParts data).map (.append target) ++
    if env.copyOk then [] else [.remove temp]

/-- `clear` (`Utils.cpp:281-313`), after the stream has been destroyed; `target` is the name with the
working directory (`Utils.cpp:300-304`), `data` is the content of the temporary file. -/
def clear (env : Env α) (f : File) (target : String) (erase : Bool) (data : List α) :
    List (Eff α) :=
  if erase then
    (match f.temp with
      | some t => [.remove t]
      | none => []) ++ if f.name = "" then [] else [.remove f.name]
  else match f.temp with
    | none => []
    | some t => keep env t target data ++
        if env.renameOk || env.copyOk then [] else [.remove t]

/-- The whole life of a file: creation, writing, `clear(WorkingDir, EraseFile)`.  The destructor of a
file which has not been cleared calls `clear("", true)` (`OutputFile.h:51-54`). -/
def session (env : Env α) (path : String) (useTemporary : Bool) (parts : List (List α))
    (target : String) (erase : Bool) : List (Eff α) :=
  let c := create env path useTemporary
  c.1 ++ match c.2 with
    | none => []
    | some f => write f parts ++ clear env f target erase parts.flatten

/-! ## Specification -/

/-- Atomic replacement of a file: at every crash point the file has its previous content or the
complete new one, and in the end it has the new one. -/
def Atomic (fs : FS α) (es : List (Eff α)) (target : String) (new : List α) : Prop :=
  (∀ done, done <+: es → run fs done target = fs target ∨ run fs done target = some new) ∧
    run fs es target = some new

/-- Other files do not change at any crash point. -/
def Keeps (fs : FS α) (es : List (Eff α)) (p : String) : Prop :=
  ∀ done, done <+: es → run fs done p = fs p

/-! ## Proofs -/

theorem run_append (fs : FS α) (a b : List (Eff α)) : run fs (a ++ b) = run (run fs a) b := by
  simp [run]

/-- An effect does not touch a file. -/
def Eff.Avoids (p : String) : Eff α → Prop
  | .open q => q ≠ p
  | .append q _ => q ≠ p
  | .rename q r => q ≠ p ∧ r ≠ p
  | .remove q => q ≠ p

theorem exec_avoids {p : String} {e : Eff α} (h : e.Avoids p) (fs : FS α) : e.exec fs p = fs p := by
  cases e with
  | «open» q => simp [Eff.exec, Function.update_of_ne h.symm]
  | append q d => simp [Eff.exec, Function.update_of_ne h.symm]
  | rename q r => simp [Eff.exec, Function.update_of_ne h.1.symm, Function.update_of_ne h.2.symm]
  | remove q => simp [Eff.exec, Function.update_of_ne h.symm]

theorem run_avoids {p : String} {es : List (Eff α)} (h : ∀ e ∈ es, e.Avoids p) (fs : FS α) :
    run fs es p = fs p := by
  induction es generalizing fs with
  | nil => rfl
  | cons e es ih =>
    have := ih (fun e he => h e (by simp [he])) (e.exec fs)
    simp only [run, List.foldl_cons] at this ⊢
    rw [this, exec_avoids (h e (by simp))]

theorem keeps_avoids {p : String} {es : List (Eff α)} (h : ∀ e ∈ es, e.Avoids p) (fs : FS α) :
    Keeps fs es p := by
  rintro done ⟨rest, rfl⟩
  exact run_avoids (fun e he => h e (by simp [he])) fs

theorem run_parts (fs : FS α) (p : String) (parts : List (List α)) (d : List α)
    (h : fs p = some d) : run fs (parts.map (.append p)) p = some (d ++ parts.flatten) := by
  induction parts generalizing fs d with
  | nil => simp [run, h]
  | cons x parts ih =>
    simp only [List.map_cons, run, List.foldl_cons]
    have := ih (Eff.exec fs (.append p x)) (d ++ x) (by simp [Eff.exec, h])
    simp only [run] at this
    rw [this]
    simp

theorem session_temp (env : Env α) (path : String) (parts : List (List α)) (target : String)
    (erase : Bool) (hp : path ≠ "-") (hr : env.readOnly = false) (hs : env.special = false)
    (ht : env.tempOk = true) :
    session env path true parts target erase =
      .open env.temp :: (parts.map (.append env.temp) ++
        clear env ⟨path, some env.temp⟩ target erase parts.flatten) := by
  simp [session, create, hp, hr, hs, ht, write]

/-- **C48**, the part which holds: when a temporary file has been created and the renaming succeeds,
the destination is replaced atomically, the temporary file is absent in the end, and no other file
changes at any crash point.  It does not matter in which parts data reach the disk.
Missing: a file which is erased (`erase_fails`), a temporary file which has not been created
(`fallback_fails`), a renaming which fails (`copy_fails`). -/
theorem save_partial (env : Env α) (fs : FS α) (path : String) (parts : List (List α))
    (target : String) (hp : path ≠ "-") (hr : env.readOnly = false) (hs : env.special = false)
    (ht : env.tempOk = true) (hn : env.renameOk = true) (hne : env.temp ≠ target) :
    Atomic fs (session env path true parts target false) target parts.flatten ∧
      run fs (session env path true parts target false) env.temp = none ∧
      ∀ p, p ≠ target → p ≠ env.temp → Keeps fs (session env path true parts target false) p := by
  rw [session_temp env path parts target false hp hr hs ht]
  have hc : clear env ⟨path, some env.temp⟩ target false parts.flatten =
      [Eff.rename env.temp target] := by
    simp [clear, keep, hn]
  rw [hc]
  have hpre : ∀ e ∈ Eff.open env.temp :: parts.map (Eff.append env.temp), e.Avoids target := by
    intro e he
    rcases List.mem_cons.1 he with rfl | he
    · exact hne
    · obtain ⟨d, _, rfl⟩ := List.mem_map.1 he
      exact hne
  have hassoc : Eff.open env.temp :: (parts.map (Eff.append env.temp) ++
      [Eff.rename env.temp target]) =
      (Eff.open env.temp :: parts.map (Eff.append env.temp)) ++ [Eff.rename env.temp target] := rfl
  rw [hassoc]
  have hdata : run fs (Eff.open env.temp :: parts.map (Eff.append env.temp)) env.temp =
      some parts.flatten := by
    have := run_parts (Eff.exec fs (.open env.temp)) env.temp parts [] (by simp [Eff.exec])
    simpa [run] using this
  have hfin : run fs ((Eff.open env.temp :: parts.map (Eff.append env.temp)) ++
      [Eff.rename env.temp target]) target = some parts.flatten := by
    rw [run_append]
    simp only [run, List.foldl_cons, List.foldl_nil, Eff.exec] at hdata ⊢
    rw [Function.update_of_ne hne.symm, Function.update_self]
    exact hdata
  refine ⟨⟨?_, hfin⟩, ?_, ?_⟩
  · intro done hdone
    rcases List.prefix_concat_iff.1 hdone with rfl | h
    · exact .inr hfin
    · left
      exact keeps_avoids hpre fs done h
  · rw [run_append]
    simp [run, Eff.exec]
  · intro p h1 h2
    refine keeps_avoids ?_ fs
    intro e he
    rcases List.mem_append.1 he with he | he
    · rcases List.mem_cons.1 he with rfl | he
      · exact h2.symm
      · obtain ⟨d, _, rfl⟩ := List.mem_map.1 he
        exact h2.symm
    · simp only [List.mem_singleton] at he
      subst he
      exact ⟨h2.symm, h1.symm⟩

/-- If the creation fails, nothing is changed. -/
theorem create_error (env : Env α) (path : String) (useTemporary : Bool)
    (h : (create env path useTemporary).2 = none) : (create env path useTemporary).1 = [] := by
  unfold create at h ⊢
  split at h
  · rename_i h1
    rw [if_pos h1]
  · rename_i h1
    rw [if_neg h1]
    simp only at h ⊢
    split at h
    · simp at h
    · rename_i h2
      rw [if_neg h2]
      split at h
      · simp at h
      · rename_i h3
        rw [if_neg h3]
        split at h
        · simp at h
        · rename_i h4
          rw [if_neg h4]

/-- An existing file which cannot be written is not changed. -/
theorem readOnly_unchanged (env : Env α) (fs : FS α) (path : String) (parts : List (List α))
    (target : String) (erase : Bool) (hp : path ≠ "-") (hr : env.readOnly = true) :
    run fs (session env path true parts target erase) = fs := by
  simp [session, create, hp, hr, run]

/-- An environment in which everything succeeds. -/
def exEnv : Env ℕ where
  readOnly := false
  special := false
  tempOk := true
  temp := "a-0123.c.tmp"
  openOk := true
  renameOk := true
  copyParts := fun d => [d]
  copyOk := true

example : Atomic (fun p => if p = "a.c" then some [1, 2] else none)
    (session exEnv "a.c" true [[3], [4, 5]] "a.c" false) "a.c" [3, 4, 5] :=
  (save_partial exEnv _ "a.c" [[3], [4, 5]] "a.c" (by decide) rfl rfl rfl rfl (by decide)).1

/-- The full property C48 is false, first case: a file which is erased or destroyed without `clear`
loses its previous content, although a temporary file is used. -/
theorem erase_fails (env : Env α) (fs : FS α) (path : String) (parts : List (List α))
    (target : String) (hp : path ≠ "-") (hp0 : path ≠ "") (hr : env.readOnly = false)
    (hs : env.special = false) (ht : env.tempOk = true) :
    run fs (session env path true parts target true) path = none := by
  rw [session_temp env path parts target true hp hr hs ht]
  have : clear env ⟨path, some env.temp⟩ target true parts.flatten =
      [Eff.remove env.temp, Eff.remove path] := by
    simp [clear, hp0]
  rw [this]
  have h2 : Eff.open env.temp :: (parts.map (Eff.append env.temp) ++
      [Eff.remove env.temp, Eff.remove path]) =
      (Eff.open env.temp :: (parts.map (Eff.append env.temp) ++ [Eff.remove env.temp])) ++
        [Eff.remove path] := by simp
  rw [h2, run_append]
  simp [run, Eff.exec]

/-- Second case: if a temporary file cannot be created, the destination is truncated before new data
are written, so after a crash its previous content is lost and the new one is not complete. -/
theorem fallback_fails (env : Env α) (fs : FS α) (path : String) (parts : List (List α))
    (old : List α) (hp : path ≠ "-") (hp0 : path ≠ "") (hr : env.readOnly = false)
    (hs : env.special = false)
    (ht : env.tempOk = false) (ho : env.openOk = true) (hold : fs path = some old)
    (h0 : old ≠ []) (hnew : parts.flatten ≠ []) :
    ¬ Atomic fs (session env path true parts path false) path parts.flatten := by
  intro h
  have hs : session env path true parts path false =
      Eff.open path :: parts.map (Eff.append path) := by
    simp [session, create, hp, hp0, hr, hs, ht, ho, write, clear]
  rw [hs] at h
  rcases h.1 [Eff.open path] ⟨_, rfl⟩ with h | h
  · simp only [run, List.foldl_cons, List.foldl_nil, Eff.exec, Function.update_self, hold,
      Option.some.injEq] at h
    exact h0 h.symm
  · simp only [run, List.foldl_cons, List.foldl_nil, Eff.exec, Function.update_self,
      Option.some.injEq] at h
    exact hnew h.symm

/-- Third case: if the temporary file cannot be renamed, it is copied, and the destination is
incomplete during the copying. -/
theorem copy_fails (env : Env α) (fs : FS α) (path : String) (parts : List (List α))
    (target : String) (old : List α) (hp : path ≠ "-") (hr : env.readOnly = false)
    (hs : env.special = false) (ht : env.tempOk = true) (hn : env.renameOk = false)
    (hold : fs target = some old) (h0 : old ≠ []) (hnew : parts.flatten ≠ []) :
    ¬ Atomic fs (session env path true parts target false) target parts.flatten := by
  intro h
  rw [session_temp env path parts target false hp hr hs ht] at h
  obtain ⟨rest, hrest⟩ : ∃ rest, clear env ⟨path, some env.temp⟩ target false parts.flatten =
      Eff.open target :: rest := by
    simp [clear, keep, hn]
  rw [hrest] at h
  have hpre : (Eff.open env.temp :: (parts.map (Eff.append env.temp) ++ [Eff.open target])) <+:
      Eff.open env.temp :: (parts.map (Eff.append env.temp) ++ Eff.open target :: rest) :=
    ⟨rest, by simp⟩
  have hv : run fs (Eff.open env.temp :: (parts.map (Eff.append env.temp) ++ [Eff.open target]))
      target = some [] := by
    rw [← List.cons_append, run_append]
    simp [run, Eff.exec]
  rcases h.1 _ hpre with h | h
  · rw [hv, hold, Option.some.injEq] at h
    exact h0 h.symm
  · rw [hv, Option.some.injEq] at h
    exact hnew h.symm

/-- In all ways of writing (a renamed temporary file, a copied one, the destination itself), if nothing
fails, the destination has the complete new content in the end. -/
theorem written (env : Env α) (fs : FS α) (path : String) (parts : List (List α))
    (hp : path ≠ "-") (hp0 : path ≠ "") (hr : env.readOnly = false)
    (hs : env.special = false) (ho : env.openOk = true) (hc : env.copyOk = true)
    (hcp : ∀ d, (env.copyParts d).flatten = d) (hne : env.temp ≠ path) :
    run fs (session env path true parts path false) path = some parts.flatten := by
  cases ht : env.tempOk with
  | false =>
    have hs : session env path true parts path false =
        Eff.open path :: parts.map (Eff.append path) := by
      simp [session, create, hp, hp0, hr, hs, ht, ho, write, clear]
    rw [hs]
    have := run_parts (Eff.exec fs (.open path)) path parts [] (by simp [Eff.exec])
    simpa [run] using this
  | true =>
    cases hn : env.renameOk with
    | true => exact (save_partial env fs path parts path hp hr hs ht hn hne).1.2
    | false =>
      rw [session_temp env path parts path false hp hr hs ht]
      have : clear env ⟨path, some env.temp⟩ path false parts.flatten =
          Eff.open path :: (env.copyParts parts.flatten).map (Eff.append path) := by
        simp [clear, keep, hn, hc]
      rw [this, ← List.cons_append, run_append]
      have := run_parts (Eff.exec (run fs (Eff.open env.temp ::
        parts.map (Eff.append env.temp))) (.open path)) path
        (env.copyParts parts.flatten) [] (by simp [Eff.exec])
      rw [hcp] at this
      simpa [run] using this

end Tsar.OutputFile
