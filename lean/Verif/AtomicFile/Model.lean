import Mathlib.Data.Nat.Digits.Defs

/-!
# Writing of transformed sources (C180, C181)

Models `AtomicallyMovedFile` and `getDumpFilenameAdjuster()` from
`/repo/lib/Core/TransformationContext.cpp`.
-/

namespace Tsar.AtomicFile

/-- Content of a target file and of a temporary file, `none` if a file does not exist. -/
structure Fs where
  target : Option (List ℕ)
  temp : Option (List ℕ)
  deriving DecidableEq, Repr

/-- Results of system calls: whether an existing target can be written and is a regular file, whether
a temporary file can be created, the target can be opened and the temporary file can be renamed, and
the number of bytes which can be stored in a written file. -/
structure Env where
  writable : Bool
  regular : Bool
  tempOk : Bool
  openOk : Bool
  renameOk : Bool
  room : ℕ

/-- Reported errors, `err_fe_unable_to_open_output` and `err_unable_to_rename_temp`. -/
inductive Err
  | unableToOpen
  | unableToRename
  deriving DecidableEq, Repr

/-- `AtomicallyMovedFile::checkStatus()`: result (`TransformationContext.cpp:66-81`). -/
def canWrite (e : Env) (fs : Fs) : Bool := !(fs.target.isSome && !e.writable)

/-- `mUseTemporary` at the end of the constructor (`TransformationContext.cpp:77-78, 88-98`). -/
def useTemp (e : Env) (fs : Fs) : Bool := !(fs.target.isSome && !e.regular) && e.tempOk

/-- A portion of data is added to a file. -/
def put (room : ℕ) (old new : List ℕ) : List ℕ := (old ++ new).take room

/-- A portion of data is added to the temporary file. -/
def putTemp (room : ℕ) (fs : Fs) (c : List ℕ) : Fs := { fs with temp := fs.temp.map (put room · c) }

/-- A portion of data is added to the target file. -/
def putTarget (room : ℕ) (fs : Fs) (c : List ℕ) : Fs :=
  { fs with target := fs.target.map (put room · c) }

/-- States of files while portions of data are written to a stream; the buffered stream divides data
arbitrary. -/
def writes (upd : Fs → List ℕ → Fs) : List (List ℕ) → Fs → List Fs
  | [], fs => [fs]
  | c :: cs, fs => fs :: writes upd cs (upd fs c)

/-- The destructor: a temporary file replaces the target, it is removed if this is impossible
(`TransformationContext.cpp:110-127`). -/
def close (e : Env) (fs : Fs) : Fs × Option Err :=
  if e.renameOk then (⟨fs.temp, none⟩, none) else (⟨fs.target, none⟩, some .unableToRename)

/-- States of files between system calls from the creation of an object to its destruction
(`TransformationContext.cpp:84-127`) and an error. -/
def run (e : Env) (cs : List (List ℕ)) (fs : Fs) : List Fs × Option Err :=
  if canWrite e fs then
    if useTemp e fs then
      (fs :: writes (putTemp e.room) cs ⟨fs.target, some []⟩ ++
        [(close e (cs.foldl (putTemp e.room) ⟨fs.target, some []⟩)).1],
       (close e (cs.foldl (putTemp e.room) ⟨fs.target, some []⟩)).2)
    else if e.openOk then (fs :: writes (putTarget e.room) cs ⟨some [], fs.temp⟩, none)
    else ([fs], some .unableToOpen)
  else ([fs], some .unableToOpen)

/-- A printed number, decimal digits. -/
def printed (n : ℕ) : List ℕ := if n = 0 then [0] else (Nat.digits 10 n).reverse

/-- `DumpFiles` counters: the next value of a counter of type `unsigned short`
(`TransformationContext.cpp:51-54`). -/
def next : Option ℕ → ℕ
  | none => 1
  | some v => (v + 1) % 65536

/-- `snprintf()` to the buffer of `digits10 + 1 = 5` characters, the last one is zero
(`TransformationContext.cpp:55-58`). -/
def suffix (v : ℕ) : List ℕ := (printed v).take 4

/-- Suffixes which are returned for a sequence of filenames (`TransformationContext.cpp:49-64`);
the suffix is inserted before the extension of a filename. -/
def adjust : List ℕ → (ℕ → Option ℕ) → List (ℕ × List ℕ)
  | [], _ => []
  | f :: fs, m => (f, suffix (next (m f))) ::
      adjust fs fun g => if g = f then some (next (m f)) else m g

end Tsar.AtomicFile
