import Mathlib.Data.List.Basic

/-!
# Hierarchy of include files (C175-C177)

Models `tsar::FileTree` from `/repo/include/tsar/Analysis/Clang/IncludeTree.h` and
`/repo/lib/Analysis/Clang/IncludeTree.cpp`.
-/

namespace Tsar.FileTree

/-- An outermost declaration: the file which contains its expansion location (`none` if the location
is invalid) and the offset in this file. -/
structure Decl where
  id : ℕ
  file : Option ℕ
  off : ℕ
  deriving DecidableEq, Repr

/-- Includes: a file which includes a given one and the offset of the include in it, `none` if a file
is not included.  `SourceManager::getDecomposedIncludedLoc()`, each include has its own `FileID`. -/
abbrev Inc := ℕ → Option (ℕ × ℕ)

/-- `FileNode::ChildT` (`IncludeTree.h`). -/
inductive Child
  | decl (d : Decl)
  | file (f : ℕ)
  deriving DecidableEq, Repr

/-- `FileNode::EdgeT`: a child and the offset of its location. -/
structure Edge where
  child : Child
  off : ℕ
  deriving DecidableEq, Repr

/-- `FileTree`: `mFiles` (`files`, in the order of insertion; nodes are described by their children,
parents and results of `isInclude()`), `mDeclToFile` (`owner`) and internal declarations from
`mRoots`. -/
structure St where
  files : List ℕ
  included : ℕ → Bool
  kids : ℕ → List Edge
  parent : ℕ → Option ℕ
  owner : List (Decl × ℕ)
  internals : List Decl

/-- An empty tree, `clear()` (`IncludeTree.h:457-463`). -/
def empty : St := ⟨[], fun _ => false, fun _ => [], fun _ => none, [], []⟩

/-- `FileTree::insert()` (`IncludeTree.h:296-305`): files are identified by `FileID` only. -/
def insert (inc : Inc) (st : St) (f : ℕ) : St × Bool :=
  if f ∈ st.files then (st, false)
  else ({ st with
    files := st.files ++ [f],
    included := fun g => if g = f then (inc f).isSome else st.included g }, true)

/-- `FileNode::push_back(const OutermostDecl *)` and the following insertion to `mDeclToFile`
(`IncludeTree.h:122-125`, `IncludeTree.cpp:75-76`). -/
def pushDecl (st : St) (f : ℕ) (d : Decl) : St :=
  { st with
    kids := fun g => if g = f then st.kids g ++ [⟨.decl d, d.off⟩] else st.kids g,
    owner := st.owner ++ [(d, f)] }

/-- `FileNode::push_back(FileNode *)` (`IncludeTree.h:127-132`). -/
def pushFile (st : St) (p f o : ℕ) : St :=
  { st with
    kids := fun g => if g = p then st.kids g ++ [⟨.file f, o⟩] else st.kids g,
    parent := fun g => if g = f then some p else st.parent g }

/-- The loop over enclosing files (`IncludeTree.cpp:77-87`); the first argument bounds the number of
iterations. -/
def climb (inc : Inc) : ℕ → ℕ → Bool → St → St
  | 0, _, _, st => st
  | n + 1, fn, isNew, st =>
    match inc fn with
    | none => st
    | some (p, o) =>
      if isNew then climb inc n p (insert inc st p).2 (pushFile (insert inc st p).1 p fn o) else st

/-- The body of the loop over declarations (`IncludeTree.cpp:66-88`).  A file is included by a file
with a less number, so `f + 1` iterations are enough. -/
def addDecl (inc : Inc) (st : St) (d : Decl) : St :=
  match d.file with
  | none => { st with internals := st.internals ++ [d] }
  | some f => climb inc (f + 1) f (insert inc st f).2 (pushDecl (insert inc st f).1 f d)

/-- `reconstruct()` for all translation units (`IncludeTree.h:443-447`, `IncludeTree.cpp:59-91`). -/
def build (units : List (Inc × List Decl)) : St :=
  units.foldl (fun st u => u.2.foldl (addDecl u.1) st) empty

/-- Sorting of children of all files (`IncludeTree.h:449-450`, `IncludeTree.cpp:46-57`); `srt` is
`llvm::sort()` by offsets. -/
def sortAll (srt : List Edge → List Edge) (st : St) : St :=
  { st with kids := fun f => srt (st.kids f) }

/-- `mRoots` (`IncludeTree.h:448-453`): internal declarations and files which are not included.  The
order of files in a hash table is replaced by the order of insertion. -/
def roots (st : St) : List Child :=
  st.internals.map .decl ++ (st.files.filter fun f => !st.included f).map .file

/-- `root_size()` (`IncludeTree.h:399`). -/
def rootSize (st : St) : ℕ := (roots st).length

/-- `roots()` (`IncludeTree.h:349-363`). -/
def rootFiles (st : St) : List Child := (roots st).drop st.internals.length

/-- `find()` (`IncludeTree.h:335-339`). -/
def find (st : St) (d : Decl) : Option ℕ := (st.owner.find? fun p => p.1 == d).map Prod.snd

/-- `findRoot(File)` (`IncludeTree.h:365-371`); the first argument bounds the number of iterations. -/
def findRoot (st : St) : ℕ → ℕ → ℕ
  | 0, f => f
  | n + 1, f => match st.parent f with
    | none => f
    | some p => findRoot st n p

/-- Declarations which are visited by a depth first traversal from a file
(`GraphTraits<FileNode::ChildT *>`, `IncludeTree.h:147-168`); the first argument bounds the depth. -/
def dfs (st : St) : ℕ → ℕ → List Decl
  | 0, _ => []
  | n + 1, f => (st.kids f).flatMap fun e =>
    match e.child with
    | .decl d => [d]
    | .file g => dfs st n g

/-- A sufficient depth. -/
def depth (st : St) : ℕ := st.files.foldr max 0 + 1

end Tsar.FileTree
