/-!
# Variables of data directives and merging of directives

Model of `Align`, `AlignLess` and `AlignVarListT` (include/tsar/Transform/Clang/DVMHDirecitves.h:96-159) and of
`insertPragmaData()` together with the preceding sort (lib/Transform/Clang/DVMHWriter.cpp:1044-1178, 1698-1725).
-/

namespace Tsar.DvmhMerge

/-- A subscript of an aligned array (DVMHDirecitves.h:100-107): nothing, an affine function of an axis or a constant. -/
inductive Rel
  | none
  | axis (dim : Nat) (step offset : Int)
  | const (c : Int)
  deriving DecidableEq, Repr

/-- `struct Align` (DVMHDirecitves.h:96-107). `target` is a variable or a template, `name` is its name. Names are
numbered in the lexicographic order. -/
structure Align where
  target : Nat
  name : Nat
  rel : List Rel
  deriving DecidableEq, Repr

/-- Comparison of tuples `(Dimension, Step, Offset)` (DVMHDirecitves.h:148-153). -/
def tupleLess (a b : Nat × Int × Int) : Bool :=
  if a.1 ≠ b.1 then a.1 < b.1 else if a.2.1 ≠ b.2.1 then a.2.1 < b.2.1 else a.2.2 < b.2.2

/-- The loop over subscripts in `AlignLess` (DVMHDirecitves.h:130-154). `RHSAxis` is obtained from `LHS`
(DVMHDirecitves.h:147). If both subscripts are constants then the loop is left. Lists have the same length. -/
def relLess : List Rel → List Rel → Bool
  | l :: ls, r :: rs =>
    match l, r with
    | .none, .none => relLess ls rs
    | _, .none => false
    | .none, _ => true
    | .const _, .axis .. => false
    | .axis .., .const _ => true
    | .const x, .const y => x < y
    | .axis d s o, .axis _ _ _ =>
      let lhs := (d, s, o)
      let rhs := (d, s, o)
      if lhs ≠ rhs then tupleLess lhs rhs else relLess ls rs
  | _, _ => false

/-- `AlignLess::operator()` (DVMHDirecitves.h:110-157). -/
def alignLess (l r : Align) : Bool :=
  if l.name ≠ r.name then l.name < r.name
  else if l.rel.length ≠ r.rel.length then l.rel.length < r.rel.length
  else relLess l.rel r.rel

/-- `AlignVarListT::insert()` (DVMHDirecitves.h:159): `std::set` is a sorted list, an element which is equivalent to an
inserted one is not changed. -/
def insert (a : Align) : List Align → List Align
  | [] => [a]
  | b :: bs => if alignLess a b then a :: b :: bs else if alignLess b a then b :: insert a bs else b :: bs

/-- `Vars.insert(PD->getMemory().begin(), PD->getMemory().end())` (DVMHWriter.cpp:1125, 1170). -/
def insertAll (vs : List Align) (as : List Align) : List Align := as.foldl (fun s a => insert a s) vs

/-- Kinds of directives. -/
inductive Kind
  | actual
  | getActual
  | remote
  | other
  deriving DecidableEq, Repr

/-- A directive which is attached to a statement (`Insertion::PragmaList`, DVMHWriter.cpp:199-204). `bound` is true for
`InsertLocation::Bind`, `invalid` and `skipped` are states of a directive, `mark` identifies its end marker. -/
structure Item where
  kind : Kind
  bound : Bool := false
  invalid : Bool := false
  skipped : Bool := false
  mem : List Align := []
  mark : Nat := 0
  deriving DecidableEq, Repr

/-- A comparator for directives before a statement (DVMHWriter.cpp:1700-1711). -/
def lessBefore (l r : Item) : Bool :=
  if l.bound ≠ r.bound then !l.bound && r.bound else l.kind != .remote && r.kind == .remote

/-- A comparator for directives after a statement (DVMHWriter.cpp:1713-1724). -/
def lessAfter (l r : Item) : Bool :=
  if l.bound ≠ r.bound then l.bound && !r.bound else l.kind != .remote && r.kind == .remote

/-- `stable_sort` (DVMHWriter.cpp:1700, 1713). -/
def sorted (less : Item → Item → Bool) (items : List Item) : List Item := items.mergeSort (fun a b => !less b a)

/-- Directives which are considered by `insertPragmaData()` (DVMHWriter.cpp:1111-1113, 1156-1158). -/
def live (i : Item) : Bool := i.kind != .other && !i.invalid && !i.skipped && !i.mem.isEmpty

/-- A written directive: the directive whose string is changed, its kind and variables. -/
structure Written where
  head : Item
  kind : Kind
  vars : List Align
  deriving DecidableEq, Repr

/-- `addPragmaBefore`, `addPragmaAfter` (DVMHWriter.cpp:1073-1106, 1132-1152): variables which are not visible are
removed, nothing is written if there are no variables. -/
def flush (vis : Align → Bool) (cur : Item) (vars : List Align) : List Written :=
  if (vars.filter vis).isEmpty then [] else [⟨cur, cur.kind, vars.filter vis⟩]

/-- The loop over directives (DVMHWriter.cpp:1107-1131, 1153-1176). `cur` is `CurrItr`, `vars` is `Vars`, `mergeable` is
`isMergeableMarker` (DVMHWriter.cpp:1046-1065). -/
def loop (vis : Align → Bool) (mergeable : Nat → Nat → Bool) : Option Item → List Align → List Item → List Written
  | none, _, [] => []
  | some cur, vars, [] => flush vis cur vars
  | cur, vars, i :: is =>
    if !live i then loop vis mergeable cur vars is
    else match cur with
      | none => loop vis mergeable (some i) (insertAll vars i.mem) is
      | some c =>
        if c.kind ≠ i.kind || !mergeable c.mark i.mark then
          flush vis c vars ++ loop vis mergeable (some i) (insertAll [] i.mem) is
        else loop vis mergeable (some c) (insertAll vars i.mem) is

/-- Data directives which are written near a statement (DVMHWriter.cpp:1066-1178). -/
def write (vis : Align → Bool) (mergeable : Nat → Nat → Bool) (items : List Item) : List Written :=
  loop vis mergeable none [] items

end Tsar.DvmhMerge
