import Verif.Range.Model

/-!
# Specification of memory ranges

What a range *means*, independent of the algorithms of the model.
-/

namespace Tsar.Range

/-- Index `i` belongs to the arithmetic progression `start, start + step, ...` with
`trip` members. -/
def Dim.Mem (d : Dim) (i : Nat) : Prop := ∃ k, k < d.trip ∧ i = d.start + d.step * k

/-- The vector of indexes `v` belongs to the product of progressions. -/
def DimsMem : List Dim → List Nat → Prop
  | [], [] => True
  | d :: ds, i :: is => d.Mem i ∧ DimsMem ds is
  | _, _ => False

/-- Row-major element number of the vector of indexes `v` in an array with the given
dimensions. -/
def linear : List Dim → List Nat → Nat
  | _ :: ds, i :: is => i * (ds.map Dim.size).prod + linear ds is
  | _, _ => 0

/-- Byte `b` (counted from the base pointer) belongs to the location. For a byte range
it is the half-open interval; for an array range it is the set of bytes of all elements
(an element occupies `upper` bytes). Locations without known bounds are not given a
meaning here (`False`) and theorems exclude them. -/
def Loc.Byte (l : Loc) (b : Nat) : Prop :=
  match l.lower, l.upper with
  | some lo, some up =>
    if l.kind.collapsed then
      ∃ v, DimsMem l.dims v ∧ ∃ o, o < up ∧ b = linear l.dims v * up + o
    else lo ≤ b ∧ b < up
  | _, _ => False

/-- Contract of the external Diophantine solver for positive coefficients:
it returns `none` iff there are no integer solutions of `k1 * x - k2 * y = c`, otherwise
the parametric line with positive direction which consists of all solutions. -/
def SolverOK (S : Solver) : Prop :=
  ∀ k1 k2 c : Int, 0 < k1 → 0 < k2 →
    match S k1 k2 c with
    | none => ∀ x y : Int, k1 * x - k2 * y ≠ c
    | some (A, B, C, D) => 0 < B ∧ 0 < D ∧
        ∀ x y : Int, k1 * x - k2 * y = c ↔ ∃ t : Int, x = A + B * t ∧ y = C + D * t

/-- Well-formed dimension: positive step and trip count (what the assertions demand). -/
def Dim.Wf (d : Dim) : Prop := 0 < d.step ∧ 0 < d.trip

end Tsar.Range

namespace Tsar.Range

/-- A byte range with known bounds. -/
def Loc.IsScalar (l : Loc) : Prop :=
  l.kind.collapsed = false ∧ ∃ lo up, l.lower = some lo ∧ l.upper = some up

/-- A well-formed array range: elements of `e` bytes, at least one dimension, positive
steps and trip counts, indexes of all dimensions but the first one are inside of the
array (size of the first dimension may be unknown, i.e. zero). -/
def Loc.IsArray (l : Loc) (e : Nat) : Prop :=
  l.kind.collapsed = true ∧ l.lower = some 0 ∧ l.upper = some e ∧ 0 < e ∧
  l.dims ≠ [] ∧ (∀ d ∈ l.dims, d.Wf) ∧ ∀ d ∈ l.dims.tail, d.last < d.size

/-- The byte range `[lo, up)` lies inside of the array described by `a`, and
sizes are representable in 64 bits. -/
def FitsIn (a : Loc) (e up : Nat) : Prop :=
  up < 2 ^ 64 ∧ (a.dims.tail.map Dim.size).prod < 2 ^ 64 ∧ (a.dims.map Dim.size).prod < 2 ^ 64 ∧
  ∃ d ds, a.dims = d :: ds ∧ (d.size = 0 ∨ up ≤ (a.dims.map Dim.size).prod * e)

end Tsar.Range

namespace Tsar.Range

/-- What the documentation of `intersect` promises (MemoryLocationRange.h:190-208), in terms
of bytes: no failed assertions; 'none' means that there are no common bytes; an exact answer
consists of exactly the common bytes, and the complements (if they were requested) consist
of exactly the remaining bytes of each range. -/
def IntersectSpec (l r : Loc) (wantL wantR : Bool) : Res × List Loc × List Loc → Prop
  | (.ub, _, _) => False
  | (.none, _, _) => ∀ b, ¬ (l.Byte b ∧ r.Byte b)
  | (.unknown, _, _) => True
  | (.exact m, lc, rc) =>
      m.ptr = l.ptr ∧
      (∀ b, m.Byte b ↔ l.Byte b ∧ r.Byte b) ∧
      (wantL = true → ∀ b, (∃ p ∈ lc, p.Byte b) ↔ l.Byte b ∧ ¬ r.Byte b) ∧
      (wantR = true → ∀ b, (∃ p ∈ rc, p.Byte b) ↔ r.Byte b ∧ ¬ l.Byte b)

/-- Two locations describe parts of the same array in a compatible way. -/
inductive Compatible (l r : Loc) : Prop
  | scalars : l.IsScalar → r.IsScalar → Compatible l r
  | arrays (e : Nat) : l.IsArray e → r.IsArray e →
      l.dims.map Dim.size = r.dims.map Dim.size → Compatible l r
  | arrayScalar (e up : Nat) : l.IsArray e → r.IsScalar → r.upper = some up → FitsIn l e up →
      Compatible l r
  | scalarArray (e up : Nat) : l.IsScalar → r.IsArray e → l.upper = some up → FitsIn r e up →
      Compatible l r

/-- `l'` is `l` with its unknown bounds replaced by some actual values. -/
def Refines (l' l : Loc) : Prop :=
  l'.ptr = l.ptr ∧ l'.kind = l.kind ∧ (∃ lo, l'.lower = some lo) ∧ (∃ up, l'.upper = some up) ∧
  (∀ x, l.lower = some x → l'.lower = some x) ∧ (∀ x, l.upper = some x → l'.upper = some x)

end Tsar.Range
