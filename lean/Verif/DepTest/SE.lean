/-!
# Symbolic expressions of the dependence tests

The dependence tests of `lib/Analysis/Memory/DependenceAnalysis.cpp` work on `llvm::SCEV` objects
through `llvm::ScalarEvolution`.  LLVM is outside the repository, hence the expressions, the
operations which build them and the queries about them are fields of a structure; what the tests
rely on is stated in `SE.Laws`.

An environment fixes the values of everything which does not change in the considered loop nest.
All values are mathematical integers: a state in which an expression built by a test wraps around
is outside the model (see `isKnown_wrap_fails` in `Fails.lean` for what happens in such a state).
-/

namespace Tsar.DepTest

/-- Predicates used by the tests, `llvm::CmpInst::Predicate`. -/
inductive Pred
  | eq | ne | sge | sle | sgt | slt
  deriving DecidableEq, Repr

/-- Meaning of a predicate on two integers. -/
def Pred.Holds : Pred → Int → Int → Prop
  | .eq, x, y => x = y
  | .ne, x, y => x ≠ y
  | .sge, x, y => x ≥ y
  | .sle, x, y => x ≤ y
  | .sgt, x, y => x > y
  | .slt, x, y => x < y

/-- The part of `llvm::ScalarEvolution` (and of the `SCEV` class hierarchy) which is used by the
tests.  `S` is the type of expressions, `L` the type of loops, `Env` the type of states. -/
structure SE (S L Env : Type) where
  /-- value of an expression -/
  val : S → Env → Int
  /-- `getConstant`, `getZero`, `getOne` -/
  ofInt : Int → S
  /-- `getMinusSCEV` -/
  minus : S → S → S
  /-- `getAddExpr` -/
  add : S → S → S
  /-- `getMulExpr` -/
  mul : S → S → S
  /-- `getNegativeSCEV` -/
  neg : S → S
  /-- `getSMaxExpr` -/
  smax : S → S → S
  /-- `getSMinExpr` -/
  smin : S → S → S
  /-- `getUDivExpr` -/
  udiv : S → S → S
  /-- `dyn_cast<SCEVConstant>` -/
  const : S → Option Int
  /-- operands of a `SCEVAddExpr` -/
  sum : S → Option (List S)
  /-- operands of a `SCEVMulExpr` -/
  product : S → Option (List S)
  /-- `isKnownPredicate` -/
  known : Pred → S → S → Bool
  /-- `isKnownNegative` -/
  knownNeg : S → Bool
  /-- `isKnownNonNegative` -/
  knownNonNeg : S → Bool
  /-- `isKnownPositive` -/
  knownPos : S → Bool
  /-- `isKnownNonPositive` -/
  knownNonPos : S → Bool
  /-- `isKnownNonZero` -/
  knownNonZero : S → Bool
  /-- operands of two sign extensions (or of two zero extensions) which have the same type -/
  strip : S → S → Option (S × S)
  /-- `isEnclosingNestAddRec`, DependenceAnalysis.cpp:705-735: all loops mentioned in two
  expressions belong to a single nest.  The answer never affects soundness, so it is arbitrary. -/
  nest : S → S → Bool
  /-- `collectUpperBound`, DependenceAnalysis.cpp:1178-1184: the number of times the back edge of a
  loop is taken, extended or truncated to the type of subscripts -/
  bound : L → Option S
  /-- identity of expressions: `SCEV` objects are unique, so equal pointers mean the same object -/
  same : S → S → Bool

variable {S L Env : Type}

/-- What the tests assume about `llvm::ScalarEvolution`: arithmetic does not wrap around, a constant
has the value it shows, and an answer "known" is right in every state.  Nothing is assumed about
when an answer is "unknown", except that the sign of a constant is recognised. -/
structure SE.Laws (se : SE S L Env) : Prop where
  ofInt : ∀ n e, se.val (se.ofInt n) e = n
  minus : ∀ x y e, se.val (se.minus x y) e = se.val x e - se.val y e
  add : ∀ x y e, se.val (se.add x y) e = se.val x e + se.val y e
  mul : ∀ x y e, se.val (se.mul x y) e = se.val x e * se.val y e
  neg : ∀ x e, se.val (se.neg x) e = - se.val x e
  smax : ∀ x y e, se.val (se.smax x y) e = max (se.val x e) (se.val y e)
  smin : ∀ x y e, se.val (se.smin x y) e = min (se.val x e) (se.val y e)
  udiv : ∀ x y e, 0 ≤ se.val x e → 0 < se.val y e →
    se.val (se.udiv x y) e = se.val x e / se.val y e
  const : ∀ x c e, se.const x = some c → se.val x e = c
  sum : ∀ x l e, se.sum x = some l → se.val x e = (l.map (se.val · e)).sum
  product : ∀ x l e, se.product x = some l →
    se.val x e = (l.map (se.val · e)).foldr (· * ·) 1
  known : ∀ p x y e, se.known p x y = true → p.Holds (se.val x e) (se.val y e)
  knownNeg : ∀ x e, se.knownNeg x = true → se.val x e < 0
  knownNonNeg : ∀ x e, se.knownNonNeg x = true → 0 ≤ se.val x e
  knownPos : ∀ x e, se.knownPos x = true → 0 < se.val x e
  knownNonPos : ∀ x e, se.knownNonPos x = true → se.val x e ≤ 0
  knownNonZero : ∀ x e, se.knownNonZero x = true → se.val x e ≠ 0
  strip : ∀ x y x' y' e, se.strip x y = some (x', y') →
    (se.val x e = se.val y e ↔ se.val x' e = se.val y' e)
  /-- the negation of a constant is a constant -/
  constNeg : ∀ x c, se.const x = some c → se.const (se.neg x) = some (-c)
  /-- the sign of a constant is known -/
  constSign : ∀ x c, se.const x = some c → (se.knownNeg x = true ↔ c < 0)
  /-- equal pointers refer to the same expression -/
  same : ∀ x y e, se.same x y = true → se.val x e = se.val y e

/-- `DependenceInfo::isKnownPredicate`, DependenceAnalysis.cpp:1072-1115. -/
def SE.isKnown (se : SE S L Env) (p : Pred) (x y : S) : Bool :=
  let xy := match p with
    | .eq | .ne => (se.strip x y).getD (x, y)
    | _ => (x, y)
  if !se.nest xy.1 xy.2 then false
  else if se.known p xy.1 xy.2 then true
  else
    let delta := se.minus xy.1 xy.2
    match p with
    | .eq => se.const delta == some 0
    | .ne => se.knownNonZero delta
    | .sge => se.knownNonNeg delta
    | .sle => se.knownNonPos delta
    | .sgt => se.knownPos delta
    | .slt => se.knownNeg delta

/-- The answer "known" of `isKnownPredicate` is right in every state without overflows. -/
theorem SE.Laws.isKnown {se : SE S L Env} (h : se.Laws) {p : Pred} {x y : S} (e : Env)
    (hk : se.isKnown p x y = true) : p.Holds (se.val x e) (se.val y e) := by
  have hxy : ∀ x y : S, (if !se.nest x y then false
      else if se.known p x y then true
      else match p with
        | .eq => se.const (se.minus x y) == some 0
        | .ne => se.knownNonZero (se.minus x y)
        | .sge => se.knownNonNeg (se.minus x y)
        | .sle => se.knownNonPos (se.minus x y)
        | .sgt => se.knownPos (se.minus x y)
        | .slt => se.knownNeg (se.minus x y)) = true → p.Holds (se.val x e) (se.val y e) := by
    intro x y hk
    split at hk
    · cases hk
    · split at hk
      · exact h.known _ _ _ e (by assumption)
      · have hm := h.minus x y e
        cases p <;> simp only [Pred.Holds] at *
        · have := h.const _ _ e (by simpa using hk); omega
        · have := h.knownNonZero _ e hk; omega
        · have := h.knownNonNeg _ e hk; omega
        · have := h.knownNonPos _ e hk; omega
        · have := h.knownPos _ e hk; omega
        · have := h.knownNeg _ e hk; omega
  unfold SE.isKnown at hk
  cases p
  case eq =>
    have := hxy _ _ hk
    revert this
    cases hs : se.strip x y with
    | none => exact id
    | some q => exact (h.strip _ _ _ _ e hs).2
  case ne =>
    have := hxy _ _ hk
    revert this
    cases hs : se.strip x y with
    | none => exact id
    | some q => exact fun hn hx => hn ((h.strip _ _ _ _ e hs).1 hx)
  all_goals exact hxy _ _ hk

/-! ## Specification: iterations, collisions and directions -/

/-- `i` is the number of an iteration of a loop: iterations are numbered from zero, and the number
of the last one is the bound (if it is known). -/
def SE.Iter (se : SE S L Env) (e : Env) (l : L) (i : Int) : Prop :=
  0 ≤ i ∧ ∀ u, se.bound l = some u → i ≤ se.val u e

/-- A set of directions between the iteration of the source and the iteration of the destination
(`DVEntry::Direction`, DependenceAnalysis.h:107-116: bit 1 is `LT`, bit 2 is `EQ`, bit 4 is
`GT`). -/
structure Dirs where
  lt : Bool
  eq : Bool
  gt : Bool
  deriving DecidableEq, Repr

namespace Dirs
def all : Dirs := ⟨true, true, true⟩
def none : Dirs := ⟨false, false, false⟩
def LT : Dirs := ⟨true, false, false⟩
def EQ : Dirs := ⟨false, true, false⟩
def GT : Dirs := ⟨false, false, true⟩
def LE : Dirs := ⟨true, true, false⟩
def GE : Dirs := ⟨false, true, true⟩
def NE : Dirs := ⟨true, false, true⟩
/-- `Direction &= …` -/
def inter (a b : Dirs) : Dirs := ⟨a.lt && b.lt, a.eq && b.eq, a.gt && b.gt⟩
/-- The direction of a pair of iterations belongs to the set. -/
def Has (d : Dirs) (i j : Int) : Prop :=
  (i < j → d.lt = true) ∧ (i = j → d.eq = true) ∧ (j < i → d.gt = true)
end Dirs

/-- One level of the direction vector, `Dependence::DVEntry`, DependenceAnalysis.h:106-124
(`Scalar` is not changed by the tests). -/
structure Dv (S : Type) where
  dir : Dirs
  distance : Option S
  peelFirst : Bool
  peelLast : Bool
  splitable : Bool

/-- What is told about a level holds for a pair of iterations: the direction is listed, the distance
(if it is given) is the distance between the iterations, if it is told that peeling the first (the
last) iteration breaks the dependence, then one of two iterations is the first (the last) one. -/
structure SE.Covers (se : SE S L Env) (e : Env) (l : L) (dv : Dv S) (i j : Int) : Prop where
  dir : dv.dir.Has i j
  distance : ∀ d, dv.distance = some d → se.val d e = j - i
  first : dv.peelFirst = true → i = 0 ∨ j = 0
  last : dv.peelLast = true → ∃ u, se.bound l = some u ∧ (i = se.val u e ∨ j = se.val u e)

/-- A constraint on a pair of iterations of a loop, `DependenceInfo::Constraint`,
DependenceAnalysis.h:424-…, DependenceAnalysis.cpp:325-410.  `any` is also the state before a test
assigns the constraint. -/
inductive Con (S : Type)
  | any
  | empty
  | point (x y : S)
  | distance (d : S)
  | line (a b c : S)

/-- Meaning of a constraint. -/
def SE.Sat (se : SE S L Env) (e : Env) : Con S → Int → Int → Prop
  | .any, _, _ => True
  | .empty, _, _ => False
  | .point x y, i, j => i = se.val x e ∧ j = se.val y e
  | .distance d, i, j => j - i = se.val d e
  | .line a b c, i, j => se.val a e * i + se.val b e * j = se.val c e

theorem Dirs.has_inter {a b : Dirs} {i j : Int} : (a.inter b).Has i j ↔ a.Has i j ∧ b.Has i j := by
  cases a; cases b
  simp only [Dirs.inter, Dirs.Has, Bool.and_eq_true]
  constructor
  · rintro ⟨h1, h2, h3⟩
    exact ⟨⟨fun h => (h1 h).1, fun h => (h2 h).1, fun h => (h3 h).1⟩,
      ⟨fun h => (h1 h).2, fun h => (h2 h).2, fun h => (h3 h).2⟩⟩
  · rintro ⟨⟨a1, a2, a3⟩, b1, b2, b3⟩
    exact ⟨fun h => ⟨a1 h, b1 h⟩, fun h => ⟨a2 h, b2 h⟩, fun h => ⟨a3 h, b3 h⟩⟩

theorem Dirs.not_has_none (i j : Int) : ¬ Dirs.none.Has i j := by
  intro ⟨h1, h2, h3⟩
  simp only [Dirs.none, Bool.false_eq_true, imp_false] at *
  omega

theorem Dirs.ne_none {d : Dirs} {i j : Int} (h : d.Has i j) : d ≠ Dirs.none := by
  rintro rfl; exact Dirs.not_has_none _ _ h

end Tsar.DepTest
