import Verif.Loop.Model

/-!
# What a loop header executes

Specification of the properties of `Verif/Loop/Props.lean`, independent of the reversal.
-/

namespace Tsar.Loop

/-- Execution of a loop with header `h` when the induction variable has the value `i`:
`Runs h i l f` says that the body is executed for the values of `l`, one after another, and the
variable has the value `f` when the loop stops.  Undefined behaviour has no run, and so does an
infinite loop. -/
inductive Runs (h : Header) : ℤ → List ℤ → ℤ → Prop
  | stop {i : ℤ} : ¬ h.test i → Runs h i [] i
  | step {i j f : ℤ} {l : List ℤ} : h.test i → h.next i = some j → Runs h j l f →
      Runs h i (i :: l) f

/-- Amount the increment of a source loop adds to the induction variable. -/
def Header.delta (h : Header) : ℤ :=
  match h.inc with
  | .unary up => if up then 1 else -1
  | .compound add s => if add then s else -s
  | .assignAdd _ s => s
  | .assignSub _ s => -s

/-- Value of the step text of the increment. -/
def Header.stepText (h : Header) : ℤ :=
  match h.inc with
  | .unary _ => 1
  | .compound _ s => s
  | .assignAdd _ s => s
  | .assignSub _ s => s

/-- The increment has one of the forms accepted in a source program. -/
def Header.Source (h : Header) : Prop :=
  match h.inc with
  | .assignAdd neg _ => neg = false
  | .assignSub neg _ => neg = false
  | _ => True

/-- The condition bounds the induction variable from above. -/
def Header.Less (h : Header) : Prop :=
  if h.onRight then h.op = .gt ∨ h.op = .ge else h.op = .lt ∨ h.op = .le

instance (h : Header) : Decidable h.Less := by unfold Header.Less; infer_instance

/-- The last value the condition admits: the bound, or its neighbour for a strict comparison. -/
def Header.edge (h : Header) : ℤ :=
  if h.op = .le ∨ h.op = .ge then h.bound
  else if h.Less then h.bound - 1 else h.bound + 1

/-- The increment moves the induction variable towards the bound. -/
def Header.Consistent (h : Header) : Prop :=
  (h.Less ∧ 0 < h.delta) ∨ (¬ h.Less ∧ h.delta < 0)

/-- The increment is `++` or `--`. -/
def Header.IsUnary (h : Header) : Prop := ∃ up, h.inc = .unary up

/-- Contract of the analysis server (`DIDependenceAnalysis.cpp:1704-1757`): the constants of the
induction trait of a loop which executes the iterations `l` are its initial value, its step and
`Start + BackedgeCount * Step` in the arithmetic of `APSInt`, where the number of taken back edges
of a loop tested at the top is the number of its iterations. -/
def Consts.Describes (c : Consts) (h : Header) (l : List ℤ) : Prop :=
  (∀ v, c.start = some v → v = h.init) ∧
  (∀ v, c.step = some v → v = h.ty.wrap h.delta) ∧
  (∀ v, c.fin = some v → v = h.ty.wrap (h.init + l.length * h.delta))

/-- `h'` executes exactly the iterations of `h`, in the opposite order. -/
def Reverses (h' h : Header) : Prop :=
  ∀ l f, Runs h h.init l f → ∃ f', Runs h' h'.init l.reverse f'

end Tsar.Loop
