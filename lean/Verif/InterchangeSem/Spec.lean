import Verif.InterchangeSem.Model

/-!
# Meaning of nests of loops and of results of analysis (C171, C172)
-/

namespace Tsar.InterchangeSem

/-! ## Execution of a nest -/

/-- Execution of a loop with a body `B`: the condition is checked, then the body is executed and the
variable is increased. -/
inductive Iter (h : Hdr) (B : State → State → Prop) : State → State → Prop
  | done {s : State} (hc : ¬ s h.var < h.stop.eval s) : Iter h B s s
  | step {s s₁ t : State} (hc : s h.var < h.stop.eval s) (hb : B s s₁)
      (hr : Iter h B (upd s₁ h.var (s₁ h.var + h.step.eval s₁)) t) : Iter h B s t

/-- Execution of a perfect nest with given headers and a body from a state to a final state. -/
def Exec (body : State → State) : List Hdr → State → State → Prop
  | [], s, t => t = body s
  | h :: hs, s, t => Iter h (Exec body hs) (upd s h.var (h.start.eval s)) t

/-! ## Iterations and their accesses -/

/-- Induction variables of a nest. -/
def IsVar (hs : List Hdr) (x : Loc) : Prop := ∃ h ∈ hs, h.var = x

/-- An iteration of a nest: values of induction variables, zero is used for other locations. -/
abbrev Vec := Loc → ℤ

open Classical in
/-- The iteration which is executed in a given state. -/
noncomputable def vecOf (hs : List Hdr) (s : State) : Vec :=
  fun x => if IsVar hs x then s x else 0

/-- Iterations of a nest with bounds which are evaluated in a state `s`. -/
def Space (hs : List Hdr) (s : State) (v : Vec) : Prop :=
  (∀ h ∈ hs, (∃ i : ℕ, v h.var = h.start.eval s + h.step.eval s * i) ∧
    v h.var < h.stop.eval s) ∧ ∀ x, ¬ IsVar hs x → v x = 0

/-- Accesses of an iteration: locations which may be read before they are written in this iteration
(`R`), locations which may be written (`W`), variables which are accumulated (`red`) by some
operation, and values which are accumulated by an execution of the body. -/
structure Acc where
  R : Vec → Loc → Prop
  W : Vec → Loc → Prop
  red : Loc → Prop
  oper : Loc → ℤ → ℤ → ℤ
  con : State → Loc → ℤ

/-- Accesses describe a body of a nest: only locations from `W` are changed, new values depend on
locations from `R` only, an accumulated variable is combined with a value which depends on locations
from `R`, in any order. -/
structure Describes (hs : List Hdr) (acc : Acc) (body : State → State) : Prop where
  keep : ∀ s x, ¬ acc.W (vecOf hs s) x → body s x = s x
  value : ∀ s t, vecOf hs s = vecOf hs t → (∀ x, acc.R (vecOf hs s) x → s x = t x) →
    ∀ x, acc.W (vecOf hs s) x → ¬ acc.red x →
      body s x = body t x ∨ (body s x = s x ∧ body t x = t x)
  accum : ∀ s x, acc.W (vecOf hs s) x → acc.red x → body s x = acc.oper x (s x) (acc.con s x)
  contrib : ∀ s t, vecOf hs s = vecOf hs t → (∀ x, acc.R (vecOf hs s) x → s x = t x) →
    ∀ x, acc.red x → acc.con s x = acc.con t x
  comm : ∀ x, acc.red x → ∀ a b c, acc.oper x (acc.oper x a b) c = acc.oper x (acc.oper x a c) b

/-! ## Meaning of results of analysis -/

/-- Iterations coincide for the first `n` loops. -/
def SamePrefix (hs : List Hdr) (n : ℕ) (v v' : Vec) : Prop :=
  ∀ j < n, ∀ h, hs[j]? = some h → v h.var = v' h.var

/-- Every location which is read in an iteration is written by another iteration of the nest which
belongs to the same iteration of the loop `i` (so the location is not used before it is written
in an iteration of the loop). -/
def WrittenFirst (hs : List Hdr) (acc : Acc) (s : State) (i : ℕ) (x : Loc) : Prop :=
  ∀ v, Space hs s v → acc.R v x →
    ∃ v', Space hs s v' ∧ SamePrefix hs (i + 1) v v' ∧ v' ≠ v ∧ acc.W v' x

/-- A trait of a location in the loop number `i` is true. -/
def TraitTrue (hs : List Hdr) (acc : Acc) (s : State) (i : ℕ) (x : Loc) : Kind → Prop
  | .noDep => ∀ v v', Space hs s v → Space hs s v' → SamePrefix hs i v v' →
      ¬ SamePrefix hs (i + 1) v v' → acc.W v x → ¬ acc.R v' x ∧ ¬ acc.W v' x
  | .priv => WrittenFirst hs acc s i x
  | .reduction => acc.red x ∧ ∀ v, Space hs s v → ¬ acc.R v x
  | .induction => True
  | .secondToLast => WrittenFirst hs acc s i x
  | .other => True

/-- Results of analysis of the first `m + 1` loops are right for executions which start in a state
`s`: induction variables of loops are different and they are changed by headers only; conditions and
steps of canonical loops are not changed in these loops and steps are positive; each written location
has a trait in each loop and traits are true. -/
structure Right (loops : List Lp) (m : ℕ) (acc : Acc) (s : State) : Prop where
  size : m < loops.length
  distinct : ((loops.take (m + 1)).map fun l => l.hdr.var).Nodup
  fixed : ∀ h ∈ (loops.take (m + 1)).map Lp.hdr, ∀ v, ¬ acc.W v h.var
  invariant : ∀ (k : ℕ) (l : Lp), (loops.take (m + 1))[k]? = some l → l.canonical = true →
    ∀ x, l.hdr.stop.Reads x ∨ l.hdr.step.Reads x →
      (∀ v, ¬ acc.W v x) ∧
      ∀ (j : ℕ) (l' : Lp), k ≤ j → (loops.take (m + 1))[j]? = some l' → l'.hdr.var ≠ x
  positive : ∀ l ∈ loops.take (m + 1), l.canonical = true → ∀ s', 0 < l.hdr.step.eval s'
  covered : ∀ l ∈ loops.take (m + 1), l.canonical = true → l.analyzed = true →
    ∀ v, Space ((loops.take (m + 1)).map Lp.hdr) s v → ∀ x, acc.W v x → ∃ t ∈ l.traits, t.loc = x
  traits : ∀ (i : ℕ) (l : Lp), (loops.take (m + 1))[i]? = some l → l.canonical = true → l.analyzed = true →
    ∀ t ∈ l.traits, TraitTrue ((loops.take (m + 1)).map Lp.hdr) acc s i t.loc t.kind

/-- Values of a location are not required after a nest: the location is private in some loop. -/
def Hidden (loops : List Lp) (m : ℕ) (x : Loc) : Prop :=
  ∃ l ∈ loops.take (m + 1), ∃ t ∈ l.traits, t.loc = x ∧ (t.kind = .priv ∨ t.kind = .secondToLast)

/-- Locations which are read if a value is evaluated, except for locations read by calls. -/
def Loads : Val → Loc → Prop
  | .const _, _ => False
  | .load y, x => x = y
  | .call _ _, _ => False
  | .op _ a b, x => Loads a x ∨ Loads b x

/-- Restrictions: initial values of induction variables are not changed in the nest, and calls in
headers do not read induction variables of the nest. -/
structure Regular (hs : List Hdr) (acc : Acc) : Prop where
  startFixed : ∀ h ∈ hs, ∀ x, h.start.Reads x → ¬ IsVar hs x ∧ ∀ v, ¬ acc.W v x
  noCalls : ∀ h ∈ hs, ∀ x, h.stop.Reads x ∨ h.step.Reads x → IsVar hs x →
    Loads h.stop x ∨ Loads h.step x
/-- The value of a location after an iteration is determined by locations which are read in this
iteration (so the location is written in each iteration). -/
def Determined (hs : List Hdr) (acc : Acc) (body : State → State) (x : Loc) : Prop :=
  ∀ s t, vecOf hs s = vecOf hs t → (∀ y, acc.R (vecOf hs s) y → s y = t y) → body s x = body t x

/-- A loop has at least one iteration. -/
def NonEmpty (s : State) (h : Hdr) : Prop := h.start.eval s < h.stop.eval s

end Tsar.InterchangeSem
