import Mathlib.Data.List.Basic
import Mathlib.Logic.Function.Basic

/-!
# Analysis of captured arguments

Model of `NoCaptureAnalysis::isCaptured` (`lib/Transform/IR/NoCaptureAnalysis.cpp`), which decides
whether the attribute `nocapture` is attached to a parameter of a function.

Values of a function are numbers.  An instruction is a value too, as in LLVM.
-/

namespace Tsar.NoCapture

/-- What is known about the called function: `isVarArg()`, the attribute `LibFunc`,
`returnDoesNotAlias()`, attributes `nocapture` of parameters.  `noPtr` is not used by the analysis
(it is used in the specification): memory which a `noalias` function returns contains no pointers. -/
structure Callee where
  vararg : Bool := false
  lib : Bool := false
  noalias : Bool := false
  noPtr : Bool := true
  nocap : List Bool := []
  deriving Repr

/-- Kind of a value.  Operands which are not pointers are omitted for `getelementptr`, a called
pointer is the last operand of an indirect call (`callee = none`).
`const`: other constants; `other`: other instructions. -/
inductive Kind
  | arg
  | global
  | const
  | load (p : Nat)
  | store (v p : Nat)
  | gep (p : Nat)
  | bitcast (p : Nat)
  | alloca
  | call (c : Option Callee) (ops : List Nat)
  | other (ops : List Nat)
  deriving Repr

/-- A function: kinds of values and lists of uses (`none`: the user is not an instruction; the
number of an operand). -/
structure Func where
  kind : Nat → Kind
  uses : Nat → List (Option Nat × Nat)

/-- Result of an application of a constraint. -/
inductive Res
  | fail
  | crash
  | ok (next : Option (Nat × Int))
  deriving DecidableEq, Repr

/-- `applyDefinitionConstraint`: NoCaptureAnalysis.cpp:177-232.  For an indirect call
`getCalledFunction()` is null, so the behaviour is undefined (`crash`). -/
def applyDef (F : Func) (v : Nat) (r : Int) : Res :=
  match F.kind v with
  | .arg => if r ≠ 0 then .fail else .ok none
  | .global => .fail
  | .load p => .ok (some (p, r + 1))
  | .call none _ => .crash
  | .call (some c) _ => if c.noalias then .ok none else .fail
  | .gep p => .ok (some (p, r))
  | .alloca => .ok none
  | .bitcast p => .ok (some (p, r))
  | _ => .fail

/-- `applyUsageConstraint`: NoCaptureAnalysis.cpp:234-290.  `crash`: there is no parameter with
the number of an operand. -/
def applyUse (F : Func) (i op : Nat) (r : Int) : Res :=
  match F.kind i with
  | .store v p => if op ≠ 1 then .ok (some (p, r + 1)) else .ok (some (v, r - 1))
  | .load _ => .ok (some (i, r - 1))
  | .gep _ => .ok (some (i, r))
  | .bitcast _ => .ok (some (i, r))
  | .call none _ => .fail
  | .call (some c) _ =>
    if c.vararg && c.lib then .ok none
    else if c.vararg then .fail
    else
      match c.nocap[op]? with
      | some true => .ok none
      | some false => .fail
      | none => .crash
  | _ => .fail

/-- `Registry`, `SeenInstrs` and `Queue`: NoCaptureAnalysis.cpp:117-121. -/
structure St where
  reg : Nat → Option Int
  seen : Nat → Bool := fun _ => false
  queue : List Nat

/-- Registration of the value to which a constraint leads: NoCaptureAnalysis.cpp:132-142, 161-171.
`none`: the value has another rank, so the argument may be captured. -/
def register (st : St) : Option (Nat × Int) → Option St
  | none => some st
  | some (n, r) =>
    match st.reg n with
    | none => some { st with reg := Function.update st.reg n (some r), queue := st.queue ++ [n] }
    | some r' => if r' = r then some st else none

/-- Result of a part of the analysis. -/
inductive Out (α : Type)
  | captured
  | crash
  | ok (a : α)

/-- The loop over uses of a value of the rank `r`: NoCaptureAnalysis.cpp:143-172. -/
def visitUses (F : Func) (r : Int) : List (Option Nat × Nat) → St → Out St
  | [], st => .ok st
  | (none, _) :: _, _ => .captured
  | (some i, op) :: us, st =>
    if st.seen i then visitUses F r us st
    else
      let st := { st with seen := Function.update st.seen i true }
      match applyUse F i op r with
      | .fail => .captured
      | .crash => .crash
      | .ok next =>
        match register st next with
        | none => .captured
        | some st => visitUses F r us st

/-- The body of the main loop for a value of the rank `r`: NoCaptureAnalysis.cpp:126-172. -/
def visit (F : Func) (v : Nat) (r : Int) (st : St) : Out St :=
  if r < 0 then .ok st
  else
    match applyDef F v r with
    | .fail => .captured
    | .crash => .crash
    | .ok next =>
      match register st next with
      | none => .captured
      | some st => visitUses F r (F.uses v) st

/-- The main loop: NoCaptureAnalysis.cpp:122-173.  `none`: the loop is not finished after `fuel`
iterations. -/
def loop (F : Func) : Nat → St → Option (Out St)
  | 0, _ => none
  | fuel + 1, st =>
    match st.queue with
    | [] => some (.ok st)
    | v :: q =>
      match visit F v ((st.reg v).getD (-1)) { st with queue := q } with
      | .captured => some .captured
      | .crash => some .crash
      | .ok st => loop F fuel st

/-- The initial state: NoCaptureAnalysis.cpp:117-121. -/
def start (a : Nat) : St := { reg := Function.update (fun _ => none) a (some 0), queue := [a] }

/-- `isCaptured`: NoCaptureAnalysis.cpp:114-175 (without the test of an existing attribute). -/
def isCaptured (F : Func) (fuel a : Nat) : Option (Out St) := loop F fuel (start a)

/-! ## Specification -/

/-- The operand with a given number. -/
def operand : Kind → Nat → Option Nat
  | .load p, 0 => some p
  | .store v _, 0 => some v
  | .store _ p, 1 => some p
  | .gep p, 0 => some p
  | .bitcast p, 0 => some p
  | .call _ ops, n => ops[n]?
  | .other ops, n => ops[n]?
  | _, _ => none

/-- Lists of uses describe operands of instructions. -/
def UsesOK (F : Func) : Prop :=
  ∀ v i op, operand (F.kind i) op = some v ↔ (some i, op) ∈ F.uses v

/-- An object in memory: an object which exists outside of the function or the object number `k`
created by the instruction `s`. -/
inductive Ob
  | glob (n : Nat)
  | loc (s k : Nat)
  deriving DecidableEq, Repr

/-- A value in memory or in a register: something which is not a pointer or a pointer.  `taint`: the
pointer is a copy of the argument which is checked (or is derived from it). -/
inductive Word
  | data
  | ptr (o : Ob) (off : Int) (taint : Bool)
  deriving DecidableEq, Repr

/-- A pointer moved by `d`. -/
def Word.shift (d : Int) : Word → Word
  | .data => .data
  | .ptr o off t => .ptr o (off + d) t

/-- A pointer derived from the checked argument. -/
def Word.Tainted (w : Word) : Prop := ∃ o off, w = .ptr o off true

/-- Registers and memory. -/
structure State where
  env : Nat → Word
  mem : Ob → Int → Word

/-- Objects which are accessible from objects in `R0`. -/
inductive Reach (mem : Ob → Int → Word) (R0 : Ob → Prop) : Ob → Prop
  | base {o} : R0 o → Reach mem R0 o
  | step {o o' off off' t} : Reach mem R0 o → mem o off = .ptr o' off' t → Reach mem R0 o'

/-- Objects which are accessible to a called function: objects which exist outside of the function
and objects to which operands point. -/
def Given (σ : State) (ops : List Nat) (o : Ob) : Prop :=
  (∃ n, o = .glob n) ∨ ∃ x ∈ ops, ∃ off t, σ.env x = .ptr o off t

/-- Words which a called function can write or return: pointers to objects outside of the function,
words from accessible memory and operands which are not `nocapture`. -/
inductive Avail (σ : State) (ops : List Nat) (nocap : Nat → Bool) : Word → Prop
  | data : Avail σ ops nocap .data
  | glob {n off} : Avail σ ops nocap (.ptr (.glob n) off false)
  | mem {o off d} : Reach σ.mem (Given σ ops) o → Avail σ ops nocap ((σ.mem o off).shift d)
  | op {j x d} : ops[j]? = some x → nocap j = false → Avail σ ops nocap ((σ.env x).shift d)

/-- What a called function can do with memory: only accessible memory is changed. -/
def Effect (σ : State) (ops : List Nat) (nocap : Nat → Bool) (mem' : Ob → Int → Word) : Prop :=
  ∀ o off, mem' o off = σ.mem o off ∨
    (Reach σ.mem (Given σ ops) o ∧ Avail σ ops nocap (mem' o off))

/-- Whether an operand is not captured by a call. -/
def nocapAt (c : Option Callee) (op : Nat) : Bool :=
  match c with
  | none => false
  | some c => if c.vararg then c.lib else c.nocap[op]?.getD false

/-- Execution of the instruction `i`.  Control flow is not restricted: the next instruction may be
any instruction of the function. -/
inductive Exec (F : Func) (i : Nat) : State → State → Prop
  | store {σ v p o off t} : F.kind i = .store v p → σ.env p = .ptr o off t →
      Exec F i σ { σ with mem := fun o' off' => if o' = o ∧ off' = off then σ.env v
                                               else σ.mem o' off' }
  | load {σ p o off t} : F.kind i = .load p → σ.env p = .ptr o off t →
      Exec F i σ { σ with env := Function.update σ.env i (σ.mem o off) }
  | gep {σ p} (d : Int) : F.kind i = .gep p →
      Exec F i σ { σ with env := Function.update σ.env i ((σ.env p).shift d) }
  | bitcast {σ p} : F.kind i = .bitcast p →
      Exec F i σ { σ with env := Function.update σ.env i (σ.env p) }
  | alloca {σ} (k : Nat) : F.kind i = .alloca →
      Exec F i σ { env := Function.update σ.env i (.ptr (.loc i k) 0 false)
                   mem := fun o off => if o = .loc i k then .data else σ.mem o off }
  | call {σ c ops mem' w} : F.kind i = .call c ops → (∀ c', c = some c' → c'.noalias = false) →
      Effect σ ops (nocapAt c) mem' → Avail σ ops (nocapAt c) w →
      Exec F i σ { env := Function.update σ.env i w, mem := mem' }
  | new {σ c ops mem' k} {init : Int → Word} : F.kind i = .call (some c) ops → c.noalias = true →
      Effect σ ops (nocapAt (some c)) mem' →
      (∀ off, Avail σ ops (nocapAt (some c)) (init off)) →
      (c.noPtr = true → ∀ off, init off = .data) →
      Exec F i σ { env := Function.update σ.env i (.ptr (.loc i k) 0 false)
                   mem := fun o off => if o = .loc i k then init off else mem' o off }
  | other {σ ops mem' w} : F.kind i = .other ops → Effect σ ops (fun _ => false) mem' →
      Avail σ ops (fun _ => false) w →
      Exec F i σ { env := Function.update σ.env i w, mem := mem' }

/-- The state at the entry of the function: the argument `a` is the only word derived from it,
there are no local objects. -/
structure Entry (F : Func) (a : Nat) (σ : State) : Prop where
  arg : ∃ n off, σ.env a = .ptr (.glob n) off true
  env : ∀ v, v ≠ a → (σ.env v = .data ∨ ∃ n off, σ.env v = .ptr (.glob n) off false)
  inst : ∀ v, v ≠ a → F.kind v ≠ .arg → F.kind v ≠ .global → σ.env v = .data
  mem : ∀ o off, σ.mem o off = .data ∨ ∃ n off', σ.mem o off = .ptr (.glob n) off' false
  local_ : ∀ s k off, σ.mem (.loc s k) off = .data

/-- States of executions. -/
inductive Reachable (F : Func) (a : Nat) : State → Prop
  | entry {σ} : Entry F a σ → Reachable F a σ
  | step {σ σ'} (i : Nat) : Reachable F a σ → Exec F i σ σ' → Reachable F a σ'

/-- The argument is captured: a pointer derived from it is in memory which is accessible from
outside of the function. -/
def Captured (σ : State) : Prop :=
  ∃ o off, Reach σ.mem (fun o => ∃ n, o = .glob n) o ∧ (σ.mem o off).Tainted

/-- The value `v` is connected with the argument `a` at the depth `r`: `r` loads from `v` may give
the argument (or `v` is compatible with such values). -/
inductive Rel (F : Func) (a : Nat) : Nat → Int → Prop
  | arg : Rel F a a 0
  | gep {i p r} : F.kind i = .gep p → 0 ≤ r → Rel F a p r → Rel F a i r
  | gepUp {i p r} : F.kind i = .gep p → 0 ≤ r → Rel F a i r → Rel F a p r
  | cast {i p r} : F.kind i = .bitcast p → 0 ≤ r → Rel F a p r → Rel F a i r
  | castUp {i p r} : F.kind i = .bitcast p → 0 ≤ r → Rel F a i r → Rel F a p r
  | load {i p r} : F.kind i = .load p → 0 ≤ r → Rel F a p r → Rel F a i (r - 1)
  | loadUp {i p r} : F.kind i = .load p → 0 ≤ r → Rel F a i r → Rel F a p (r + 1)
  | store {i v p r} : F.kind i = .store v p → 0 ≤ r → Rel F a v r → Rel F a p (r + 1)
  | storeUp {i v p r} : F.kind i = .store v p → 0 ≤ r → Rel F a p r → Rel F a v (r - 1)

/-- At most one operand of each call is connected with the argument. -/
def Once (F : Func) (a : Nat) : Prop :=
  ∀ (i : Nat) (c : Option Callee) (ops : List Nat), F.kind i = .call c ops →
    ∀ (j k x y : Nat) (r s : Int), ops[j]? = some x → ops[k]? = some y →
    0 ≤ r → 0 ≤ s → Rel F a x r → Rel F a y s → j = k

/-- Memory which may contain the argument is not passed to calls. -/
def Shallow (F : Func) (a : Nat) : Prop :=
  ∀ i c ops, F.kind i = .call c ops → ∀ x ∈ ops, ∀ r, Rel F a x r → r ≤ 0

/-- Memory which `noalias` functions return contains no pointers. -/
def NewEmpty (F : Func) : Prop :=
  ∀ i c ops, F.kind i = .call (some c) ops → c.noalias = true → c.noPtr = true

end Tsar.NoCapture
