import Verif.Propagate.Props
/-!
# Declarations which are available in a point of propagation

`findAvailableDecls` and `rememberPossibleAssignment` of lib/Transform/Clang/ExprPropagation.cpp for a sequence of
assignments. Local variables are promoted to registers, values of global variables and memory are read by loads.

Simplifications: there are no calls and no branches; instructions of one statement with the same operands are the same
value; `findMetadata` gives all local variables which hold a value in a point (C111).
-/
namespace Tsar.Propagate

/-- An assignment to a variable or to memory. -/
inductive Cmd where
  | set (x : Nat) (e : E)
  | store (a e : E)

/-- A value in SSA form. `i` is a number of a statement an instruction is generated for. -/
inductive Val where
  | arg (d : Nat)
  | num (c : Int)
  | bin (i f : Nat) (a b : Val)
  | gload (i g : Nat)
  | load (i : Nat) (a : Val)
deriving DecidableEq

variable (op : Nat → Int → Int → Int) (glob : Nat → Bool)

/-- Execution of an assignment. -/
def Cmd.exec (s : Env) : Cmd → Env
  | .set x e => { s with var := fun d => if d = x then e.eval op s else s.var d }
  | .store a e => { s with mem := fun p => if p = a.eval op s then e.eval op s else s.mem p }

/-- The state before the statement `i`. -/
def stateAt (s : Env) (prog : List Cmd) (i : Nat) : Env := (prog.take i).foldl (Cmd.exec op) s

/-- The value an expression is compiled to. -/
def sym (i : Nat) (ρ : Nat → Val) : E → Val
  | .num c => .num c
  | .ref _ d => if glob d then .gload i d else ρ d
  | .bin f a b => .bin i f (sym i ρ a) (sym i ρ b)
  | .load a => .load i (sym i ρ a)
  | .loc _ e => sym i ρ e

/-- Values of local variables (`llvm.dbg.value`) before the statement `i`. -/
def symAt (prog : List Cmd) : Nat → Nat → Val
  | 0 => Val.arg
  | i + 1 =>
    match prog[i]? with
    | some (.set x e) => if glob x then symAt prog i else fun d => if d = x then sym glob i (symAt prog i) e else symAt prog i d
    | _ => symAt prog i

/-- Operands of an instruction and their operands: `Ops`, ExprPropagation.cpp:718-727. -/
def Val.ops : Val → List Val
  | .arg d => [.arg d]
  | .num c => [.num c]
  | .bin i f a b => .bin i f a b :: (a.ops ++ b.ops)
  | .gload i g => [.gload i g]
  | .load i a => .load i a :: a.ops

/-- `rememberPossibleAssignment`, ExprPropagation.cpp:796-806: variables which hold the value in a point of usage. -/
def candidates (locals : List Nat) (ρ : Nat → Val) (v : Val) : List Nat := locals.filter fun d => ρ d == v

/-- `findAvailableDecls`, ExprPropagation.cpp:728-772. `ptr` is set for global variables with a pointer type. -/
def available (locals globals : List Nat) (ptr : Nat → Bool) (ρ : Nat → Val) (v : Val) : List Nat :=
  (locals.filter fun d => v.ops.contains (ρ d)) ++
  globals.filter fun g => !ptr g && v.ops.any fun o => match o with | .gload _ g' => g' == g | _ => false

/-- A usage of the value of the statement `k` before the statement `n`. -/
def usageOf (locals globals : List Nat) (ptr : Nat → Bool) (prog : List Cmd) (k n loc : Nat) (rhs : E) : Usage :=
  ⟨loc, candidates locals (symAt glob prog n) (sym glob k (symAt glob prog k) rhs),
    available locals globals ptr (symAt glob prog n) (sym glob k (symAt glob prog k) rhs)⟩

/-- The number a value denotes, `st` gives states of an execution. -/
def Val.val (st : Nat → Env) : Val → Int
  | .arg d => (st 0).var d
  | .num c => c
  | .bin _ f a b => op f (a.val st) (b.val st)
  | .gload i g => (st i).var g
  | .load i a => (st i).mem (a.val st)

variable {op} {glob}

theorem sym_val {st : Nat → Env} {i : Nat} {ρ : Nat → Val} (h : ∀ d, glob d = false → (st i).var d = (ρ d).val op st) :
    ∀ (e : E), (sym glob i ρ e).val op st = e.eval op (st i) := by
  intro e
  induction e with
  | num c => rfl
  | ref p d =>
    simp only [sym, E.eval]
    cases hg : glob d with
    | true => rfl
    | false => exact (h d hg).symm
  | bin f a b iha ihb => simp only [sym, Val.val, E.eval, iha, ihb]
  | load a ih => simp only [sym, Val.val, E.eval, ih]
  | loc l e ih => exact ih

theorem stateAt_succ {s : Env} {prog : List Cmd} {i : Nat} {c : Cmd} (h : prog[i]? = some c) :
    stateAt op s prog (i + 1) = c.exec op (stateAt op s prog i) := by
  simp only [stateAt]
  rw [List.take_add_one, h]
  simp

theorem stateAt_end {s : Env} {prog : List Cmd} {i : Nat} (h : prog[i]? = none) :
    stateAt op s prog (i + 1) = stateAt op s prog i := by
  simp only [stateAt]
  rw [List.take_add_one, h]
  simp

/-- Values in SSA form are right. -/
theorem symAt_val {s : Env} {prog : List Cmd} : ∀ (i d : Nat), glob d = false →
    (stateAt op s prog i).var d = (symAt glob prog i d).val op (stateAt op s prog) := by
  intro i
  induction i with
  | zero => intro d _; rfl
  | succ i ih =>
    intro d hd
    simp only [symAt]
    cases hp : prog[i]? with
    | none => rw [stateAt_end hp]; exact ih d hd
    | some c =>
      rw [stateAt_succ hp]
      cases c with
      | store a e => exact ih d hd
      | set x e =>
        simp only [Cmd.exec]
        cases hx : glob x with
        | true =>
          simp only [if_true]
          rw [if_neg (by rintro rfl; simp [hx] at hd)]
          exact ih d hd
        | false =>
          simp only [Bool.false_eq_true, if_false]
          by_cases hdx : d = x
          · rw [if_pos hdx, if_pos hdx, sym_val ih]
          · rw [if_neg hdx, if_neg hdx]
            exact ih d hd

theorem frame {s : Env} {prog : List Cmd} {d k : Nat} : ∀ (m : Nat),
    (∀ j, k ≤ j → j < k + m → ∀ e, prog[j]? ≠ some (.set d e)) →
    (stateAt op s prog (k + m)).var d = (stateAt op s prog k).var d := by
  intro m
  induction m with
  | zero => intro _; rfl
  | succ m ih =>
    intro h
    rw [← ih (fun j h1 h2 => h j h1 (by omega)), ← Nat.add_assoc]
    cases hp : prog[k + m]? with
    | none => rw [stateAt_end hp]
    | some c =>
      rw [stateAt_succ hp]
      cases c with
      | store a e => rfl
      | set x e =>
        simp only [Cmd.exec]
        rw [if_neg (by rintro rfl; exact h (k + m) (by omega) (by omega) e hp)]

theorem frame_mem {s : Env} {prog : List Cmd} {k : Nat} : ∀ (m : Nat),
    (∀ j, k ≤ j → j < k + m → ∀ a e, prog[j]? ≠ some (.store a e)) →
    (stateAt op s prog (k + m)).mem = (stateAt op s prog k).mem := by
  intro m
  induction m with
  | zero => intro _; rfl
  | succ m ih =>
    intro h
    rw [← ih (fun j h1 h2 => h j h1 (by omega)), ← Nat.add_assoc]
    cases hp : prog[k + m]? with
    | none => rw [stateAt_end hp]
    | some c =>
      rw [stateAt_succ hp]
      cases c with
      | set x e => rfl
      | store a e => exact absurd hp (h (k + m) (by omega) (by omega) a e)

/-- **C113.** A candidate for a replacement holds the value which was computed by the right-hand side, whatever is
assigned between the points. -/
theorem candidate_value {s : Env} {prog : List Cmd} {locals globals : List Nat} {ptr : Nat → Bool} {k n loc : Nat}
    {rhs : E} (hloc : ∀ d ∈ locals, glob d = false) {D : Nat}
    (hD : D ∈ (usageOf glob locals globals ptr prog k n loc rhs).cand) :
    (stateAt op s prog n).var D = rhs.eval op (stateAt op s prog k) := by
  simp only [usageOf, candidates, List.mem_filter, beq_iff_eq] at hD
  rw [symAt_val n D (hloc D hD.1), hD.2, sym_val (fun d hd => symAt_val k d hd)]

/-- **C113.** The result of the analysis is right (it may be used in `propagate_partial`) if neither variables of the
right-hand side nor memory it reads are assigned between the points. The last condition has to follow from
availability, but it does not: see `avail_fails`, `copy_fails`, `global_fails`, `memory_fails`. -/
theorem avail_partial {S : Src} {s : Env} {prog : List Cmd} {locals globals : List Nat} {ptr : Nat → Bool}
    {k n loc : Nat} {rhs : E} (hloc : ∀ d ∈ locals, glob d = false) (hkn : k ≤ n)
    (hvar : ∀ d ∈ rhs.refs, ∀ j, k ≤ j → j < n → ∀ e, prog[j]? ≠ some (.set d e))
    (hmem : rhs.reads = true → ∀ j, k ≤ j → j < n → ∀ a e, prog[j]? ≠ some (.store a e)) :
    DefFact S op (stateAt op s prog n) rhs (usageOf glob locals globals ptr prog k n loc rhs) := by
  obtain ⟨m, rfl⟩ := Nat.exists_eq_add_of_le hkn
  refine ⟨stateAt op s prog k, fun D hD => candidate_value hloc hD, ?_, ?_⟩
  · intro v hv _
    exact frame m (hvar v hv)
  · intro hr
    exact frame_mem m (hmem hr)

/-- **C113.** The condition which the analysis has to check for local variables: a variable holds the same SSA value in
both points. Then it has the same value, even if it is assigned between the points. -/
theorem same_value {s : Env} {prog : List Cmd} {k n d : Nat} (hd : glob d = false)
    (h : symAt glob prog n d = symAt glob prog k d) :
    (stateAt op s prog n).var d = (stateAt op s prog k).var d := by
  rw [symAt_val n d hd, symAt_val k d hd, h]

/-- A wrong replacement: all references of the right-hand side `rhs` of the statement `k` are available before the
statement `n`, `x` is a candidate, but the value of the right-hand side is not the value of `x` any more. -/
def Wrong (prog : List Cmd) (locals globals : List Nat) (ptr glob : Nat → Bool) (k n x : Nat) (rhs : E)
    (op : Nat → Int → Int → Int) (s : Env) : Prop :=
  prog[k]? = some (.set x rhs) ∧ k < n ∧ x ∈ (usageOf glob locals globals ptr prog k n 0 rhs).cand ∧
  (∀ d ∈ rhs.refs, d ∈ (usageOf glob locals globals ptr prog k n 0 rhs).avail) ∧
  rhs.eval op (stateAt op s prog n) ≠ (stateAt op s prog n).var x

/-- Multiplication (0), addition (any other operation). -/
def arith (f : Nat) (a b : Int) : Int := if f = 0 then a * b else a + b

/-- **C113, negation.** `x = d * 2; d = 2; use(x)`: `d` is available because it holds the constant 2 which is an operand
of the multiplication. So `x` is replaced with `(d * 2)`. -/
theorem avail_fails : ∃ prog locals globals ptr glob k n x rhs op s,
    Wrong prog locals globals ptr glob k n x rhs op s ∧ ∀ d, glob d = false := by
  refine ⟨[.set 1 (.bin 0 (.ref true 0) (.num 2)), .set 0 (.num 2)], [0, 1], [], fun _ => false, fun _ => false, 0, 2, 1,
    .bin 0 (.ref true 0) (.num 2), arith, ⟨fun _ => 5, fun _ => 0⟩, ⟨rfl, by decide, by decide, by decide, by decide⟩,
    fun _ => rfl⟩

/-- **C113, negation.** `d = a; d = d + 1; x = d * 3; d = a; use(x)`: `d` holds `a` which is an operand of an operand of
the multiplication, so `x` is replaced with `(d * 3)`. -/
theorem copy_fails : ∃ (prog : List Cmd) (locals globals : List Nat) (ptr glob : Nat → Bool) (k n x : Nat) (rhs : E) (op : Nat → Int → Int → Int) (s : Env),
    Wrong prog locals globals ptr glob k n x rhs op s ∧ (∀ d, glob d = false) ∧
    ∀ (i y : Nat) (c : Int), prog[i]? ≠ some (.set y (.num c)) := by
  refine ⟨[.set 1 (.ref true 0), .set 1 (.bin 1 (.ref true 1) (.num 1)), .set 2 (.bin 0 (.ref true 1) (.num 3)),
    .set 1 (.ref true 0)], [0, 1, 2], [], fun _ => false, fun _ => false, 2, 4, 2, .bin 0 (.ref true 1) (.num 3), arith,
    ⟨fun _ => 5, fun _ => 0⟩, ⟨rfl, by decide, by decide, by decide, by decide⟩, fun _ => rfl, ?_⟩
  intro i y c
  match i with
  | 0 => simp
  | 1 => simp
  | 2 => simp
  | 3 => simp
  | n + 4 => simp

/-- **C113, negation.** `x = G; G = 7; use(x)` for a global variable `G` which is not a pointer: it is always
considered as available. -/
theorem global_fails : ∃ prog locals globals ptr glob k n x rhs op s,
    Wrong prog locals globals ptr glob k n x rhs op s ∧ ∃ g, rhs = .ref true g ∧ glob g = true := by
  refine ⟨[.set 1 (.ref true 0), .set 0 (.num 7)], [1], [0], fun _ => false, fun d => d == 0, 0, 2, 1, .ref true 0, arith,
    ⟨fun _ => 5, fun _ => 0⟩, ⟨rfl, by decide, by decide, by decide, by decide⟩, 0, rfl, rfl⟩

/-- **C113, negation.** `x = *p; *p = 7; use(x)`: `p` is available, so `x` is replaced with `(*p)`. -/
theorem memory_fails : ∃ prog locals globals ptr glob k n x rhs op s,
    Wrong prog locals globals ptr glob k n x rhs op s ∧ ∃ p, rhs = .load (.ref true p) ∧ ∀ d, glob d = false := by
  refine ⟨[.set 1 (.load (.ref true 0)), .store (.ref true 0) (.num 7)], [0, 1], [], fun _ => false, fun _ => false, 0, 2, 1,
    .load (.ref true 0), arith, ⟨fun _ => 5, fun _ => 0⟩, ⟨rfl, by decide, by decide, by decide, by decide⟩, 0, rfl,
    fun _ => rfl⟩

-- `x = d * 2; y = x; use(x)`: the hypotheses of `avail_partial` hold, both `x` and `y` are candidates, `d` is available.
example : (usageOf (fun _ => false) [0, 1, 2] [] (fun _ => false)
      [.set 1 (.bin 0 (.ref true 0) (.num 2)), .set 2 (.ref true 1)] 0 2 9 (.bin 0 (.ref true 0) (.num 2))).cand = [1, 2] := by
  decide
example : (usageOf (fun _ => false) [0, 1, 2] [] (fun _ => false)
      [.set 1 (.bin 0 (.ref true 0) (.num 2)), .set 2 (.ref true 1)] 0 2 9 (.bin 0 (.ref true 0) (.num 2))).avail =
    [0, 1, 2] := by
  decide
-- `x = d * 3; d = 5; use(x)`: `d` is not available.
example : (usageOf (fun _ => false) [0, 1] [] (fun _ => false)
      [.set 1 (.bin 0 (.ref true 0) (.num 3)), .set 0 (.num 5)] 0 2 9 (.bin 0 (.ref true 0) (.num 3))).avail = [1] := by
  decide
example (s : Env) : DefFact ⟨id, fun _ => false, []⟩ arith
    (stateAt arith s [.set 1 (.bin 0 (.ref true 0) (.num 2)), .set 2 (.ref true 1)] 2) (.bin 0 (.ref true 0) (.num 2))
    (usageOf (fun _ => false) [0, 1, 2] [] (fun _ => false)
      [.set 1 (.bin 0 (.ref true 0) (.num 2)), .set 2 (.ref true 1)] 0 2 9 (.bin 0 (.ref true 0) (.num 2))) := by
  refine avail_partial (fun _ _ => rfl) (by omega) ?_ (by simp [E.reads])
  intro d hd j _ hj e
  simp only [E.refs, List.append_nil, List.mem_singleton] at hd
  subst hd
  match j, hj with
  | 0, _ => simp
  | 1, _ => simp

end Tsar.Propagate
