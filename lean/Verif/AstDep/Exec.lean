import Verif.Parallel.Model

/-!
# Sequential and parallel execution of a loop (specification for C100)

This file is a specification. It does not model functions of the analyzer. It describes what the OpenMP
directives which the analyzer inserts mean: how a loop is executed sequentially and how it is executed by a team of
threads if variables are listed in clauses.

An iteration is a program which reads and writes cells of memory. A program may use the read values in an arbitrary
way. A reduction is performed with a separate action, it applies an operation to a cell. An access is direct (`d`) if
it is performed in the text of the loop through a name of a variable. Other accesses, for example accesses in called
functions, never see copies of variables which are listed in clauses.
-/

namespace Tsar
namespace AstDep

open Parallel

variable {L A : Type} [DecidableEq L]

/-- A program which accesses cells `L` with values `A`. -/
inductive Prog (L A : Type) where
  | done
  | read (d : Bool) (l : L) (k : A → Prog L A)
  | write (d : Bool) (l : L) (v : A) (p : Prog L A)
  /-- `l = l op v`, where the operation is specified by a kind of a reduction. -/
  | update (d : Bool) (l : L) (k : RedKind) (v : A) (p : Prog L A)

/-- An executed access. -/
inductive Act (L A : Type) where
  | rd (d : Bool) (l : L) (v : A)
  | wr (d : Bool) (l : L) (v : A)
  | up (d : Bool) (l : L) (k : RedKind) (v : A)

/-- The accessed cell. -/
def Act.loc : Act L A → L
  | .rd _ l _ | .wr _ l _ | .up _ l _ _ => l

/-- The access is direct. -/
def Act.direct : Act L A → Bool
  | .rd d _ _ | .wr d _ _ | .up d _ _ _ => d

/-- The access changes memory. -/
def Act.Changes : Act L A → Prop
  | .rd _ _ _ => False
  | _ => True

/-- The cell is assigned without a use of its previous value. -/
def Act.Assigns (l : L) : Act L A → Prop
  | .wr _ m _ => m = l
  | _ => False

/-- Operations of reductions. -/
structure Ops (A : Type) where
  ap : RedKind → A → A → A
  unit : RedKind → A

/-- An update of memory. -/
def upd (σ : L → A) (l : L) (v : A) : L → A := fun m => if m = l then v else σ m

/-- Accesses which are performed if a program is executed alone. -/
def trace (O : Ops A) : Prog L A → (L → A) → List (Act L A)
  | .done, _ => []
  | .read d l k, σ => .rd d l (σ l) :: trace O (k (σ l)) σ
  | .write d l v p, σ => .wr d l v :: trace O p (upd σ l v)
  | .update d l k v p, σ => .up d l k v :: trace O p (upd σ l (O.ap k (σ l) v))

/-- Memory after a program. -/
def run (O : Ops A) : Prog L A → (L → A) → (L → A)
  | .done, σ => σ
  | .read _ l k, σ => run O (k (σ l)) σ
  | .write _ l v p, σ => run O p (upd σ l v)
  | .update _ l k v p, σ => run O p (upd σ l (O.ap k (σ l) v))

/-- A loop: it has `n` iterations, `hdr l` is a value of a cell `l` of the loop variable at each iteration, these
cells are set by the header of the loop. -/
structure Loop (L A : Type) where
  n : Nat
  hdr : L → Option (Nat → A)
  body : Nat → Prog L A

/-- The header of the loop sets the loop variable. -/
def Loop.head (P : Loop L A) (i : Nat) (σ : L → A) : L → A := fun l =>
  match P.hdr l with
  | some f => f i
  | none => σ l

/-- Memory after the first `i` iterations of the sequential loop. -/
def Loop.seq (O : Ops A) (P : Loop L A) (σ : L → A) : Nat → (L → A)
  | 0 => σ
  | i + 1 => run O (P.body i) (P.head i (P.seq O σ i))

/-- Memory before the body of an iteration of the sequential loop. -/
def Loop.start (O : Ops A) (P : Loop L A) (σ : L → A) (i : Nat) : L → A := P.head i (P.seq O σ i)

/-- Accesses at an iteration of the sequential loop. -/
def Loop.acts (O : Ops A) (P : Loop L A) (σ : L → A) (i : Nat) : List (Act L A) :=
  trace O (P.body i) (P.start O σ i)

/-! ## Parallel execution -/

/-- How a cell is treated if a loop is parallel. -/
inductive Cls where
  /-- There is one cell for all threads. -/
  | shared
  /-- The loop variable. -/
  | loopVar
  /-- Each thread has a copy, which is set to a neutral value at first. All copies are combined at the end. -/
  | red (k : RedKind)
  /-- Each thread has a copy. If `first` then it is set to the original value, otherwise its value is arbitrary. If
  `last` then the value after the last iteration is copied back. -/
  | priv (first last : Bool)
  deriving DecidableEq

/-- A thread: executed iterations, the current iteration and the rest of it, iterations to be executed and copies of
cells. -/
structure Thread (L A : Type) where
  hist : List Nat
  cur : Option (Nat × Prog L A)
  todo : List Nat
  mine : L → A

/-- A state of a team of threads: common memory, values which were copied after the last iteration, accesses which
have been performed by each iteration. -/
structure Team (L A : Type) where
  mem : L → A
  last : L → A
  log : Nat → List (Act L A)
  threads : List (Thread L A)

/-- A value of a cell for a thread. -/
def look (cls : L → Cls) (σ mine : L → A) (d : Bool) (l : L) : A :=
  if cls l = .shared ∨ d = false then σ l else mine l

/-- Appends an access to the log. -/
def logAt (log : Nat → List (Act L A)) (i : Nat) (a : Act L A) : Nat → List (Act L A) :=
  fun j => if j = i then log i ++ [a] else log j

/-- One step of a thread: common memory, copied values, the log and the thread are changed. -/
inductive Step1 (O : Ops A) (P : Loop L A) (cls : L → Cls) :
    (L → A) → (L → A) → (Nat → List (Act L A)) → Thread L A →
    (L → A) → (L → A) → (Nat → List (Act L A)) → Thread L A → Prop
  /-- A new iteration starts. Copies of cells which are not kept between iterations may change. -/
  | begin {σ la log h i todo mine mine'} :
      (∀ l f, P.hdr l = some f → mine' l = f i) →
      (∀ l, P.hdr l = none → cls l ≠ .priv false false → mine' l = mine l) →
      Step1 O P cls σ la log ⟨h, none, i :: todo, mine⟩ σ la log ⟨h, some (i, P.body i), todo, mine'⟩
  | finish {σ la log h i todo mine} :
      Step1 O P cls σ la log ⟨h, some (i, .done), todo, mine⟩
        σ (if i + 1 = P.n then mine else la) log ⟨h ++ [i], none, todo, mine⟩
  | read {σ la log h i d l k todo mine} :
      Step1 O P cls σ la log ⟨h, some (i, .read d l k), todo, mine⟩
        σ la (logAt log i (.rd d l (look cls σ mine d l))) ⟨h, some (i, k (look cls σ mine d l)), todo, mine⟩
  | writeShared {σ la log h i d l v p todo mine} : cls l = .shared ∨ d = false →
      Step1 O P cls σ la log ⟨h, some (i, .write d l v p), todo, mine⟩
        (upd σ l v) la (logAt log i (.wr d l v)) ⟨h, some (i, p), todo, mine⟩
  | writeMine {σ la log h i d l v p todo mine} : cls l ≠ .shared → d = true →
      Step1 O P cls σ la log ⟨h, some (i, .write d l v p), todo, mine⟩
        σ la (logAt log i (.wr d l v)) ⟨h, some (i, p), todo, upd mine l v⟩
  | updateShared {σ la log h i d l k v p todo mine} : cls l = .shared ∨ d = false →
      Step1 O P cls σ la log ⟨h, some (i, .update d l k v p), todo, mine⟩
        (upd σ l (O.ap k (σ l) v)) la (logAt log i (.up d l k v)) ⟨h, some (i, p), todo, mine⟩
  | updateMine {σ la log h i d l k v p todo mine} : cls l ≠ .shared → d = true →
      Step1 O P cls σ la log ⟨h, some (i, .update d l k v p), todo, mine⟩
        σ la (logAt log i (.up d l k v)) ⟨h, some (i, p), todo, upd mine l (O.ap k (mine l) v)⟩

/-- One step of a team: one of threads makes a step. -/
inductive Step (O : Ops A) (P : Loop L A) (cls : L → Cls) : Team L A → Team L A → Prop
  | mk {σ la log a t b σ' la' log' t'} : Step1 O P cls σ la log t σ' la' log' t' →
      Step O P cls ⟨σ, la, log, a ++ t :: b⟩ ⟨σ', la', log', a ++ t' :: b⟩

/-- Any number of steps. -/
inductive Steps (O : Ops A) (P : Loop L A) (cls : L → Cls) : Team L A → Team L A → Prop
  | refl {T} : Steps O P cls T T
  | tail {T U W} : Steps O P cls T U → Step O P cls U W → Steps O P cls T W

/-- A thread before the loop. -/
structure Fresh (O : Ops A) (cls : L → Cls) (σ : L → A) (t : Thread L A) : Prop where
  hist : t.hist = []
  cur : t.cur = none
  first : ∀ l la, cls l = .priv true la → t.mine l = σ l
  red : ∀ l k, cls l = .red k → t.mine l = O.unit k

/-- A team before the loop: each iteration is assigned to one of threads. -/
structure Initial (O : Ops A) (P : Loop L A) (cls : L → Cls) (σ : L → A) (T : Team L A) : Prop where
  mem : T.mem = σ
  log : ∀ i, T.log i = []
  fresh : ∀ t ∈ T.threads, Fresh O cls σ t
  share : (T.threads.flatMap (·.todo)).Perm (List.range P.n)

/-- All iterations have been executed. -/
def Finished (T : Team L A) : Prop := ∀ t ∈ T.threads, t.cur = none ∧ t.todo = []

/-- Memory `τ` after the loop. It is not specified for the loop variable and for private variables. -/
def After (O : Ops A) (P : Loop L A) (cls : L → Cls) (T : Team L A) (τ : L → A) : Prop :=
  ∀ l, match cls l with
    | .shared => τ l = T.mem l
    | .red k => ∃ order : List (Thread L A), order.Perm T.threads ∧
        τ l = (order.map fun t => t.mine l).foldl (O.ap k) (T.mem l)
    | .priv _ true => τ l = if P.n = 0 then T.mem l else T.last l
    | .priv true false => τ l = T.mem l
    | _ => True

/-- The loop is executed in parallel: any distribution of iterations between threads and any order of accesses of
different threads is possible. -/
def RunsParallel (O : Ops A) (P : Loop L A) (cls : L → Cls) (σ τ : L → A) : Prop :=
  ∃ T U, Initial O P cls σ T ∧ Steps O P cls T U ∧ Finished U ∧ After O P cls U τ

/-! ## Behaviour of the sequential loop -/

/-- The iteration accesses the cell. -/
def Accesses (O : Ops A) (P : Loop L A) (σ : L → A) (i : Nat) (l : L) : Prop := ∃ a ∈ P.acts O σ i, a.loc = l

/-- The iteration changes the cell. -/
def Writes (O : Ops A) (P : Loop L A) (σ : L → A) (i : Nat) (l : L) : Prop :=
  ∃ a ∈ P.acts O σ i, a.loc = l ∧ a.Changes

/-- A cell which is changed by an iteration is not accessed by other iterations. -/
def Independent (O : Ops A) (P : Loop L A) (σ : L → A) (l : L) : Prop :=
  ∀ i j, i < P.n → j < P.n → i ≠ j → Writes O P σ i l → ¬ Accesses O P σ j l

/-- No iteration changes the cell. -/
def NeverWritten (O : Ops A) (P : Loop L A) (σ : L → A) (l : L) : Prop := ∀ i < P.n, ¬ Writes O P σ i l

/-- Each iteration assigns a value to the cell before it uses this cell. -/
def WriteFirst (O : Ops A) (P : Loop L A) (σ : L → A) (l : L) : Prop :=
  ∀ i < P.n, ∀ p a q, P.acts O σ i = p ++ a :: q → a.loc = l → (∃ b ∈ p, b.Assigns l) ∨ a.Assigns l

/-- The last iteration assigns a value to the cell. -/
def LastAssigns (O : Ops A) (P : Loop L A) (σ : L → A) (l : L) : Prop :=
  ∀ i, i + 1 = P.n → ∃ a ∈ P.acts O σ i, a.Assigns l

/-- The cell is accessed to perform an operation of the specified kind only. -/
def OnlyUpdates (O : Ops A) (P : Loop L A) (σ : L → A) (k : RedKind) (l : L) : Prop :=
  ∀ i < P.n, ∀ a ∈ P.acts O σ i, a.loc = l → ∃ d v, a = .up d l k v

/-- The order of operands is not important. -/
structure Combines (O : Ops A) (k : RedKind) : Prop where
  assoc : ∀ x y z, O.ap k (O.ap k x y) z = O.ap k x (O.ap k y z)
  comm : ∀ x y, O.ap k x y = O.ap k y x
  unit : ∀ x, O.ap k x (O.unit k) = x

end AstDep
end Tsar
