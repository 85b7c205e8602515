import Verif.MemSet.Props

/-!
# Interprocedural analysis of live memory

Model of `GlobalLiveMemory::runOnModule`, `initMayLivesWithIPO`
(`lib/Analysis/Memory/GlobalLiveMemory.cpp`) and of the boundary condition of the intraprocedural
analysis (`lib/Analysis/Memory/LiveMemory.cpp`).  `checkCallsFrom` is modelled in
`Verif.Calls.Extract`.

Pointers (values of LLVM) are numbers, a pointer of one function is not a pointer of another one
except for global values.  The data-flow solver which computes locations alive after a call from
the locations alive after exit from the caller is a parameter of the model (`Site.liveAt`).
-/

namespace Tsar.GlobalLive

open Tsar.Range Tsar.MemSet

/-- A memory location which `for_each_memory` reports for an argument of a call:
the number of the argument, the pointer and the size (`none`: unknown). -/
structure Actual where
  idx : Nat
  ptr : Nat
  size : Option Nat

/-- A record of the call graph with a known call instruction and a known callee.  `liveAt out` is
the set of locations alive after the block of the call if locations from `out` are alive after
exit from the caller (result of `solveDataFlowDownward`, GlobalLiveMemory.cpp:317-321, 326-332). -/
structure Site where
  callee : Nat
  actuals : List Actual
  liveAt : MSet → MSet

/-- What the analysis knows about a function. -/
structure Fn where
  /-- Formal parameters. -/
  args : List Nat
  /-- `isVarArg()`. -/
  vararg : Bool := false
  /-- A library function or a marker intrinsic (GlobalLiveMemory.cpp:260-263). -/
  skip : Bool := false
  /-- The function has a body, all its callees are direct user functions and each call is in its own
  block (GlobalLiveMemory.cpp:264-267). -/
  ready : Bool := true
  /-- Def-use sets of the whole function. -/
  defs : MSet
  mayDefs : MSet
  /-- Records of the node of the call graph. -/
  calls : List Site

/-- A module. `base p` is `getUnderlyingObject(p, 0)`. -/
structure Mod where
  fn : Nat → Fn
  base : Nat → Nat
  isAlloca : Nat → Bool
  isGlobal : Nat → Bool

/-- A node of the call graph: a function or a node without a function (with its callees). -/
inductive Node
  | ext (callees : List Nat)
  | fn (i : Nat)

/-- The first loop of `runOnModule`: GlobalLiveMemory.cpp:249-269.  Result: `Worklist` and
`HasExternalCalls`, `none` if the analysis is not performed. -/
def scan (M : Mod) (noExt : Bool) : List (List Node) → Option (List Nat × List Nat)
  | [] => some ([], [])
  | [.ext cs] :: rest => (scan M noExt rest).map fun r => (r.1, if noExt then r.2 else cs ++ r.2)
  | [.fn i] :: rest =>
    if (M.fn i).skip then scan M noExt rest
    else if !(M.fn i).ready then none
    else (scan M noExt rest).map fun r => (i :: r.1, r.2)
  | _ :: _ => none

/-- `MemoryLocation::getAfter(Ptr)`. -/
def after (p : Nat) : Loc := ⟨some p, some 0, none, [], Kind.default⟩

/-- The lambda `init` in `initMayLivesWithIPO`: GlobalLiveMemory.cpp:128-142.  A null pointer is a
failed assertion; it is treated as a location with unknown base. -/
def keep (S : Solver) (M : Mod) (f : Fn) (fout : MSet) (l : Loc) : Bool :=
  match l.ptr with
  | none => true
  | some q =>
    let p := M.base q
    if M.isAlloca p then false
    else if f.args.contains p || M.isGlobal p then
      !((p == q && !overlap S fout l) || !overlap S fout (after p))
    else true

/-- Insertion of locations: GlobalLiveMemory.cpp:143-146. -/
def insertKept (p : Loc → Bool) (f : Fn) : MSet :=
  ((allLocs f.defs ++ allLocs f.mayDefs).filter p).foldl (fun s l => (MemSet.insert s l).1) []

/-- Conservative condition: GlobalLiveMemory.cpp:304-311, LiveMemory.cpp:77-92. -/
def conservative (M : Mod) (l : Loc) : Bool :=
  match l.ptr with
  | none => true
  | some q => !M.isAlloca (M.base q)

/-- `FOut`: GlobalLiveMemory.cpp:121-127. -/
def mergeAll (outs : List MSet) : MSet := outs.foldl (fun s o => (merge s o).1) []

/-- Locations which are considered alive after exit from the function `i`:
GlobalLiveMemory.cpp:114-120, 300-311.  `calls` are sets for calls (with the callee). -/
def mayLives (S : Solver) (M : Mod) (ext : List Nat) (calls : List (Nat × MSet)) (i : Nat) :
    MSet :=
  if ext.contains i then insertKept (conservative M) (M.fn i)
  else
    let outs := (calls.filter fun c => c.1 == i).map (·.2)
    if outs.isEmpty then []
    else insertKept (keep S M (M.fn i) (mergeAll outs)) (M.fn i)

/-- The lambda for an argument of a call: GlobalLiveMemory.cpp:340-346. -/
def addArg (S : Solver) (args : List Nat) (out : MSet) (a : Actual) : MSet :=
  if overlap S out ⟨some a.ptr, some 0, a.size, [], Kind.default⟩ then
    match args[a.idx]? with
    | some arg => (MemSet.insert out ⟨some arg, some 0, a.size, [], Kind.default⟩).1
    | none => out
  else out

/-- Live set of a call: GlobalLiveMemory.cpp:329-347. -/
def callOut (S : Solver) (M : Mod) (lives : MSet) (s : Site) : MSet :=
  let out := s.liveAt lives
  if (M.fn s.callee).vararg then out
  else s.actuals.foldl (addArg S (M.fn s.callee).args) out

/-- `LiveSetForCalls` and results of the analysis. -/
structure State where
  calls : List (Nat × MSet) := []
  results : List (Nat × MSet) := []

/-- The body of the loop over functions: GlobalLiveMemory.cpp:283-350. -/
def step (S : Solver) (M : Mod) (ext : List Nat) (st : State) (i : Nat) : State :=
  let lives := mayLives S M ext st.calls i
  { calls := st.calls ++ (M.fn i).calls.map fun s => (s.callee, callOut S M lives s)
    results := st.results ++ [(i, lives)] }

/-- `runOnModule`: GlobalLiveMemory.cpp:241-353.  Result: locations alive after exit from a
function, for each analyzed function. -/
def runOnModule (S : Solver) (M : Mod) (noExt : Bool) (sccs : List (List Node)) :
    List (Nat × MSet) :=
  match scan M noExt sccs with
  | none => []
  | some (w, ext) => (w.reverse.foldl (step S M ext) {}).results

/-! ## Specification -/

/-- An activation of a function: a function and values of its pointers. -/
structure Act where
  fn : Nat
  addr : Nat → Int

/-- A location which the function may write. -/
def Own (M : Mod) (i : Nat) (l : Loc) : Prop :=
  l ∈ allLocs (M.fn i).defs ∨ l ∈ allLocs (M.fn i).mayDefs

/-- The set `out` contains all bytes (of locations which the function may write and which are not
local) which are needed after exit from the activation. -/
def Covers (M : Mod) (A : Act) (need : Int → Prop) (out : MSet) : Prop :=
  ∀ l, Own M A.fn l → ∀ p, l.ptr = some p → M.isAlloca (M.base p) = false →
    ∀ b : Nat, Reach l b → need (A.addr p + b) → SetByte out (some p) b

/-- The activation `F` is a result of the call `s` in the activation `G`; `needG` and `needF` are
addresses of bytes which are written by an activation and are read after its exit. -/
structure Link (M : Mod) (G : Act) (needG : Int → Prop) (s : Site) (F : Act)
    (needF : Int → Prop) : Prop where
  site : s ∈ (M.fn G.fn).calls
  callee : F.fn = s.callee
  globals : ∀ p, M.isGlobal p = true → F.addr p = G.addr p
  /-- A parameter is equal to the argument. -/
  params : ∀ a ∈ (M.fn F.fn).args, (∃ l p, Own M F.fn l ∧ l.ptr = some p ∧ M.base p = a) →
    ∃ x ∈ s.actuals, (M.fn F.fn).args[x.idx]? = some a ∧ F.addr a = G.addr x.ptr
  /-- Contract of the data-flow solver (C21): the set of locations alive after the call describes
  all bytes which are needed. -/
  live : ∀ out, Covers M G needG out → ∀ x, needF x →
    ∃ (q b : Nat), G.addr q + b = x ∧ SetByte (s.liveAt out) (some q) b

/-- Activations which are possible in a program: nothing is needed after the exit from the program,
anything may be needed after a call from outside of the module, otherwise there is a caller.
`ok` is an additional assumption about calls. -/
inductive Active (M : Mod) (w ext : List Nat)
    (ok : Act → Site → Act → (Int → Prop) → Prop) : Act → (Int → Prop) → Prop
  | main {A} : Active M w ext ok A fun _ => False
  | outside {A need} : A.fn ∈ ext → Active M w ext ok A need
  | call {G needG s F needF} : Active M w ext ok G needG → G.fn ∈ w →
      Link M G needG s F needF → ok G s F needF → Active M w ext ok F needF

/-- The analysis is sound: each needed byte of a location which a function may write is alive after
exit from this function. -/
def Sound (S : Solver) (M : Mod) (noExt : Bool) (sccs : List (List Node)) (w ext : List Nat)
    (ok : Act → Site → Act → (Int → Prop) → Prop) : Prop :=
  ∀ F need, Active M w ext ok F need →
    ∀ out, (F.fn, out) ∈ runOnModule S M noExt sccs → Covers M F need out

/-- Memory which is alive after the call is known under all names which are visible in the callee. -/
def Named (M : Mod) (G : Act) (s : Site) (_F : Act) (needF : Int → Prop) : Prop :=
  ∀ out p, (M.isGlobal p = true ∨ ∃ x ∈ s.actuals, x.ptr = p) → ∀ b : Nat,
    needF (G.addr p + b) →
    (∃ (q b' : Nat), G.addr q + b' = G.addr p + b ∧ SetByte (s.liveAt out) (some q) b') →
    SetByte (s.liveAt out) (some p) b

/-- Memory outside of the known size of an argument is not accessed. -/
def Sized (_M : Mod) (G : Act) (s : Site) (_F : Act) (needF : Int → Prop) : Prop :=
  ∀ x ∈ s.actuals, ∀ n, x.size = some n → ∀ b : Nat, needF (G.addr x.ptr + b) → b < n

/-- Pointers derived from a parameter or from a global value do not point before it. -/
def Forward (M : Mod) (_G : Act) (_s : Site) (F : Act) (_needF : Int → Prop) : Prop :=
  ∀ l p, Own M F.fn l → l.ptr = some p → F.addr (M.base p) ≤ F.addr p

/-- Assumptions about a call which are necessary for soundness. -/
structure Nice (M : Mod) (G : Act) (s : Site) (F : Act) (needF : Int → Prop) : Prop where
  named : Named M G s F needF
  sized : Sized M G s F needF
  forward : Forward M G s F needF
  notVararg : (M.fn F.fn).vararg = false

/-- Well-formedness of sets. -/
structure WfMod (ob : Option Nat → Obj) (M : Mod) : Prop where
  defs : ∀ i, SetWf ob (M.fn i).defs
  mayDefs : ∀ i, SetWf ob (M.fn i).mayDefs
  live : ∀ i, ∀ s ∈ (M.fn i).calls, ∀ out, SetWf ob out → SetWf ob (s.liveAt out)
  arg : ∀ i, ∀ s ∈ (M.fn i).calls, ∀ a ∈ s.actuals, ∀ n, a.size = some n →
    (ob (some a.ptr)).Fits n ∧ ∀ p, (M.fn s.callee).args[a.idx]? = some p → (ob (some p)).Fits n

/-- The worklist is ordered from callees to callers and there is no recursion. -/
def Ordered (M : Mod) (w : List Nat) : Prop :=
  w.Pairwise (fun i j => ∀ s ∈ (M.fn i).calls, s.callee ≠ j) ∧
  ∀ i ∈ w, ∀ s ∈ (M.fn i).calls, s.callee ≠ i

/-! ## Sets -/

theorem after_wf (o : Obj) (p : Nat) : WfLoc o (after p) := by
  refine ⟨by simp [after], .inl ⟨rfl, rfl, ⟨0, rfl⟩, ?_⟩⟩
  intro up h
  simp [after] at h

theorem after_reach (p b : Nat) : Reach (after p) b := by
  unfold Reach
  rw [if_neg (by simp [after, Kind.default])]
  exact ⟨⟨0, rfl, by omega⟩, fun up h => by simp [after] at h⟩

theorem fold_insert {ob : Option Nat → Obj} (ls : List Loc) (s : MSet) (hs : SetWf ob s)
    (h : ∀ l ∈ ls, WfLoc (ob l.ptr) l) :
    SetWf ob (ls.foldl (fun s l => (MemSet.insert s l).1) s) ∧
    ∀ p b, SetByte (ls.foldl (fun s l => (MemSet.insert s l).1) s) p b ↔
      SetByte s p b ∨ ListByte ls p b := by
  induction ls generalizing s with
  | nil => simp [hs, ListByte]
  | cons l ls ih =>
    obtain ⟨h1, h2, _⟩ := insert_spec hs (h l (by simp))
    obtain ⟨h3, h4⟩ := ih _ h1 fun x hx => h x (by simp [hx])
    refine ⟨h3, fun p b => ?_⟩
    rw [List.foldl_cons, h4, h2]
    simp only [ListByte, List.mem_cons, exists_eq_or_imp]
    constructor
    · rintro ((h | ⟨h, h'⟩) | h)
      · exact .inl h
      · exact .inr (.inl ⟨h.symm, h'⟩)
      · exact .inr (.inr h)
    · rintro (h | ⟨h, h'⟩ | h)
      · exact .inl (.inl h)
      · exact .inl (.inr ⟨h.symm, h'⟩)
      · exact .inr h

theorem insertKept_spec {ob : Option Nat → Obj} (p : Loc → Bool) (f : Fn) (hd : SetWf ob f.defs)
    (hm : SetWf ob f.mayDefs) :
    SetWf ob (insertKept p f) ∧
    ∀ q b, SetByte (insertKept p f) q b ↔
      ∃ l, (l ∈ allLocs f.defs ∨ l ∈ allLocs f.mayDefs) ∧ p l = true ∧ l.ptr = q ∧ Reach l b := by
  obtain ⟨h1, h2⟩ := fold_insert (ob := ob) ((allLocs f.defs ++ allLocs f.mayDefs).filter p) []
    (setWf_nil ob) (fun l hl => by
      rcases List.mem_append.1 (List.mem_filter.1 hl).1 with h | h
      · exact allLocs_wf hd l h
      · exact allLocs_wf hm l h)
  refine ⟨h1, fun q b => ?_⟩
  unfold insertKept
  rw [h2]
  constructor
  · rintro (h | ⟨l, hl, e, hr⟩)
    · exact absurd h (by simp [setByte_nil])
    · obtain ⟨hl1, hl2⟩ := List.mem_filter.1 hl
      exact ⟨l, List.mem_append.1 hl1, hl2, e, hr⟩
  · rintro ⟨l, hl, hp, e, hr⟩
    exact .inr ⟨l, List.mem_filter.2 ⟨List.mem_append.2 hl, hp⟩, e, hr⟩

theorem mergeAll_spec {ob : Option Nat → Obj} (outs : List MSet) (h : ∀ o ∈ outs, SetWf ob o) :
    SetWf ob (mergeAll outs) ∧
    ∀ p b, SetByte (mergeAll outs) p b ↔ ∃ o ∈ outs, SetByte o p b := by
  suffices hs : ∀ (s : MSet), SetWf ob s →
      SetWf ob (outs.foldl (fun s o => (merge s o).1) s) ∧
      ∀ p b, SetByte (outs.foldl (fun s o => (merge s o).1) s) p b ↔
        SetByte s p b ∨ ∃ o ∈ outs, SetByte o p b by
    obtain ⟨h1, h2⟩ := hs [] (setWf_nil ob)
    refine ⟨h1, fun p b => ?_⟩
    unfold mergeAll
    rw [h2]
    simp [setByte_nil]
  induction outs with
  | nil => intro s hs; simp [hs]
  | cons o os ih =>
    intro s hs
    obtain ⟨m1, m2, _⟩ := merge_exact ob s o hs (h o (by simp))
    obtain ⟨h1, h2⟩ := ih (fun x hx => h x (by simp [hx])) _ m1
    refine ⟨h1, fun p b => ?_⟩
    rw [List.foldl_cons, h2, m2]
    simp only [List.mem_cons, exists_eq_or_imp]
    tauto

theorem actual_wf {o : Obj} {p : Nat} {size : Option Nat} (h : ∀ n, size = some n → o.Fits n) :
    WfLoc o ⟨some p, some 0, size, [], Kind.default⟩ :=
  ⟨by simp, .inl ⟨rfl, rfl, ⟨0, rfl⟩, fun up hu => h up hu⟩⟩

theorem actual_reach {p b : Nat} {size : Option Nat} (h : ∀ n, size = some n → b < n) :
    Reach ⟨some p, some 0, size, [], Kind.default⟩ b := by
  unfold Reach
  rw [if_neg (by simp [Kind.default])]
  exact ⟨⟨0, rfl, by omega⟩, fun up hu => h up hu⟩

/-- The locations of arguments satisfy requirements. -/
def ArgsWf (ob : Option Nat → Obj) (args : List Nat) (as : List Actual) : Prop :=
  ∀ a ∈ as, ∀ n, a.size = some n →
    (ob (some a.ptr)).Fits n ∧ ∀ p, args[a.idx]? = some p → (ob (some p)).Fits n

theorem addArgs_mono {ob : Option Nat → Obj} (S : Solver) (args : List Nat) (as : List Actual)
    (s : MSet) (hs : SetWf ob s) (ha : ArgsWf ob args as) :
    SetWf ob (as.foldl (addArg S args) s) ∧
    ∀ p b, SetByte s p b → SetByte (as.foldl (addArg S args) s) p b := by
  induction as generalizing s with
  | nil => exact ⟨hs, fun _ _ h => h⟩
  | cons a as ih =>
    have hstep : SetWf ob (addArg S args s a) ∧
        ∀ p b, SetByte s p b → SetByte (addArg S args s a) p b := by
      unfold addArg
      split
      · cases hx : args[a.idx]? with
        | none => exact ⟨hs, fun _ _ h => h⟩
        | some x =>
          obtain ⟨h1, h2, _⟩ := insert_spec (loc := ⟨some x, some 0, a.size, [], Kind.default⟩) hs
            (actual_wf fun n hn => (ha a (by simp) n hn).2 x hx)
          exact ⟨h1, fun p b h => (h2 p b).2 (.inl h)⟩
      · exact ⟨hs, fun _ _ h => h⟩
    obtain ⟨h1, h2⟩ := ih _ hstep.1 fun x hx => ha x (by simp [hx])
    exact ⟨h1, fun p b h => h2 p b (hstep.2 p b h)⟩

/-- The memory of a parameter is alive if the memory of the argument is alive. -/
theorem addArgs_param {ob : Option Nat → Obj} (S : Solver) (hS : SolverOK S) (args : List Nat)
    (as : List Actual) (s : MSet) (hs : SetWf ob s) (ha : ArgsWf ob args as) {x : Actual}
    (hx : x ∈ as) {arg : Nat} (harg : args[x.idx]? = some arg) {b : Nat}
    (hb : SetByte s (some x.ptr) b) (hsz : ∀ n, x.size = some n → b < n) :
    SetByte (as.foldl (addArg S args) s) (some arg) b := by
  induction as generalizing s with
  | nil => simp at hx
  | cons a as ih =>
    have hone := addArgs_mono S args [a] s hs fun y hy => ha y (by simp at hy; simp [hy])
    simp only [List.foldl_cons, List.foldl_nil] at hone
    have ha' : ArgsWf ob args as := fun y hy => ha y (by simp [hy])
    rw [List.foldl_cons]
    rcases List.mem_cons.1 hx with e | hx'
    · subst e
      refine (addArgs_mono S args as _ hone.1 ha').2 _ _ ?_
      unfold addArg
      have hov : overlap S s ⟨some x.ptr, some 0, x.size, [], Kind.default⟩ = true := by
        by_contra hne
        rw [Bool.not_eq_true] at hne
        refine overlap_sound ob S hS s _ hs ?_ hne b (actual_reach hsz) hb
        exact actual_wf fun n hn => (ha x (by simp) n hn).1
      rw [if_pos hov, harg]
      obtain ⟨_, h2, _⟩ := insert_spec (loc := ⟨some arg, some 0, x.size, [], Kind.default⟩) hs
        (actual_wf fun n hn => (ha x (by simp) n hn).2 arg harg)
      exact (h2 _ _).2 (.inr ⟨rfl, actual_reach hsz⟩)
    · exact ih _ hone.1 ha' hx' (hone.2 _ _ hb)

/-! ## The order of functions -/

theorem mayLives_congr (S : Solver) (M : Mod) (ext : List Nat) (i : Nat)
    (c c' : List (Nat × MSet)) (h : c.filter (fun x => x.1 == i) = c'.filter fun x => x.1 == i) :
    mayLives S M ext c i = mayLives S M ext c' i := by
  unfold mayLives
  rw [h]

theorem fold_calls (S : Solver) (M : Mod) (ext : List Nat) (i : Nat) (order : List Nat)
    (st : State) (h : ∀ j ∈ order, ∀ s ∈ (M.fn j).calls, s.callee ≠ i) :
    (order.foldl (step S M ext) st).calls.filter (fun x => x.1 == i) =
      st.calls.filter fun x => x.1 == i := by
  induction order generalizing st with
  | nil => rfl
  | cons j js ih =>
    rw [List.foldl_cons, ih _ fun k hk => h k (by simp [hk])]
    simp only [step, List.filter_append]
    rw [(List.filter_eq_nil_iff (l := List.map _ _)).2, List.append_nil]
    intro x hx
    obtain ⟨s, hs, e⟩ := List.mem_map.1 hx
    subst e
    simpa using h j (by simp) s hs

theorem fold_mono (S : Solver) (M : Mod) (ext : List Nat) (order : List Nat) (st : State) :
    (∀ c ∈ st.calls, c ∈ (order.foldl (step S M ext) st).calls) ∧
    ∀ r ∈ st.results, r ∈ (order.foldl (step S M ext) st).results := by
  induction order generalizing st with
  | nil => exact ⟨fun _ h => h, fun _ h => h⟩
  | cons j js ih =>
    rw [List.foldl_cons]
    refine ⟨fun c hc => (ih _).1 c ?_, fun r hr => (ih _).2 r ?_⟩
    · simp [step, hc]
    · simp [step, hr]

/-- Results of the analysis are consistent: each function is analyzed when live sets for all its
calls are known. -/
theorem fold_spec (S : Solver) (M : Mod) (ext : List Nat) (order : List Nat) (st : State)
    (ho : order.Pairwise fun j i => ∀ s ∈ (M.fn i).calls, s.callee ≠ j)
    (hn : ∀ i ∈ order, ∀ s ∈ (M.fn i).calls, s.callee ≠ i) :
    ∀ r ∈ (order.foldl (step S M ext) st).results, r ∈ st.results ∨
      (r.2 = mayLives S M ext (order.foldl (step S M ext) st).calls r.1 ∧
        ∀ s ∈ (M.fn r.1).calls,
          (s.callee, callOut S M r.2 s) ∈ (order.foldl (step S M ext) st).calls) := by
  induction order generalizing st with
  | nil => exact fun r hr => .inl hr
  | cons i is ih =>
    rw [List.pairwise_cons] at ho
    intro r hr
    rw [List.foldl_cons] at hr ⊢
    rcases ih (step S M ext st i) ho.2 (fun k hk => hn k (by simp [hk])) r hr with h | h
    · simp only [step, List.mem_append, List.mem_singleton] at h
      rcases h with h | h
      · exact .inl h
      · right
        subst h
        constructor
        · refine mayLives_congr S M ext i _ _ ?_
          rw [fold_calls S M ext i is _ fun j hj s hs => ho.1 j hj s hs]
          have := fold_calls S M ext i [i] st fun j hj s hs => by
            simp at hj; subst hj; exact hn _ (by simp) s hs
          simpa using this.symm
        · intro s hs
          refine (fold_mono S M ext is _).1 _ ?_
          simp only [step, List.mem_append, List.mem_map]
          exact .inr ⟨s, hs, rfl⟩
    · exact .inr h

theorem callOut_wf {ob : Option Nat → Obj} {M : Mod} (hM : WfMod ob M) (S : Solver) {i : Nat}
    {s : Site} (hs : s ∈ (M.fn i).calls) {lives : MSet} (hl : SetWf ob lives) :
    SetWf ob (callOut S M lives s) := by
  unfold callOut
  simp only
  split
  · exact hM.live i s hs _ hl
  · exact (addArgs_mono S _ _ _ (hM.live i s hs _ hl) (hM.arg i s hs)).1

theorem mayLives_wf {ob : Option Nat → Obj} {M : Mod} (hM : WfMod ob M) (S : Solver)
    (ext : List Nat) (c : List (Nat × MSet)) (i : Nat) : SetWf ob (mayLives S M ext c i) := by
  unfold mayLives
  simp only
  split
  · exact (insertKept_spec _ _ (hM.defs i) (hM.mayDefs i)).1
  · split
    · exact setWf_nil ob
    · exact (insertKept_spec _ _ (hM.defs i) (hM.mayDefs i)).1

theorem fold_wf {ob : Option Nat → Obj} {M : Mod} (hM : WfMod ob M) (S : Solver)
    (ext : List Nat) (order : List Nat) (st : State) (h : ∀ c ∈ st.calls, SetWf ob c.2) :
    ∀ c ∈ (order.foldl (step S M ext) st).calls, SetWf ob c.2 := by
  induction order generalizing st with
  | nil => exact h
  | cons i is ih =>
    rw [List.foldl_cons]
    refine ih _ fun c hc => ?_
    simp only [step, List.mem_append, List.mem_map] at hc
    rcases hc with hc | ⟨s, hs, e⟩
    · exact h c hc
    · subst e
      exact callOut_wf hM S hs (mayLives_wf hM S ext _ i)

/-- Live sets of calls are known when a function is analyzed. -/
theorem scan_covers {S : Solver} {M : Mod} {noExt : Bool} {sccs : List (List Node)}
    {w ext : List Nat} (hscan : scan M noExt sccs = some (w, ext)) (hw : Ordered M w) :
    ∀ i out, (i, out) ∈ runOnModule S M noExt sccs →
      out = mayLives S M ext (w.reverse.foldl (step S M ext) {}).calls i ∧
      ∀ s ∈ (M.fn i).calls,
        (s.callee, callOut S M out s) ∈ (w.reverse.foldl (step S M ext) {}).calls := by
  intro i out h
  unfold runOnModule at h
  rw [hscan] at h
  simp only at h
  have := fold_spec S M ext w.reverse {} (by rw [List.pairwise_reverse]; exact hw.1)
    (fun k hk => hw.2 k (by simpa using hk)) (i, out) h
  rcases this with h' | h'
  · simp at h'
  · exact h'

theorem results_mem (S : Solver) (M : Mod) (ext : List Nat) (order : List Nat) (st : State) :
    ∀ i ∈ order, ∃ out, (i, out) ∈ (order.foldl (step S M ext) st).results := by
  induction order generalizing st with
  | nil => simp
  | cons j js ih =>
    intro i hi
    rw [List.foldl_cons]
    rcases List.mem_cons.1 hi with rfl | hi
    · exact ⟨_, (fold_mono S M ext js _).2 (i, mayLives S M ext st.calls i) (by simp [step])⟩
    · exact ih _ i hi

/-- **C92.** If the analysis is performed, it has a result for each function with a body which is
not a library function. -/
theorem analyzed (S : Solver) (M : Mod) (noExt : Bool) (sccs : List (List Node))
    (w ext : List Nat) (hscan : scan M noExt sccs = some (w, ext)) :
    ∀ i ∈ w, ∃ out, (i, out) ∈ runOnModule S M noExt sccs := by
  intro i hi
  unfold runOnModule
  rw [hscan]
  exact results_mem S M ext w.reverse {} i (by simpa using hi)

/-- **C92.** The analysis is performed exactly if there is no recursion through several functions
and each function (which is not a library one) is ready; the worklist consists of these functions
in the same order and, if calls from outside are possible, the callees of nodes without a function
are remembered. -/
theorem scan_iff (M : Mod) (noExt : Bool) (sccs : List (List Node)) (w ext : List Nat) :
    scan M noExt sccs = some (w, ext) ↔
      (∀ c ∈ sccs, ∃ n, c = [n]) ∧
      (∀ i, [Node.fn i] ∈ sccs → (M.fn i).skip = false → (M.fn i).ready = true) ∧
      w = sccs.filterMap (fun c => match c with
        | [.fn i] => if (M.fn i).skip then none else some i
        | _ => none) ∧
      ext = if noExt then [] else sccs.flatMap fun c => match c with
        | [.ext cs] => cs
        | _ => [] := by
  induction sccs generalizing w ext with
  | nil =>
    simp only [scan, Option.some.injEq, Prod.mk.injEq, List.not_mem_nil, List.filterMap_nil,
      List.flatMap_nil, ite_self, false_imp_iff, implies_true, true_and]
    exact ⟨fun h => ⟨h.1.symm, h.2.symm⟩, fun h => ⟨h.1.symm, h.2.symm⟩⟩
  | cons c rest ih =>
    match c with
    | [] => simp [scan]
    | [.ext cs] =>
      simp only [scan, Option.map_eq_some_iff, Prod.mk.injEq, Prod.exists, List.mem_cons,
        forall_eq_or_imp, List.filterMap_cons, List.flatMap_cons]
      constructor
      · rintro ⟨w', e', h, h1, h2⟩
        obtain ⟨a1, a2, a3, a4⟩ := (ih w' e').1 h
        refine ⟨⟨⟨_, rfl⟩, a1⟩, ?_, by rw [← h1, a3], ?_⟩
        · intro i hi
          rcases hi with hi | hi
          · simp at hi
          · exact a2 i hi
        · rw [← h2, a4]; cases noExt <;> simp
      · rintro ⟨⟨_, a1⟩, a2, a3, a4⟩
        refine ⟨w, _, (ih w _).2 ⟨a1, fun i hi => a2 i (.inr hi), a3, rfl⟩, rfl, ?_⟩
        rw [a4]; cases noExt <;> simp
    | [.fn i] =>
      simp only [scan, List.mem_cons, forall_eq_or_imp, List.filterMap_cons, List.flatMap_cons]
      by_cases hs : (M.fn i).skip = true
      · rw [if_pos hs, ih]
        simp only [hs, if_true, List.nil_append]
        constructor
        · rintro ⟨a1, a2, a3, a4⟩
          refine ⟨⟨⟨_, rfl⟩, a1⟩, ?_, a3, a4⟩
          rintro j (hj | hj) h
          · simp at hj; subst hj; rw [hs] at h; simp at h
          · exact a2 j hj h
        · rintro ⟨⟨_, a1⟩, a2, a3, a4⟩
          exact ⟨a1, fun j hj => a2 j (.inr hj), a3, a4⟩
      · rw [if_neg hs]
        by_cases hr : (M.fn i).ready = true
        · simp only [hr, Bool.not_true, Bool.false_eq_true, if_false, Option.map_eq_some_iff,
            Prod.mk.injEq, Prod.exists, hs, List.nil_append]
          constructor
          · rintro ⟨w', e', h, h1, h2⟩
            obtain ⟨a1, a2, a3, a4⟩ := (ih w' e').1 h
            refine ⟨⟨⟨_, rfl⟩, a1⟩, ?_, by rw [← h1, a3], by rw [← h2, a4]⟩
            rintro j (hj | hj) h
            · simp at hj; subst hj; exact hr
            · exact a2 j hj h
          · rintro ⟨⟨_, a1⟩, a2, a3, a4⟩
            exact ⟨_, _, (ih _ _).2 ⟨a1, fun j hj => a2 j (.inr hj), rfl, a4⟩, a3.symm, rfl⟩
        · simp only [hr, Bool.not_false, if_true]
          constructor
          · simp
          · rintro ⟨_, a2, _⟩
            exact absurd (a2 i (.inl rfl) (by simpa using hs)) hr
    | a :: b :: r => simp [scan]

/-- **C92 (partial).** The interprocedural analysis is sound: bytes which a function may write and
which are read after its exit belong to the locations alive after exit from the function.
Missing: self-recursive functions, functions with a variable number of arguments, memory which is
known in the caller under another name, pointers before a parameter (see `..._fails`). -/
theorem live_sound_partial (ob : Option Nat → Obj) (S : Solver) (hS : SolverOK S) (M : Mod)
    (hM : WfMod ob M) (noExt : Bool) (sccs : List (List Node)) (w ext : List Nat)
    (hscan : scan M noExt sccs = some (w, ext)) (hw : Ordered M w) :
    Sound S M noExt sccs w ext (Nice M) := by
  intro F need hA
  induction hA with
  | main => exact fun out _ l _ p _ _ b _ hn => hn.elim
  | @outside A need hext =>
    intro out ho l hl p hp ha b hb _
    obtain ⟨rfl, _⟩ := scan_covers hscan hw _ _ ho
    unfold mayLives
    rw [if_pos (by simpa using hext)]
    refine ((insertKept_spec _ _ (hM.defs _) (hM.mayDefs _)).2 _ _).2 ⟨l, hl, ?_, hp, hb⟩
    unfold conservative
    rw [hp]
    simp [ha]
  | @call G needG s F needF _ hGw hlink hok ih =>
    intro out ho l hl p hp ha b hb hneed
    obtain ⟨e, _⟩ := scan_covers hscan hw _ _ ho
    obtain ⟨outG, hG⟩ := analyzed S M noExt sccs w ext hscan G.fn hGw
    obtain ⟨eG, hcalls⟩ := scan_covers hscan hw _ _ hG
    have hGwf : SetWf ob outG := by rw [eG]; exact mayLives_wf hM S ext _ _
    have hcov := ih outG hG
    have hsite := hcalls s hlink.site
    rw [← hlink.callee] at hsite
    have hwfall := fold_wf hM S ext w.reverse {} (by simp)
    generalize hst : (w.reverse.foldl (step S M ext) {}).calls = calls at e hsite hwfall
    subst e
    unfold mayLives
    split
    · refine ((insertKept_spec _ _ (hM.defs _) (hM.mayDefs _)).2 _ _).2 ⟨l, hl, ?_, hp, hb⟩
      unfold conservative
      rw [hp]
      simp [ha]
    · simp only
      have hmem : callOut S M outG s ∈ (calls.filter fun c => c.1 == F.fn).map (·.2) :=
        List.mem_map.2 ⟨_, List.mem_filter.2 ⟨hsite, by simp⟩, rfl⟩
      rw [if_neg (by
        intro hc
        rw [List.isEmpty_iff] at hc
        rw [hc] at hmem
        simp at hmem)]
      obtain ⟨hfwf, hfout⟩ := mergeAll_spec (ob := ob)
        ((calls.filter fun c => c.1 == F.fn).map (·.2)) (by
          intro o ho
          obtain ⟨c, hc, rfl⟩ := List.mem_map.1 ho
          exact hwfall c (List.mem_filter.1 hc).1)
      refine ((insertKept_spec _ _ (hM.defs _) (hM.mayDefs _)).2 _ _).2 ⟨l, hl, ?_, hp, hb⟩
      unfold keep
      rw [hp]
      simp only [ha, Bool.false_eq_true, if_false]
      split
      next hbase =>
        -- The byte of the base object.
        have hfwd := hok.forward l p hl hp
        obtain ⟨k, hk⟩ : ∃ k : Nat, F.addr p = F.addr (M.base p) + k :=
          ⟨(F.addr p - F.addr (M.base p)).toNat, by omega⟩
        have hneed' : needF (F.addr (M.base p) + ((k + b : Nat) : Int)) := by
          have : F.addr p + (b : Int) = F.addr (M.base p) + ((k + b : Nat) : Int) := by
            rw [hk]; push_cast; omega
          rwa [← this]
        have hlv := hlink.live outG hcov
        have hwfl := hM.live _ s hlink.site _ hGwf
        have hkey : SetByte (callOut S M outG s) (some (M.base p)) (k + b) := by
          unfold callOut
          have hva := hok.notVararg
          rw [hlink.callee] at hva
          simp only [hva, Bool.false_eq_true, if_false]
          by_cases hg : M.isGlobal (M.base p) = true
          · refine (addArgs_mono S _ _ _ hwfl (hM.arg _ s hlink.site)).2 _ _ ?_
            rw [hlink.globals _ hg] at hneed'
            exact hok.named outG _ (.inl hg) _ hneed' (hlv _ hneed')
          · have harg : M.base p ∈ (M.fn F.fn).args := by
              rw [Bool.or_eq_true] at hbase
              rcases hbase with h | h
              · simpa using h
              · exact absurd h hg
            obtain ⟨x, hx, hidx, haddr⟩ := hlink.params _ harg ⟨l, p, hl, hp, rfl⟩
            rw [haddr] at hneed'
            rw [hlink.callee] at hidx
            refine addArgs_param S hS _ _ _ hwfl (hM.arg _ s hlink.site) hx hidx ?_ ?_
            · exact hok.named outG _ (.inr ⟨x, hx, rfl⟩) _ hneed' (hlv _ hneed')
            · exact fun n hn => hok.sized x hx n hn _ hneed'
        have hF : SetByte (mergeAll ((calls.filter fun c => c.1 == F.fn).map (·.2)))
            (some (M.base p)) (k + b) := (hfout _ _).2 ⟨_, hmem, hkey⟩
        have hov : ∀ l' : Loc, l'.ptr = some (M.base p) → WfLoc (ob l'.ptr) l' →
            Reach l' (k + b) →
            overlap S (mergeAll ((calls.filter fun c => c.1 == F.fn).map (·.2))) l' = true := by
          intro l' hl' hwf hr
          by_contra hne
          rw [Bool.not_eq_true] at hne
          refine overlap_sound ob S hS _ l' hfwf hwf hne _ hr ?_
          rw [hl']
          exact hF
        rw [hov (after (M.base p)) rfl (after_wf _ _) (after_reach _ _)]
        by_cases hpq : M.base p = p
        · have hk0 : k = 0 := by rw [hpq] at hk; omega
          subst hk0
          have hlwf : WfLoc (ob l.ptr) l := by
            rcases hl with h | h
            · exact allLocs_wf (hM.defs _) l h
            · exact allLocs_wf (hM.mayDefs _) l h
          rw [hov l (by rw [hp, hpq]) hlwf (by simpa using hb)]
          simp
        · simp [hpq]
      next => rfl

end Tsar.GlobalLive
