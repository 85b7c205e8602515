import Mathlib.Data.List.Basic

/-!
# Limits of data distribution (C173, C174)

Models passes which disable distribution of arrays, `/repo/lib/APC/DistributionLimits.cpp`.
-/

namespace Tsar.DistrLimits

/-- Distribution of an array: it may be distributed, or it is disabled by the flag `SPF_PRIV` or
`IO_PRIV`. -/
inductive Flag
  | distr | spf | io
  deriving DecidableEq, Repr

/-- Texts of messages. -/
inductive Msg
  | noCalls | indirect | address | access | unknownCall | prototype | privatizable | actual
  deriving DecidableEq, Repr

/-- A function which is called: it has a body, it is a library function, and flags of its parameters
which are arrays (`none` if the function is not registered). -/
structure Callee where
  defined : Bool
  lib : Bool
  params : Option (List Bool)
  deriving DecidableEq, Repr

/-- Kinds of instructions with memory accesses: an intrinsic (a memory marker or another one), a call
with a known or unknown callee, something else. -/
inductive Kind
  | intrinsic (marker : Bool)
  | call (callee : Option Callee)
  | other
  deriving DecidableEq, Repr

/-- An access through an operand number `idx`: the array with metadata of the top-level location of
accessed memory (`none` if there are no metadata or they do not describe an array), `top` is set if
the whole top-level location is accessed. -/
structure Acc where
  arr : Option ℕ
  top : Bool
  idx : ℕ
  deriving DecidableEq, Repr

/-- Instructions.  A store is described by the array whose address is stored (`none` if the value is
not a pointer, it is null or undefined, or there is no array), a return by the array whose address is
returned, any other instruction by its accesses through operands and by arrays which it may access
in another way (unknown memory). -/
inductive Ins
  | load
  | store (addr : Option ℕ)
  | ret (addr : Option ℕ)
  | mem (kind : Kind) (accs : List Acc) (unknown : List ℕ)
  deriving DecidableEq, Repr

/-- A loop: there is a description of the loop, properties of the loop, private and local variables
(arrays found by their metadata). -/
structure Lp where
  known : Bool
  scalarDep : Bool
  arrayDep : Bool
  canonical : Bool
  priv : List (Option ℕ)
  loc : List (Option ℕ)
  deriving DecidableEq, Repr

/-- A function: it may be called indirectly, it has users, its parameters (arrays, `none` for other
parameters) if it is registered, instructions, loops, and recorded calls: flags of actual parameters
which are arrays and formal parameters of the callee. -/
structure Fn where
  indirect : Bool
  users : Bool
  formals : Option (List (Option ℕ))
  body : List Ins
  loops : List Lp
  calls : List (List Bool × List (Option ℕ))
  deriving DecidableEq, Repr

/-- A request to disable distribution of an array; a guarded request is ignored if distribution has
already been disabled. -/
structure Req where
  arr : ℕ
  flag : Flag
  msg : Msg
  guarded : Bool
  deriving DecidableEq, Repr

/-- Flags of arrays and printed messages. -/
structure St where
  flag : ℕ → Flag
  msgs : List (ℕ × Msg)

/-- A message is printed and the flag is set (`DistributionLimits.cpp:143-146`, `191-193`,
`245-248`); `IsNotDistribute()` is checked before guarded requests (`DistributionLimits.cpp:185`,
`209`, `286`). -/
def apply (st : St) (r : Req) : St :=
  if r.guarded && st.flag r.arr != .distr then st
  else ⟨fun a => if a = r.arr then r.flag else st.flag a, st.msgs ++ [(r.arr, r.msg)]⟩

/-- Formal parameters of a function which is called indirectly or is not used
(`DistributionLimits.cpp:116-148`). -/
def formalReqs (f : Fn) : List Req :=
  if f.indirect || !f.users then
    match f.formals with
    | none => []
    | some ps => ps.filterMap fun p => p.map fun a =>
        ⟨a, .spf, if f.users then .indirect else .noCalls, false⟩
  else []

/-- An access through an operand (`DistributionLimits.cpp:198-265`); the decision does not depend on
flags of arrays, except for the guard. -/
def accReq (k : Kind) (x : Acc) : Option Req :=
  match x.arr with
  | none => none
  | some a =>
    match k with
    | .intrinsic marker => if marker then none else some ⟨a, .spf, .access, true⟩
    | .other => some ⟨a, .spf, .access, true⟩
    | .call callee =>
      if !x.top then some ⟨a, .spf, .access, true⟩
      else match callee with
        | none => some ⟨a, .io, .unknownCall, true⟩
        | some c =>
          if !c.defined || c.lib then some ⟨a, .io, .unknownCall, true⟩
          else match c.params with
            | none => some ⟨a, .spf, .prototype, true⟩
            | some ps =>
              if ps.length ≤ x.idx || ps[x.idx]? != some true then
                some ⟨a, .spf, .prototype, true⟩
              else none

/-- An instruction (`DistributionLimits.cpp:169-267`); unknown memory is ignored
(`DistributionLimits.cpp:266`). -/
def insReqs : Ins → List Req
  | .load => []
  | .store addr => (addr.map fun a => (⟨a, .spf, .address, true⟩ : Req)).toList
  | .ret _ => []
  | .mem k accs _ => accs.filterMap (accReq k)

/-- A loop (`DistributionLimits.cpp:268-303`). -/
def loopReqs (l : Lp) : List Req :=
  if !l.known then []
  else if l.scalarDep || l.arrayDep || !l.canonical then []
  else (l.priv ++ l.loc).filterMap fun p => p.map fun a => ⟨a, .spf, .privatizable, true⟩

/-- `APCDistrLimitsChecker::runOnFunction()` (`DistributionLimits.cpp:111-305`). -/
def fnReqs (f : Fn) : List Req :=
  formalReqs f ++ f.body.flatMap insReqs ++ f.loops.flatMap loopReqs

/-- The parameter number `i` of a callee (`DistributionLimits.cpp:329-350`). -/
def paramReqs (actuals : List Bool) (i : ℕ) : Option ℕ → List Req
  | none => []
  | some a =>
    if actuals.length ≤ i || actuals[i]? != some true then [⟨a, .spf, .actual, false⟩] else []

/-- Parameters of a callee which do not correspond to arrays of a caller, from the parameter number
`i` (`DistributionLimits.cpp:328-350`). -/
def callReqs (actuals : List Bool) : ℕ → List (Option ℕ) → List Req
  | _, [] => []
  | i, p :: ps => paramReqs actuals i p ++ callReqs actuals (i + 1) ps

/-- `APCDistrLimitsIPOChecker::runOnModule()` (`DistributionLimits.cpp:312-354`): only registered
functions are visited. -/
def ipoReqs (f : Fn) : List Req :=
  match f.formals with
  | none => []
  | some _ => f.calls.flatMap fun c => callReqs c.1 0 c.2

/-- Both passes (`ClangDVMHWriter.cpp:348-349`): all functions are checked by the first pass before
the second one. -/
def run (fs : List Fn) (st : St) : St :=
  (fs.flatMap fnReqs ++ fs.flatMap ipoReqs).foldl apply st

end Tsar.DistrLimits
