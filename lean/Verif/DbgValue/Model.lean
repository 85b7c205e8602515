import Verif.DbgValue.Spec
import Mathlib.Data.List.Dedup
/-!
# Model of a search for variables which hold a value

`findMetadata(V, Users, DT, DILocs)` of lib/Analysis/Memory/Utils.cpp and functions it uses.

Simplifications: `DominatorTree` is a parameter; containers without an order are lists; `llvm.dbg.value` without
a variable and metadata of constants (they only differ in how uses are found) are not distinguished.
-/
namespace Tsar.DbgValue

/-- `hasDeref`, Utils.cpp:368-373. -/
def Expr.hasDeref : Expr → Bool
  | .other _ d => d
  | _ => false

/-- `mayAliasFragments`, Utils.cpp:376-392. -/
def mayAlias : Expr → Expr → Bool
  | .frag o s, .frag o' s' =>
    if s = 0 ∨ s' = 0 then false
    else o == o' || (decide (o < o') && decide (o' < o + s)) || (decide (o' < o) && decide (o < o' + s'))
  | _, _ => true

variable (F : Func) (dominates : Pos → Pos → Bool) (V : Nat) (users : List Pos)

/-- `llvm.dbg.value` intrinsics of `V` which dominate all users: the filter in `findDomDbgValues`,
Utils.cpp:98-108. -/
def domDbg : List (Pos × Loc) :=
  (List.range F.blocks.length).flatMap fun b =>
    (F.block b).zipIdx.filterMap fun x =>
      match x.1 with
      | .dbg v l => if v = V ∧ l.expr.hasDeref = false ∧ users.all (dominates (b, x.2)) = true then some ((b, x.2), l) else none
      | _ => none

/-- Blocks for a location in the result of `findDomDbgValues`, Utils.cpp:109-112. -/
def domBlock (l : Loc) (b : Nat) : Bool :=
  (domDbg F dominates V users).any fun d => d.1.1 == b && d.2 == l

/-- `findAliasBlocks`, Utils.cpp:122-149: whether a block is in the result. -/
def aliasBlock (l : Loc) (b : Nat) : Bool :=
  (F.block b).zipIdx.any fun x =>
    match x.1 with
    | .dbg _ l' =>
      l'.var == l.var && !l'.expr.hasDeref && mayAlias l'.expr l.expr &&
        !((F.block b).drop x.2).any fun i => i == .dbg V l
    | _ => false

/-- Backward traversal of instructions, Utils.cpp:237-246: `none` if a beginning of a block is reached. -/
def scan (l : Loc) : List Inst → Option Bool
  | [] => none
  | .dbg v l' :: is => if l'.expr.hasDeref = false ∧ l' = l then some (v == V) else scan l is
  | _ :: is => scan l is

/-- The inner loop of the backward traversal, Utils.cpp:260-269: `none` if it is stopped with `break`. -/
def visit (isAlias isDom : Nat → Bool) : List Nat → List Nat → List Nat → Option (List Nat × List Nat)
  | [], wl, vis => some (wl, vis)
  | p :: ps, wl, vis =>
    if vis.contains p then visit isAlias isDom ps wl vis
    else if isAlias p then none
    else if isDom p then visit isAlias isDom ps wl vis
    else visit isAlias isDom ps (p :: wl) (p :: vis)

/-- The backward traversal of a control-flow graph, Utils.cpp:252-275. `none` if there is not enough fuel
(`search_total` shows that it does not happen). -/
def search (isAlias isDom : Nat → Bool) : Nat → List Nat → List Nat → Option Bool
  | _, [], _ => some true
  | 0, _ :: _, _ => none
  | n + 1, w :: wl, vis =>
    match visit isAlias isDom (F.preds w) wl vis with
    | none => some false
    | some r => search isAlias isDom n r.1 r.2

/-- Whether a location holds `V` in a user, Utils.cpp:234-277. -/
def reached (l : Loc) (u : Pos) : Bool :=
  match scan V l ((F.block u.1).take (u.2 + 1)).reverse with
  | some r => r
  | none =>
    (search F (aliasBlock F V l) (domBlock F dominates V users l) (F.blocks.length + 1) [u.1] []).getD false

/-- Locations `findMetadata` adds to `DILocs`, Utils.cpp:225-282. -/
def findMetadata : List Loc :=
  ((domDbg F dominates V users).map (·.2)).dedup.filter fun l =>
    !users.isEmpty && users.all (reached F dominates V users l)

/-- Which of two locations is mentioned first in a block, Utils.cpp:294-300: `false` if it is `l'`. -/
def firstIn (l l' : Loc) : List Inst → Bool
  | [] => true
  | .dbg v k :: is =>
    if v = V ∧ k.expr.hasDeref = false then if k = l then true else if k = l' then false else firstIn l l' is
    else firstIn l l' is
  | _ :: is => firstIn l l' is

/-- The location `findMetadata` returns, Utils.cpp:283-308. `domBB` is dominance of blocks. -/
def findFirst (domBB : Nat → Nat → Bool) : Option Loc :=
  let ls := findMetadata F dominates V users
  let bs := List.range F.blocks.length
  ls.find? fun l => ls.all fun l' => l' == l ||
    (bs.filter (domBlock F dominates V users l')).all fun b' =>
      (bs.filter (domBlock F dominates V users l)).all fun b =>
        if b = b' then firstIn V l l' (F.block b) else domBB b b'

end Tsar.DbgValue
