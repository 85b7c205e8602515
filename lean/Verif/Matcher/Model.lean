import Verif.Matcher.Spec

/-!
# Model of the matcher of loops

Models include/tsar/Analysis/AST/Matcher.h (`MatchASTBase`),
include/tsar/Analysis/Clang/Matcher.h (`ClangMatchASTBase`) and lib/Analysis/Clang/LoopMatcher.cpp
(`MatchExplicitVisitor`, `MatchImplicitVisitor`, `LoopMatcherPass::runOnFunction`).

Simplifications.
* The Clang visitor is the list of statements of a function in the order `VisitStmt()` is called.
* `DenseMap` is a partial function. Its order of iteration matters only in `matchInMacro()`, it is
  the parameter `order` there.
* `Bimap` is the list of its pairs. Its `emplace()` does nothing if one of the keys is used; that is
  what `Tsar.Bimap.emplace_result` proves of the container itself.
* An undefined behaviour is the outcome `none`. `asserts` tells whether the program is built with
  assertions.
* Statistics and the update of loop metadata are omitted.
-/
namespace Tsar.Matcher

/-- `llvm::TinyPtrVector<Loop *>`: its elements and whether there were two of them at once (then it
is a real vector for ever). -/
structure Queue where
  items : List IRLoop
  big : Bool

/-- A map from places to queues of loops: AST/Matcher.h:66-71 (`LocToIRMap`). -/
abbrev IRMap := Place → Option Queue

/-- A map from raw positions to queues of statements: AST/Matcher.h:77-82 (`LocToASTMap`). -/
abbrev MacroMap := Nat → Option (List Stmt)

/-- Change one value of a map. -/
def upd {β : Type} (m : Nat → Option β) (k : Nat) (v : Option β) : Nat → Option β :=
  fun k' => if k' = k then v else m k'

/-- `try_emplace(K).first->second.push_back(S)`: LoopMatcher.cpp:109-110. -/
def pushStmt (m : MacroMap) (k : Nat) (s : Stmt) : MacroMap :=
  upd m k (some ((m k).getD [] ++ [s]))

/-- `push_back()` of a queue of loops. -/
def Queue.add (q : Queue) (l : IRLoop) : Queue :=
  ⟨q.items ++ [l], q.big || !q.items.isEmpty⟩

/-- `try_emplace(K).first->second.push_back(L)`: LoopMatcher.cpp:176-177, 294-295. -/
def pushIR (m : IRMap) (k : Place) (l : IRLoop) : IRMap :=
  upd m k (some (((m k).getD ⟨[], false⟩).add l))

/-- `for (auto &Pair : LocToMacro) std::reverse(...)`: LoopMatcher.cpp:313-314. -/
def reverseMacros (m : MacroMap) : MacroMap := fun k => (m k).map List.reverse

/-- `for (auto &Pair : LocToLoop) std::reverse(...)`: LoopMatcher.cpp:301-302, 310-311. -/
def reverseIR (m : IRMap) : IRMap := fun k => (m k).map (fun q => ⟨q.items.reverse, q.big⟩)

/-- The matcher: the maps it looks in, the pairs which are matched and the statements which are
not. AST/Matcher.h:149-152, LoopMatcher.cpp:184. -/
structure St where
  ir : IRMap
  implicit : IRMap
  macros : MacroMap
  pairs : List (Stmt × IRLoop)
  unmatched : List Stmt

/-- `mMatcher->emplace(AST, IR)`: include/tsar/ADT/Bimap.h:420-427. -/
def emplace (m : List (Stmt × IRLoop)) (s : Stmt) (l : IRLoop) : List (Stmt × IRLoop) :=
  if ∃ e ∈ m, e.1 = s ∨ e.2 = l then m else m ++ [(s, l)]

/-- `LocItr->second.back()` and then `pop_back()`: AST/Matcher.h:106-107, LoopMatcher.cpp:124-125.
There is no check that the queue is not empty. If it is, an assertion of `TinyPtrVector` fails; if
the program is built without assertions, the last element of an empty vector is read (undefined) or,
if there has never been a vector, the null pointer is returned. -/
def pop (asserts : Bool) (m : IRMap) (p : Place) (q : Queue) : Option (Option IRLoop × IRMap) :=
  match q.items.getLast? with
  | none => if asserts || q.big then none else some (none, m)
  | some l => some (some l, upd m p (some ⟨q.items.dropLast, q.big⟩))

/-- `findIRForLocation()`: AST/Matcher.h:102-109, Clang/Matcher.h:79-84. -/
def findIR (asserts : Bool) (m : IRMap) (loc : Option Place) : Option (Option IRLoop × IRMap) :=
  match loc with
  | none => some (none, m)
  | some p =>
    match m p with
    | none => some (none, m)
    | some q => pop asserts m p q

section
variable (asserts : Bool) (presumed : Nat → Place)

/-- `VisitFromMacro()`: LoopMatcher.cpp:98-111. -/
def visitFromMacro (st : St) (s : Stmt) (raw : Nat) : St :=
  if s.isLoop then { st with macros := pushStmt st.macros raw s } else st

/-- The first part of `VisitStmt()`: a `for` is looked for at the position of its initialization.
LoopMatcher.cpp:118-149. The outer `none` is an undefined behaviour, the inner one means that there
is no loop at this position. A `for` which is matched with the null pointer is an undefined behaviour
too: everything which looks for the loop of this `for` dereferences it. -/
def visitInit (st : St) (s : Stmt) : Option (Option St) :=
  match s.initPlace presumed with
  | none => some none
  | some p =>
    match st.ir p with
    | none => some none
    | some q =>
      match pop asserts st.ir p q with
      | none => none
      | some (none, _) => none
      | some (some l, ir) =>
        let st' := { st with ir := ir, pairs := emplace st.pairs s l }
        if q.items.dropLast = [] then some (some st')
        else
          let erased := upd st'.ir p none
          match l.header with
          | some h =>
            if s.place presumed = some h ∧ erased h = none then
              some (some { st' with ir := upd erased h (some ⟨q.items.dropLast, q.big⟩) })
            else some (some { st' with ir := erased })
          | none => some (some { st' with ir := erased })

/-- The last part of `VisitStmt()`: a loop is looked for at the position of the statement itself.
LoopMatcher.cpp:150-181. -/
def visitStart (st : St) (s : Stmt) : Option St :=
  match findIR asserts st.ir (s.place presumed) with
  | none => none
  | some (r, ir) =>
    if s.isLoop then
      match r with
      | some l => some { st with ir := ir, pairs := emplace st.pairs s l }
      | none => some { st with ir := ir, unmatched := st.unmatched ++ [s] }
    else
      match r with
      | some l =>
        match l.header with
        | some h => some { st with ir := ir, implicit := pushIR st.implicit h l }
        | none => some { st with ir := ir }
      | none => some { st with ir := ir }

/-- `MatchExplicitVisitor::VisitStmt()`: LoopMatcher.cpp:113-182. -/
def visitExplicit (st : St) (s : Stmt) : Option St :=
  match s.begin_ with
  | .inMacro raw => some (visitFromMacro st s raw)
  | _ =>
    match visitInit asserts presumed st s with
    | none => none
    | some (some st') => some st'
    | some none => visitStart asserts presumed st s

/-- `MatchExplicit.TraverseDecl()`. -/
def explicit (st : St) : List Stmt → Option St
  | [] => some st
  | s :: ss =>
    match visitExplicit asserts presumed st s with
    | none => none
    | some st' => explicit st' ss

/-- `MatchImplicitVisitor::VisitStmt()`: LoopMatcher.cpp:198-215. Here `mLocToIR` is the map of
implicit loops. -/
def visitImplicit (st : St) (last : Option Stmt) (s : Stmt) : Option (St × Option Stmt) :=
  if s.isLoop then some (st, last)
  else if s.kind = .label then some (st, some s)
  else
    match last with
    | none => some (st, none)
    | some lb =>
      match findIR asserts st.implicit (s.place presumed) with
      | none => none
      | some (some l, im) =>
        some ({ st with implicit := im, pairs := emplace st.pairs lb l }, some lb)
      | some (none, im) => some ({ st with implicit := im }, some lb)

/-- `MatchImplicit.TraverseDecl()`. -/
def implicitFrom (st : St) (last : Option Stmt) : List Stmt → Option St
  | [] => some st
  | s :: ss =>
    match visitImplicit asserts presumed st last s with
    | none => none
    | some (st', last') => implicitFrom st' last' ss

/-- The loop which takes pairs of elements from the ends of two queues: AST/Matcher.h:139-143. -/
def popPairs (m : List (Stmt × IRLoop)) : List (Stmt × IRLoop) → List (Stmt × IRLoop)
  | [] => m
  | (s, l) :: r => popPairs (emplace m s l) r

/-- An iteration of the loop of `matchInMacro()`: AST/Matcher.h:121-145. -/
def matchMacro (st : St) (raw : Nat) : St :=
  match st.macros raw with
  | none => st
  | some q =>
    let fail : St :=
      { st with unmatched := st.unmatched ++ q.reverse, macros := upd st.macros raw (some []) }
    match st.ir (presumed raw) with
    | none => fail
    | some irq =>
      if irq.items.length ≠ q.length then fail
      else
        { st with
          pairs := popPairs st.pairs (q.reverse.zip irq.items.reverse),
          macros := upd st.macros raw (some []),
          ir := upd st.ir (presumed raw) (some ⟨[], irq.big⟩) }

/-- `matchInMacro()`: AST/Matcher.h:119-146. -/
def matchInMacro (st : St) : List Nat → St
  | [] => st
  | r :: rs => matchInMacro (matchMacro presumed st r) rs

/-- The function `for_each_loop()` calls: LoopMatcher.cpp:286-297. -/
def addLoop (m : IRMap) (l : IRLoop) : IRMap :=
  match l.start with
  | none => m
  | some p => pushIR m p l

/-- The map from places to the loops which start there: LoopMatcher.cpp:285-302. -/
def build (loops : List IRLoop) : IRMap := reverseIR (loops.foldl addLoop (fun _ => none))

/-- The state before the traversal. -/
def init (loops : List IRLoop) : St := ⟨build loops, fun _ => none, fun _ => none, [], []⟩

/-- `runOnFunction()`: LoopMatcher.cpp:284-317. -/
def run (order : List Nat) (stmts : List Stmt) (loops : List IRLoop) : Option St :=
  match explicit asserts presumed (init loops) stmts with
  | none => none
  | some st =>
    match implicitFrom asserts presumed { st with implicit := reverseIR st.implicit } none stmts with
    | none => none
    | some st => some (matchInMacro presumed { st with macros := reverseMacros st.macros } order)

end

end Tsar.Matcher
