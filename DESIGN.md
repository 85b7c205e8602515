# Formal model of dvm-system/tsar in Lean 4

## 1. Trusted base

* The Lean 4.33.0 kernel. Each theorem depends at most on the axioms `propext`,
  `Classical.choice` and `Quot.sound`. No axioms are added; no `sorry`,
  `native_decide`, `bv_decide`, `implemented_by` or `unsafe` is used.
* The correspondence between the C++ text in /repo and the Lean definitions. Every
  definition cites the modelled file and lines; it was transcribed by hand.
* Contracts of libraries which are not in the sandbox (LLVM, Clang, bcl). They appear as
  *parameters or hypotheses of theorems*, never as axioms. Section 4 lists them.

## 2. Layout

`lean/Verif/<Area>/Model.lean` — definitions that transcribe the code (with citations).
`lean/Verif/<Area>/Spec.lean` — small specifications that are independent of the model.
`lean/Verif/<Area>/Lemmas.lean` — helper lemmas.
`lean/Verif/<Area>/Props.lean` — the theorems named in MANIFEST.json with, next to each of
them, an `example` which shows that a non-trivial case meets its hypotheses.
Small areas merge Spec into Props.

## 3. Conventions

* Machine integers are modelled as `Nat`/`Int` when a theorem carries explicit
  no-overflow hypotheses or when the code is meant to work on ideal integers; as `BitVec`
  or `% 2^64` when wrap-around is the point.
* Undefined behaviour (`llvm_unreachable`, out-of-bounds access, dereference of an end
  iterator, failed `assert`) is a separate outcome (`none` or a constructor `ub`).
* If the code violates a property, the negation is proved with a concrete witness
  (theorem suffix `_fails`) and the part that holds is kept with the suffix `_partial`.

## 4. Plan per property

| id | what is modelled | proof method |
|----|------------------|--------------|
| C01 | `intersectScalar` over byte ranges; spec = set of bytes | case analysis + omega |
| C02 | `difference` over (start, step, trip count); spec = set of indexes | arithmetic of progressions |
| C03 | one dimension of `intersect`; the bcl Diophantine solver is a parameter with its contract | number theory (Bezout), ceil/floor |
| C04 | the whole loop over dimensions; spec = set of index vectors | induction on the dimension list |
| C05 | same | the documented claim is false: witness; `_partial` for one dimension |
| C06 | `areJoinable`, `join` | induction on the dimension list |
| C07 | `MemorySet::insert` on a map from base to list | induction on the insertion history |
| C08 | `findContaining`, `overlap` | invariant of the Tails loop |
| C09 | `operator==` with `sanitize` | false for strided ranges: witness; `_partial` for byte ranges |
| C10 | `merge`, `intersect` of sets | fold induction |
| C11 | `LocationDFValue` | lattice laws over an abstract location set |
| C12 | queries on FULL | witness of the inconsistency + `_partial` for masks |
| C13, C14 | 19-bit traits | finite table by kernel `decide` over the whole table + bitvector lemmas |
| C15-C18 | generic solver over a finite graph and an abstract lattice | loop invariants, well-founded descent |
| C19 | vector erase loop | induction |
| C20-C22 | reach/live transfer functions, `collapse` (`Verif/Reach`) | executions of nodes are sequences of byte accesses; a def-use set is a correct summary of an execution; induction over executions and over the order of evaluation |
| C23-C25 | ilist + two indexes | invariant over operation histories; erase by key: witness |
| C26, C27 | DFS numbering with both counters | induction on trees; witness on a DAG |
| C28 | DFS with grey/black sets | DFS invariant |
| C29 | register | invariant |
| C30 | intrusive lists of persistent iterators | invariant; witness for assignment |
| C31 | `castAPInt` on arbitrary width values | bit-width arithmetic |
| C32, C33 | `insertDependence`, distance merge | decision table; fold invariant; witnesses |
| C34 | `resolveAccesses` over abstract execution traces of a loop | trace induction |
| C35 | `propagateTraits`, `removeRedundant`, `mergeDependence` on alias trees and a rooted forest | covering relation between lists is transitive; induction on the tree |
| C59 | `storeResults`, `checkFirstPrivate` (`Verif/Private/Store`) | finite tables over parts of traits lifted to all lists; witnesses |
| C36 | `cover` (`Verif/Cover`) over a hierarchy of memory and numbers of an alias tree | induction over the sorted map; exact for disjoint parts; witnesses |
| C37, C60 | `aliasRelation`, `mergeAliasRelation` (`Verif/Alias/Relation`) | arithmetic with wrap-around; induction over lists; witnesses |
| C38, C61 | `AliasTree::insert`, `AliasTree::add` without alias nodes, operations with chains (`Verif/Alias/Chain*`) | invariant over histories: a list of nodes for each base; witness |
| C39-C41 | `divide`, `findGCD`, `computeSCEVAddRec` (`Verif/Scev`); expressions with ring semantics modulo a power of two; `ScalarEvolution` is a parameter with a contract, depth of recursion is bounded by an arbitrary number | induction on the bound; a concrete language of expressions gives witnesses |
| C42 | prime table and Atkin sieve (`Verif/Primes`) | table by kernel computation; sieve: representations by quadratic forms are pairs of opposite square roots modulo n, whose number is odd iff a squarefree n is prime |
| C43 | `parseIncrement`, `parseCondition`, `transformLoop` on values of the header (`Verif/Loop`), C arithmetic with undefined overflow | form of an exact run, quotient lemma, run of the new header; witnesses for empty, unsigned and negative-step loops |
| C44 | `ToTransform` bit vector (`Verif/Loop`) | exact description of the fold: a position survives iff only greater positions follow; witness + `_partial` |
| C45 | clauses, `ValueSwaps`, `Order`, written headers (`Verif/Loop/Interchange`) | swaps of values = composition of transpositions by induction over clauses; exact headers; witness for a variable named `interchange` |
| C46 | the search loop (`Verif/Support/Argument`) | induction over arguments: exact result is argument N+1; `_fails` for every function, `_partial` for absent arguments |
| C47 | constructors, factory functions and `runOnModule` of the closing pass (`Verif/Support/Socket`); an uninitialised flag is an arbitrary value | case analysis over all histories of the list; two `_fails` |
| C48 | effects of `create`, writing, `clear` on a map from paths to contents (`Verif/Support/OutputFile`) | every prefix of the list of effects is a crash point; three `_fails` |
| C49 | `Records` and generated tables as lists; lookups with assertions as a separate outcome | case analysis of the search; reserved names give a counterexample |
| C50 | analysis results for a loop (`analyze`), the check of a loop (`verdict`), calls and control-flow attributes as fields; empty set of traits is a distinct outcome | case analysis of the check; C72 for nodes with several locations, C73 for coverage; invariant of the loop which replaces traits of dereferences |
| C51 | single tests of `DependenceAnalysis.cpp` (`Verif/DepTest/Siv`, `Sub`); scalar evolution is a parameter with laws (`SE.Laws`) | divisibility and ordering of integers; strong SIV needs a recognised sign (`_fails`) |
| C52, C53 | `addNode`, `buildLoopRegion` (`Verif/Region`) | history induction; edges counted twice for the mirror; positions in a reducible graph for acyclicity. C20, C21 are instantiated for built regions |
| C58 | `erase(iterator, iterator)` of bidirectional maps (`Verif/Bimap`) | false for every non-empty range |
| C57 | `findParent`, `findLCA` | induction on the path to the root |
| C62 | predicate of a canonical loop (`Verif/Loop`) | case analysis; witness for each predicate |
| C63 | both functions `coherent` (`Verif/Loop`) | case analysis, termination by the distance to the bound; witness for `<=` |
| C64 | list of sockets with the active index (`Verif/Support/Socket`) | invariant by induction over operations; `_fails` for histories without an activation |
| C65 | callbacks, responses, `wait`, `getAnalysis`, `close` (`Verif/Support/Socket`); the server is an arbitrary function of the history | induction over the waiting loop; `_fails` for closed sockets |
| C66 | `ActiveFunc`, `ActiveIDs`, search for passes and providers (`Verif/Support/Response`) | exact effect of a request, invariant over histories; `_fails` for every server |
| C67 | client and server as two threads with rendezvous (`Verif/Support/Protocol`) | invariant `Fits` over all schedules, measure for termination; equivalence with correctness; instances for the real pipelines |
| C68 | tables of offsets and prototypes produced by TableGen for an arbitrary list of clauses | induction over the list of clauses and over nested expressions |
| C69 | the visitor as a machine with explicit stacks of levels and of backtrack positions (one step is one iteration of a loop); a language of a prototype as an inductive relation | greedy parse relation simulates the machine; parse relation is total, sound, and complete for LL(1) prototypes; conditions are checked for the whole table by `decide +kernel` |
| C70 | the loop over clauses and registration of handlers; a line is a list of tokens | strong induction over the number of tokens which are left; C49, C68 and C69 are used for one clause |
| C71 | statements as a tree; relation `Ast` between tokens and trees | uniqueness of parsing by induction; lookups from C49 |
| C72 | `combineTraits` over a list of locations, traits from the model of C13/C14 | the loop is described by the meet of bit representations of counted locations; finite tables of legal descriptors |
| C73 | both coverage searches and marking of descendants over inductive trees | a common description of a top-down walk, induction over trees |
| C74 | exact SIV, exact and symbolic RDIV, Banerjee inequalities (`Verif/DepTest/Exact`, `Banerjee`) | window of solutions of a Diophantine equation; bounds of each direction; induction over explored levels; witness for a common divisor |
| C75 | `intersectConstraints`, `propagate*`, `updateDirection` (`Verif/DepTest/Constraint`) | linear algebra for pairs of iterations, induction over loops and subscripts |
| C76 | the partition loop of `depends` (`Verif/DepTest/Depends`, `Partition`) | invariant over iterations; groups are classes of the generated equivalence |
| C77 | `establishNestingLevels`, `mapSrcLoop`, `mapDstLoop` on paths in a loop forest (`Verif/DepTest/Levels`) | common prefix of two paths |
| C78 | the whole `depends` for linear subscripts (`Verif/DepTest/Depends`, `DependsSound`): a run is a result and a list of calls of single tests; an uninitialised level is a distinct outcome | Hoare-style specification of each stage under conditions on calls; four `_fails` |
| C79 | `weakCrossingSIVtest` (`Verif/DepTest/Siv`) | arithmetic of the split point |
| C80 | `combineIf` (both versions), `combineWith`, `allUsesReplacedWith`, constructors of `DIDependence` (`Verif/DIDep/Model`) | a specification of one step which both versions of `combineIf` satisfy, composition of three steps, tables of alternatives for the final update; induction over bound values |
| C81 | `clarifyDescriptor`, `clarify`, `moveIf`, `isLockedTrait`, `addOrUpdateInPool` (`Verif/DIDep/Model`) | classification of outcomes of `clarifyDescriptor`, semantics of claims (`Facts`, `Sound`), induction over histories |
| C82 | `cleanSubscripts`, `addExtraConstZero` (`Verif/Delin/Model`); sizes and subscripts are expressions of `Verif/Scev`, row-major address is a separate specification | induction over the loop over dimensions, soundness of division (C39), negations with concrete arrays |
| C83 | `fillArrayDimensionsSizes` (`Verif/Delin/Model`, `Fill`); loops with accesses are a parameter | invariant of the loop over dimensions from the last to the first one, soundness of GCD (C40) |
| C84 | `extractSubscriptsFromGEPs`, creation of ranges in `collectArrays` (`Verif/Delin/Model`, `Extract`) | induction over a chain of address computations |
| C85 | `POFunctionAttrsAnalysis::runOnSCC`, `addNoIOAttr`, `addAlwaysReturnAttr`, `LoopAttributesDeductionPass`, checks of `ParallelLoopPass` (`Verif/Attrs/Model`) | invariant over strongly connected components in the order of `scc_iterator`; reachability in a call graph is a separate specification |
| C86 | `addLibFuncAttrsTopDown`, `RPOFunctionAttrsAnalysis`, search for indirect calls (`Verif/Attrs/Model`) | monotonicity of the top-down pass, structural induction over users |
| C87 | `GlobalsAccessCollector::runOnModule` (`Verif/Attrs/Model`, `Globals`) | lower and upper bounds of the set as an invariant over components, structural induction over operands |
| C88 | `aggregate()` of DefinedMemory.cpp (`Verif/DefUse/Aggregate`) | induction over subscripts; bytes of a range of elements are compared with bytes accessed on all iterations of loops |
| C89 | `initialize()`, `AddKnownAccessFunctor`, `AddUnknownAccessFunctor` of DefinedMemory.cpp, `for_each_memory()` for simple instructions (`Verif/DefUse/Block`, `BlockFails`, `Bridge`) | invariant over instructions, accesses and visited locations; sets of bytes at addresses are a separate specification |
| C90 | kinds of accesses of calls in `initialize()` of DefinedMemory.cpp, `isPure()`, `stripPointer()` (`Verif/DefUse/Call`) | decision logic over correct def-use sets, structural induction over pointers |
| C91 | `Verif/Calls/Extract.lean`: blocks, `visit`, `extractLoop` (worklist with the measure 2·size+1), `checkCalls` | each visit is at most two splits; a split keeps the set of traces (`run_split`, induction over traces in both directions); isolation by induction over the worklist; `checkCalls_iff` gives the exact meaning of the check |
| C92 | `Verif/Calls/GlobalLive.lean`: `scan`, `mayLives`, `callOut`, `step`, `runOnModule` over byte sets of C07-C10 | induction over chains of activations; consistency of results by induction over the order of functions; four necessary restrictions have `_fails` theorems (`GlobalLiveMore.lean`) |
| C93 | `Verif/NoCapture`: search of `isCaptured` over a function given by kinds of values and lists of uses (registry of ranks, seen instructions, queue); semantics with registers, objects and pointers marked as derived from the parameter, any order of instructions | invariant of the search (all constraints of visited values hold), then invariant of executions: words, registers and objects agree with ranks; termination by the number of values which are not registered |
| C94 | `Verif/Rename`: the visitor of `rename` directives as a transformer of a sequence of events (scopes, directives, declarations, references); name resolution is a separate specification (`walk`) | invariant: new environment is the old one with changed names, changes are injective and new names are outside of the original ones; search of a name succeeds by the pigeonhole principle |
| C95 | `Verif/Rewriter`: `RewriterBaseImpl` (buffer and table with two entries per character), `ExternalRewriter::RemoveText` | refinement: the specification is a list of pieces (inserted text and initial character or replacement); the invariant relates two entries of each piece with sizes of texts before them; requests are admissible if they do not cut replaced ranges, a separate invariant over histories |
| C96 | `Verif/PtrReg`: blocks, phi-nodes, loads and stores of the promoted location, other instructions with arbitrary effects; `insertPhiNodes`, `handleLoads`, `fillPhiNodes`, `deleteRedundantPhiNodes` and the load/store around the loop as functions on control-flow graphs | Invariant of the depth-first traversal (the value known in registers at each point dominates it), forward simulation of blocks, simulation for the removal of each redundant phi-node. Partial: three defects, see §6 |
| C97 | `Verif/Unreach`: trees of C statements and expressions with marks of coverage data, `edit` gives the tokens of the text after the visitor (`Model`); grammar rules and execution are in `Spec`, restrictions in `Safe` | Structural induction: each visited construct is the text of a tree with the same grammar class and equal runs (`Good`, `GoodS`); runs are functions with a bound for the number of repetitions of loops, equality holds for each bound. Partial: defects, see §6 |
| C98 | `Verif/Coverage`: list of segments, binary search and scan with a distinct outcome for reading out of the list | Invariant of the search (segments before `BI` start before the position, segments after `EI` do not), induction for the scan; the specification quantifies over positions of the range. Partial, see §6 |
| C99 | `Verif/AstDep/Model` (evaluateDependency, findDecl, localize and the visitor of references), specification `Handled` | Invariants of the loop over nodes: state only grows (`Le`), each node is handled after its step, each element of a list has an origin (`Org`), each marked reference has a location (`RefInv`, `Looks`) |
| C100 | `Verif/AstDep/Exec`: small-step semantics of a team of threads with private, firstprivate, lastprivate and reduction copies and arbitrary interleavings; `Clauses`: inserted clauses | `parallel_sequential`: a simulation invariant, each iteration of each thread performs the accesses of the sequential iteration; the theorem combines it with C99 and C50. Partial: cases excluded by `Plain`, see §6 |
| C101 | `Verif/Canon/Model`: findLastWrite, findLastCmp, isLoopInvariantMemory and checkLoop over trees of instructions; `Spec`: executions of instructions with histories of states | The increment is the only write (`findIncrement_spec`, counting of writes), one iteration adds the step (`iteration_value`), induction over iterations. Partial: see §6 |
| C102 | The same model, `Fixed`: an expression has one value in a set of states | Mutual induction over instructions and operands (`invariant_fixed`), the reported expressions are parts of accepted instructions (`invariant_good`). Partial: phi-nodes |
| C103 | `Verif/Ordered/Model`: makeOrderedRange, OMPOrderedDirective, extension of a nest, buildOrederedSink | Hulls of ranges (`hull_covers`), the set of enumerated vectors (`mem_buildSink`), invariant of the nest (`extend_spec`). Specification: times of iterations which obey `depend(sink)`. Partial: see §6 |
| C104 | `Verif/DeadDecls/Model`: DeclVisitor, eliminateDeadDecls, findSideEffect | Invariant of the visitor (`visit_res`: a mentioned declaration is never dead again), simulation of executions (`run_sim`), scopes (`prune_ok`), groups (`keepGroups_whole`), completeness (`visit_keep`). Specification: semantics of a small C-like language and its scoping rules. Partial: see §6 |
| C105 | `Verif/Inline/Model`: TraverseCallExpr, compile, HandleTranslationUnit (text is a tree: braces and the place of insertion decide which one) | Simulation by induction on executions (`simS`, `simSs`), on the depth of nested expansions (`inline_ok`) and on the depth of calls (`inline_partial`). Specification: small-step semantics of expressions with unspecified order of evaluation, big-step semantics of statements with prefixes of infinite executions (`Verif/Inline/Lang`). Witnesses of errors are evaluated with a checker of all behaviours which is proved to be sound (`Verif/Inline/Check`). Partial: see §6 |
| C106 | `Verif/Inline/Recursion`: findRecursion with unordered sets, graph of calls of a program | Invariants of the search, a bound on walks (pigeonhole), expansion does not depend on the depth if there are no cycles (`inline_depth`). Partial: see §6 |
| C107 | `Verif/Inline/Suffix`: addSuffix | Decimal notation is injective, pigeonhole |
| C108 | `Verif/Unparse/Model`: SourceUnparserImp (all functions), getOffsets, getSize | Specification (`Verif/Unparse/Spec`): the grammar of C expressions as an inductive relation on tokens, a meaning of expressions for a layout of types and a content of memory, a stack machine for DWARF. Invariant `Loc`: a prefix, a variable and a suffix are an expression of the level of the last priority, it designates the current address. Induction on types (`inner_ok`) and on dereferences (`walk_ok`). The grammar is not ambiguous: a parser finds each derivation (`Verif/Unparse/Parse`). Partial: see §6 |
| C109 | `Verif/Unparse/Build`: buildDIExpression, buildDIMemory on words of expressions | Words are concatenations of blocks (an offset, a dereference), the scan finds the last operation (`lastOp_blk`), a DWARF machine is run on blocks. Partial: see §6 |
| C110 | `Verif/Unparse/Build`: operator==, operator!=, DenseMapInfo | Case analysis. Partial: see §6 |
| C111 | `Verif/DbgValue/Model`: findMetadata (for a list of users), findDomDbgValues, findAliasBlocks, mayAliasFragments | Specification (`Verif/DbgValue/Spec`): paths in a graph, a state maps bits of variables to the value they were associated with. The set of blocks the backward traversal leaves is closed (`search_closed`), so the last intrinsic which changes the location on a path is in a block which is not an alias (`back_closed`) and it is for the value; a definition of the value after it would give a path which avoids a dominating intrinsic (`not_dfn`). Partial: see §6 |
| C112 | `Verif/Propagate/Model`: DefUseVisitor (the traversal, stacks of visible declarations, checkAssignmentRHS, VisitDeclRefExpr) | Specification (`Verif/Propagate/Spec`): scopes and resolution of names, values of trees and of texts. Invariant: stacks are declarations of open scopes with the same name (`inv_run`), each replacement has the value of the variable in states which agree with the analysis (`run_all`). Induction on events and expressions. Partial: see §6 |
| C113 | `Verif/Propagate/Avail`: findAvailableDecls, rememberPossibleAssignment for straight-line code | Values of variables are the values of their SSA terms (`symAt_val`), induction on statements. The result is a premise of C112. Partial: see §6 |
| C114 | `Verif/Propagate/Examples`: excludeIfAssignment | Induction on left-hand sides. Partial: see §6 |
| C115 | `Verif/Matcher/Model`: queues of loops by place, both visitors and the matching in macros (LoopMatcher.cpp, AST/Matcher.h) | Specification (`Verif/Matcher/Spec`): places of statements and loops. Invariant on queues, pairs and macros (`Inv`, `SOwned`), induction over the traversal |
| C116 | the same | The queue at a place is the list of loops without a prefix as long as the number of visited statements (`Rel`); induction over the traversal |
| C117 | the same; taking the last element of an empty queue is a distinct outcome (`none`) | `Bad` characterises the failure of each step, `explicit_crash_iff`. Partial: see §6 |
| C118 | the same | Invariant `AfterLabel`. Partial: see §6 |
| C119 | `Verif/SrcLoop/Model`: LoopVisitor of PerfectLoop.cpp as a recursion on trees of statements | Specification `Perfect` (`Verif/SrcLoop/Spec`): the body without braces. The counters are the number of outermost loops and presence of other statements; induction on trees |
| C120 | `Verif/SrcLoop/Model`: LabelVisitor and Visitor of ControlFlowTraits.cpp, sets keyed by statements | Specification `At`, `Leaves`: a statement with all statements which enclose it. Each statement is visited with the scopes which enclose it (`traverse_at`), the first inserted flags are the right ones (`traverse_from`) |
| C121 | the same | `traverse_from`; negations with concrete programs. Partial: see §6 |
| C122 | the same; a failed assertion is the outcome `none` | `traverse_none`, an equivalence by induction on trees. Partial: see §6 |
| C123 | the same | `traverse_at`, `traverse_from`. Partial: see §6 |
| C124 | `Verif/DeadStore/Model`: NoMetadataDSEPass with a list of accesses, loops with an explicit bound; use of an erased instruction is a distinct outcome | Specification `DeadStore` (the alias set is accessed by stores to variables without metadata only). Invariant of the worklist `Ok`: everything in it is not erased and is without memory accesses; a measure on rounds; maximality by the last round |
| C125 | `Verif/DeadStore/Spec`: functions as lists of blocks with opaque meaning of instructions, executions of any length | Simulation: states agree on remaining instructions, live memory and events (`Kept.step`, `Kept.exec`). Partial: see §6 |
| C126 | `Verif/Extern/Model`: AnalysisReader (caches are partial functions), files are values | Specifications `Denotes`, `TheLoop`, `Describes`, `Imported` quantify over lists of the file. Folds are characterized by induction (`traits_exact`, `loop_exact`), then `load_exact` for all loops and locations |
| C127 | the same | Inversion of the update into `Step`, then each kind of a trait. Partial: see §6 |
| C128 | the same | `import_distance_partial`, `import_total`. Partial: see §6 |
| C129 | the same | Invariant `Valid`; the result of a step is a fixed point of a step (`Step.again`), lifted to the file |
| C130 | `Verif/Extern/Model`: AnalysisWriter | `At` (what a loop of a file states about an index); invariant of the list of variables `Inv`, induction over locations and over loops, then composition with import. Partial: see §6 |
| C131 | AnalysisReader | Specifications `ListedPure`, `AsPure` |
| C132 | composition of both | `exported` is what is read (C130); inversion of the update. Partial: see §6 |
| C133 | `Verif/StructRepl/Model`: ReplacementSanitizer as a traversal with its flags, replacement of ranges as rewriting of a tree | Invariant of the traversal `spec_trav` (candidates only decrease, a base is recorded or erased). Partial: see §6 |
| C134 | `Verif/StructRepl/Sem`: locations, values, executions of expressions with loops, choices and external effects | Simulation `sem_rw`, `run_rw` for each expression; marks of assigned members `marks_trav`. Partial: see §6 |
| C135 | `Verif/StructRepl/Call`: edits of the list of parameters as tokens, metadata, the pragma | Specification `formals`/`separated` is independent of edits; induction over parameters. Partial: see §6 |
| C136 | `replaceCall` for one argument | Case analysis over kinds, values of `sem`. Partial: see §6 |
| C137 | `Verif/StructRepl/Fill`: one pass as a list of actions over all functions | Specification `Closed`; measure (number of missing members and flags) for termination. Partial: see §6 |
| C138 | `Verif/StructRepl/InCalls`: passes over functions with candidates and requests | Specification `Consistent`; measure (number of candidates and requests). Partial: see §6 |
| C139 | `Verif/Weights/Model`: binary search over a list of segments | Specification `Count` is the last segment; induction over steps of the search for any decomposition of the list |
| C140 | processing of components of a call graph in the bottom-up order | Specification `sumOf` with final weights; invariant that weights of callees are final; uniqueness by induction over the order |
| C141 | processing of loops with undefined division as a distinct outcome | Specification `LoopOk`; maps only grow. Partial: see §6 |
| C142 | `Verif/DepInline/Model`: requests, worklist, marks | Specification `Reaches`, `Cause`; invariant of the worklist, measure for termination. Partial: see §6 |
| C143 | costs and decisions of the inliner, sizes after inlining | Arithmetic; exponential lower bound by induction. Partial: see §6 |
| C144 | `Verif/NotInit/Model`: two loops of the pass over a tree of memory | Specification `Uninit`, `Inner`; invariant of the first loop for each prefix of uses; membership after the second loop for any order |
| C145 | the same model, bytes of memory are a parameter | The largest element of a chain is reported. Partial: see §6 |
| C146 | `Verif/DvmhData/Model`: post-order traversal of the graph of replacements, disabling of optimization | Inductive specification `Done`; invariant of the traversal (`Local` flags of each finished node). Partial: see §6 |
| C147 | the same model | Cases of the selection, the invariant of the traversal, membership lemma for `disable` |
| C148 | `Verif/DvmhMerge/Model`: `AlignLess` as a recursive comparison of subscripts | Induction over subscripts; `significant` says which part of subscripts is compared. Partial: see §6 |
| C149 | the same model: sort and the merging loop near a statement | Inductive specification `Groups`; invariant `Coll` of collected variables; stability of merge sort. Partial: see §6 |
| C150 | `Verif/DvmhCoherent`: `addGetActualIf`, `addTransferToWrite`, `processBB`, directives at the entry and at exits; a machine with host and device copies of each element | invariant of copies, induction over steps; refinement of a single memory |
| C151 | `Verif/DvmhCoherent`: `collectInCallee` | case analysis; refinement as in C150 |
| C152 | `Verif/DvmhAcross`: `processRegularDependencies` (DVMHDirecitves.cpp) | invariant of the found dimension over monoms, subscripts and accesses; the depth is a minimum over distance vectors |
| C153 | the same; iterations `i0 + s*k` and subscripts `a*i + b` are a specification | linear arithmetic for all iterations |
| C154 | `Verif/DvmhAcross`: updates of a directive in `exploitParallelism` (DVMHSMAutoPar.cpp) | invariant, induction over loops of a nest |
| C155 | `Verif/DvmhAcross`: a loop over traits in `evaluateDependency` | case analysis, induction over traits |
| C156 | `Verif/DvmhRegions`: `mergeRegions`, directives of loops are lists | induction over loops between the first and the last ones |
| C157 | `Verif/DvmhRegions`: `mergeSiblingRegions` | induction over statements in a scope; counterexamples for different kinds of regions |
| C158 | `Verif/DvmhRegions`: `optimizeLevelImpl` | induction over accesses, subscripts and monoms; counterexamples for several accesses |
| C159 | `Verif/DvmhRegions`: `sanitizeAcrossLoops` | case analysis; a counterexample for a loop without a region |
| C160 | `Verif/OptRegion`: `RegionDirectiveVisitor` over trees of statements; a specification without a stack | mutual induction over statements; counterexamples for misplaced directives |
| C161 | `Verif/OptRegion`: three stages for each strongly connected component, a single region | invariants of stages, induction over components |
| C162 | `Verif/OptRegion`: `OptimizationRegion::contain` with a cache | induction over queries |
| C163 | `Verif/ArrayAccess`: `DIArrayAccessInfo::add`, `scope_accesses`; scopes are ranges of one list | invariant: each scope is a contiguous segment of the list; preserved by insertion |
| C164 | `Verif/ArrayAccess`: `DIArrayAccessInfo::erase`, histories | the same invariant for histories; the full statement is refuted |
| C165 | `Instrument`: a function is a graph with lists of targets, instrumentation of loops edits it in the order of the traversal of the loop tree | a map from new blocks to original blocks at the end of chains of new blocks is preserved by each edit, chains have a rank (`same_control_flow`, `same_targets`) |
| C166 | `Instrument`: events in blocks, a dynamic analyzer is a stack of loops | each block has a stack which does not depend on a path, invariant of each edit (`events_exact_partial`); two edges to the same exit are a counterexample (`double_exit_fails`) |
| C167 | `InstrEntry`: a call graph with direct, casted and unknown callees, traversal with a set of visited functions | visited set is closed and sound, fuel is sufficient (`exclude_partial`); a chain through a casted callee is a counterexample (`cast_callee_fails`) |
| C168 | `InstrEntry`: a trace of calls of the library at the beginning of an entry point, the generated loop over types | induction on modules, the loop is a map (`type_ids_exact`) |
| C169 | `InstrEntry`: the last call of `init_di` for an index | induction on modules (`pool_partial`), two modules with the same index (`shared_pool_fails`) |
| C170 | `InstrEntry`: suffixes used in modules, the search of a suffix | suffixes are strictly increasing (`names_partial`), a conflict with an existing name (`name_conflict_fails`) |
| C171 | checks of loops in strict mode (`Verif/InterchangeSem`), big-step meaning of a nest of loops, meaning of traits | a nest executes a list of iterations; lists for permuted headers are permutations; iterations are independent at the first level where they differ, so each shared location is written once, reductions commute, private locations are never read before they are written; witnesses for starts, calls and empty loops |
| C172 | `TraverseForStmt`, `checkLoop`, `isMemoryAccessedIn` (`Verif/InterchangeSem`) | induction over the list of traits; exact conditions in strict and nostrict modes |
| C173 | both passes of `DistributionLimits.cpp` (`Verif/DistrLimits`) | exact characterisation of requests by induction over instructions, loops and parameters; witnesses for a returned address and unknown memory |
| C174 | flags, guards and messages (`Verif/DistrLimits`) | invariant of the fold over requests; requests are exactly reasons of the specification |
| C175 | `FileTree`: insertion, links between files, search, roots | invariant of the loop over includes with one unlinked file |
| C176 | depth first traversal of the sorted tree | induction on depth, places are lists of offsets in lexicographic order; equal offsets are a disagreement |
| C177 | `root_size()`, several translation units | partial, two disagreements with witnesses |
| C178 | `NoMacroChecker`: active clause during traversal of a syntax tree | mutual induction on trees and lists of children; a dangling clause is a disagreement |
| C179 | `ClangNoMacroAssert::runOnFunction` for all functions of a module | induction on the list of functions; two disagreements with witnesses |
| C180 | `AtomicallyMovedFile`: states of files between system calls | trace of states, induction on portions of data; two disagreements |
| C181 | `getDumpFilenameAdjuster()`: counters and printed numbers | induction on a history, injectivity of decimal notation; truncation is a disagreement |
| C182 | `GlobalInfoExtractor::TraverseDecl`: outermost declarations | mutual induction, equality with an independent enumeration of global names |
| C183 | matching of variables in macros: sorting by names, comparison of numbers, pairs | uniqueness of a sorted permutation; dropped variables are a disagreement |
| C184 | matching of global variables in the loop over functions | induction on functions; repeated declarations are a disagreement |
| C185 | the pass over sorted variables and sorted metadata of a scope | induction on metadata with strictly ordered lists |
| C186 | `Verif/ToolRun`: the loop over sources in `Tool::run()` | induction over sources, lists are filters; counterexamples for AST files |
| C187 | `Verif/ToolRun`: `executeIRAction()` and the exit code | induction over files; the counter is the number of parsed files |
| C188 | `Verif/ToolRun/Options`: assignments of weights and the check for LLVM IR | direct; both parts of the claim are violated by the code |

## 5. External contracts

* `llvm::df_iterator` / `po_iterator`: described by the recursive depth-first search
  (`Graph.numberFrom`, `Graph.postOrderFrom`). Each child is tested by `insert()` of the external
  storage; `completed()` is called after the last child.
* bcl linear Diophantine solver: hypothesis `SolverOK` (a particular solution and the step, or no
  solution), shown to be satisfiable by `refSolver`.
* bcl `TraitDescriptor::set<...>()`: sets the listed traits and unsets traits which are alternatives
  (a part of the model of `toDescriptor`).
* `aggregate()` of DefinedMemory.cpp: an oracle in C22, which supposes that it keeps bytes of a
  location, i.e. locations which depend on an induction variable are out of scope; it is modelled in C88. `pointsToLocalMemory` and
  `getTopLevelParent` are oracles without assumptions.
* `getSmallConstantTripCount()`: 0 or the number of executions of the loop header.
* `llvm::LoopInfo` (C53): inner loops are disjoint, headers dominate their loops, only a header has
  predecessors outside of its loop, back edges of reachable blocks are known (`Lp.Wf`, `Natural`).
* Different base pointers mean different objects in C20-C22 (aliasing is resolved before).
* `llvm::DenseSet`/`DenseMap`: sets and maps; a probe may read the key of any element (C23-C25, C58).
* LLVM dependence test (C32, C33): an answer describes all pairs of iterations with a dependence
  (`Describes`, `DescribesDist`: `nullptr` means independence, directions and distances of levels are
  correct if a dependence is not confused). Mod-ref queries, `nomem` queries and markers of intrinsics in
  `collectDependencies()` are correct (`Sound`).
* `llvm::ScalarEvolution` (C33): operations on constants are exact 64-bit operations and `getSMaxExpr`,
  `getMinusSCEV` keep the value of an expression (`SE.Sound`).
* C34 (`Facts`): `DefUseSet`, live sets, reach sets, loop invariance and the dependence map describe all accesses to
  bytes of a location (aliasing is resolved by these analyses; `collapse()` extends variant accesses to the
  whole array). C59: the search in `checkFirstPrivate()` is an oracle (`cover` is C36).
* `std::size_t` of reverse post-order numbers is an integer in the model; `numberGraph_range` shows
  that the numbers stay in `[1, size]`, hence no wrap-around is possible.
* `Verif/Alias`: LLVM's alias analysis, `GetPointerBaseWithConstantOffset` (`Llvm.Sound`, addresses of pointers in an
  execution); a known `LocationSize` is less than 2^63. `stripPointer`, `isSameBase`, `isSamePointer` and
  `stripMemoryLevel` are arbitrary functions (`Env`) for C38. `bcl::ChainTraits` functions forward to the class.
* `llvm::ScalarEvolution` (C39-C41): `Se.Sound`: constructors keep types and values modulo 2^w, operands of a recurrence
  are invariant in its loop, value of a recurrence is start + iteration * step. Nothing is supposed about the rewriter of
  parameters except for invariance. `exSound` shows that the contract is satisfiable.
* `std::sqrt()` (C42) is exact for bounds less than 2^31 (IEEE 754 correct rounding).
* Loop headers (C43, C44, C62, C63): initial value, bound and step are values of one integer type and do not change in the
  loop (`isCanonical()`); pasted texts are read as if they were parenthesised; constants of the induction trait satisfy
  `Consts.Describes` (computed for a loop tested at the top). Matchers of Clang, dependence checks and the rewriter are not
  modelled.
* Loop interchange (C45): `Checks` (the check of a loop rejects a loop without a canonical induction variable) and `Distinct` (declarations of induction variables of different loops of a nest differ) are assumptions. The effect of the interchange on the meaning of the program is decided by dependence analysis and is not modelled.
* Sockets (C65, C67): `bcl::Socket` and `bcl::IntrusiveConnection` are not in the repository. A callback is an arbitrary list of responses to a history of requests, which `send` stores in the socket before the callback returns; `answer` blocks until a request comes. JSON encoding is not modelled. Several simultaneous connections are modelled in the list of sockets only (C64), the protocol is modelled for one connection.
* Output files (C48): `rename` of the operating system is atomic; `TempFile::keep` of LLVM renames, or copies if it cannot; a temporary file has a name which differs from the destination. Data reach the disk in the order of writing. Removal on signals is not modelled.
* Responses of a server (C66): the legacy pass manager has one object per required function pass and executes all of them on each access for a function.
* Clang parses `"name";`, expression statements and compound statements of a replacement as described by the relation `Ast` (Verif/Directives/Ast.lean); an implicit cast of a string literal is ignored. Locations of tokens and source ranges are not modelled. `Preprocessor::LexUnexpandedToken` returns tokens of the line up to `tok::eod`.
* `bcl::TraitDescriptor` (set, update, is): setting an alternative removes traits of the descriptor which do not belong to a common union with it (Parallel: `setDep`). A descriptor of a memory location has at least one alternative, and all of them belong to one union (`Legal`). Sets of locations for alias nodes (`analyzeNode`), attached descriptions of dependencies and the list of locations through which memory is accessed indirectly are inputs of `analyze`.
* Results of other passes used by the check of parallel loops (attributes of loops and functions, mapping to a server) are fields of `LoopInfo` and `Callee`.
* `llvm::ScalarEvolution` for dependence tests (`SE.Laws`, `SE.SumLaws` in `Verif/DepTest`): expressions are integers in a state of the program, operations do not overflow, answers of `isKnownPredicate` hold in every state, the backedge-taken count bounds numbers of iterations. `isKnown_wrap_fails` shows that a difference which wraps violates the first law; overflows are outside the model.
* C80, C81: a value attached to a trait is lost when the trait is unset and is kept by `bcl::trait::update` otherwise; `APSInt` constants of one level of a distance vector have the same width and signedness.
* C82-C84: types are unique; `getTruncateOrZeroExtend` keeps an expression of the same width; widths of subscripts are equal to the width of an index. Not modelled: metadata (`findArrayDimensionsFromDbgInfo`), search for an underlying object, `isKnownDimSize` (a size is either an expression or unknown), `updateRangeCache`. A subscript which is divided by an unknown size is an undefined outcome.
* C85-C87: `scc_iterator` visits strongly connected components of a call graph, each component once and callees before callers (`Order`); an indirect call is an edge to a node without a function; sets of library and input/output functions (`TargetLibraryInfo`, a list of intrinsics) are attributes of a function in the model; `getUnderlyingObject` skips address computations. Not modelled: `FunctionMemoryAttrsAnalysis`.
* C88: subscripts after delinearization, `computeSCEVAddRec()`, `getSignedRangeMin()` and `getSmallConstantTripCount()` are input data; `Regular` says when the lower bound is exact. Offsets are unbounded.
* C89: alias analysis is sound (`Llvm.Sound`); a traversal of the alias tree visits all explicit locations which may overlap with an accessed one (a part of `Acs.Does`); addresses of pointers do not change while a block is executed; `aggregate(nullptr, Loc)` keeps bytes (proved for correct delinearization, `aggregate_bytes`).
* C90: a def-use set of a callee describes its execution (`Describes`, C89 and C22).
* C91: `BasicBlock::splitBasicBlock` moves the tail of a block to a new block which follows it, adds an unconditional branch and updates PHI-nodes of successors. Values are not modelled.
* C92: the solver of live memory (C21) is a parameter (`Site.liveAt`), its contract is the field `Link.live`; `scc_iterator` visits callees before callers (`Ordered`); `for_each_memory` reports each pointer argument (`Link.params`); functions called by library functions have an edge from the external node.
* C93: lists of uses are complete; `nocapture` of a callee means that it does not write or return the operand itself (words stored in accessible memory may be copied); functions with `LibFunc` and intrinsics, for which the pass sets `nocapture` unconditionally, do what the attribute says; `noalias` of a result means a new object; memory is a map from objects and offsets to words (no partial writes of pointers), control flow is not restricted.
* C94: `Identifiers` contains all names in the text (raw lexing of all visited files); clang resolves names according to nesting of scopes; replacement of text at a location does what it says. Linkage of local `extern` declarations (which are also renamed by the pass) is not modelled.
* C95: `Lexer::getSourceText` and `MeasureTokenLength` return sizes of ranges; `std::string::replace` throws for a position outside of the string and accepts a huge count. `#line` directives, which make presumed columns wrong, are not modelled. The Flang rewriter shares `RewriterBaseImpl`, but its initial table (`Map`) is not modelled.
* `PtrReg`: `hasAmbiguousAccessesOrReadonly` and the selection of traits guarantee that the location is accessed in the loop only by loads and stores through the pointer itself, the pointer is valid in the preheader and in exit blocks (the inserted load and stores do not trap) and the loop is entered through its preheader; an exit block is entered from the loop only. Loops are left by branches only (`nounwind`). Debug intrinsics are ignored.
* C97: clang::Rewriter removes and inserts exactly the requested characters of the original text; edits inside of a condition which has already been removed are excluded (`Marks`). The grammar of C reads tokens of a tree which satisfies `ProperS` as this tree (precedence, `else` belongs to the nearest `if`). Calls return, there are no volatile variables (`findSideEffect` does not treat reading of a volatile variable as a side effect).
* C98: `CoverageData` segments are sorted by position without duplicates (LLVM).
* C99: matching of metadata-level memory with AST declarations and isUnreachable of the spanning tree relation are parameters (`Ctx`).
* C100: traits are right for the sequential loop (`Right`, the subject of C50, C72, C80, C81); the AST describes the executed loop (`Source`); meaning of OpenMP clauses as in `Exec`; operations of reductions are associative and commutative (`Combines`). Only direct accesses by name see private copies.
* C101, C102: `for_each_memory` and the map from IR-level locations to alias nodes describe all accesses of an instruction (`Honest`, `Effect.frame`); unreachable nodes do not overlap (`Apart`); memory without traits or with traits Readonly or NoAccess is not changed in the loop (`Keeps`); the latch is executed once, at the end of an iteration; the shape of instructions built by Clang for the header (`Lowered`, `IsCond`); no overflow.
* C103: semantics of `depend(sink)` and `depend(source)` as in OpenMP 4.5 (`Obeys`); reported distances cover dependences (the subject of C33 and C80); `llvm::APSInt` are unbounded integers.
* C104: other functions and pointers access only variables of `World.vis`; evaluation order is left to right; each `NamedDecl` has its own number; removal of text is removal of nodes (the subject of C41 for the rewriter).
* C105: the set of identifiers contains all names of a program; conditions on macros, files and `#pragma` clauses are the mark of a call; removal of unreachable `return` statements is not modelled; values are integers, there are no types; an initializer does not mention its own variable; external functions are arbitrary relations between arguments, global variables, events and results.
* C108, C109: types are stripped as `stripDIType` does, sizes and offsets of members are whole bytes (bit fields are addressed by the first one), names of members of a structure differ (anonymous members have empty names), `findMetadata` is a parameter: it returns a variable whose memory the pointer refers to or a variable whose value the pointer is; steps of `getUnderlyingObject` are offsets which are not constants; numbers are unbounded except the coefficient of a dimension.
* C111: `DominatorTree::dominates` is a parameter, it is assumed that a positive answer is right; values are in SSA form (a single definition which dominates debug intrinsics); users are not debug intrinsics. A debug intrinsic is a ghost assignment: bits of a variable which are described by an expression get the current value of a register.
* C112: `DirectFact`, `DefFact` (what the analysis of IR says about the state an expression is evaluated in) and `Right` (the text is the text of the syntax tree). C113 says when `DefFact` is true; `findMetadata` is C111. Expressions are pure; regions of propagation, macros and included files are an input (a mark of a reference). A text is a tree: a replacement is in parentheses or is an atom, except negative constants (`negative_fails`).
* C115–C118: the traversal of AST visits statements in the order of the source and visits each of them once; loops of LLVM IR are listed outer first (`LoopInfo` and `for_each_loop`); `presumed` maps a position of an expansion of a macro to its place; pointers of different nodes are different (`Nodup`). Presumed files with `#line` and the hash of a place are not modelled: a place is an equivalence class of `isEqual`. The result for a crash is one outcome for an assertion, and for `TinyPtrVector::back` of an empty vector in a build without assertions (a vector which has never had two elements returns a null pointer, which is `not found`).
* C119–C123: `RecursiveASTVisitor` visits a parent before its children and each node once; a tree is what it visits (headers of `for` are not visited by the analysis of perfect loops: PerfectLoop.cpp:83). The map from declarations to functions of LLVM IR (`callees`) and attributes of functions are inputs; attributes of functions are C-properties of Verif/Attrs. Exceptions do not leave loops (ControlFlowTraits.h:41-45 says the same).
* C124–C125: `for_each_memory()` reports every access to memory, a store once and with a single alias set; `AliasSetTracker` is a partition of addresses such that an executed instruction accesses addresses of reported sets only (`AliasSound`). Instructions for which `mayReadOrWriteMemory()` is false are functions of operands (and of the predecessor for `phi`); in particular calls of such functions return. Alias sets which are modified and the order of iteration over them are parameters.
* C126–C132: `bcl::TraitSet` (alternatives of a trait are dropped together with descriptions), JSON parsing and printing (a file is a value), `getUniqueID()` (a partial function of a path), `buildVariable()` (a location has at most one variable; its path leads to its file). Distances are mathematical integers, `APSInt` is not modelled; a value in a file has 32 bits.
* C133–C138: the tree of expressions is given by Clang, the rewriter replaces ranges of text (C95), macros are not modelled. A location is an object with an index and a path of members; array members and requested calls inside the body are not in the semantics of C134. Effects of other statements and calls are an arbitrary function of memory and a value (`ext`).
* C139–C141: coverage segments are sorted; `scc_iterator` visits callees before callers; `for_each_loop` visits parents before children; costs of instructions (`TargetTransformInfo`) are arbitrary natural numbers; sums do not overflow.
* C142, C143: `CallGraph`, dependence analysis (requests are its results) and the legacy inliner of LLVM (a call is inlined if its cost is less than the threshold); calls which appear after inlining are not reconsidered in the model.
* C144, C145: the set of upward exposed reads (C21, C89), alias trees and `getRawDIMemoryIfExists` are parameters; parents of memory have smaller numbers (chains are finite).
* C146, C147: the graph of replacements is acyclic (a rank decreases along edges); memory of a directive, visibility of its variables and the set of roots are parameters.
* C148, C149: `std::set` is a sorted list without equivalent elements, `stable_sort` is `List.mergeSort`; visibility of a variable near a statement and compatibility of end markers of remote accesses are parameters; names are numbered in the lexicographic order.
* DVMH runtime (C150, C151): `actual` marks host copies as the only valid ones, `get_actual` copies elements which are valid only on a device, a region copies elements of its input variables which are not valid on a device and makes device copies of its output variables the only valid ones. Output variables of a region are also its input variables (ASTDependenceAnalysis.cpp:101-103, 119-120, 242-243). Alias nodes of accessed memory are not unreachable from nodes of variables which contain it.
* Distances of dependencies (C152-C155) do not overflow; lists of distances are not empty if distances are known (`DIDependence`), loops with unknown distances are not parallel (ParallelLoop.cpp:195-212). A number of a dependent dimension is less than a number of subscripts.
* DvmhRegions: entry and exit directives of different loops are stored separately; removal of an empty location from `Parallelization` is not observable; the order of children of a scope is given by Clang AST.
* OptRegion: `scc_iterator` visits each strongly connected component once and callees before callers; `RecursiveASTVisitor` calls the overridden `TraverseStmt` for all children in the order of the source; calls and loops are matched with IR; loop identifiers are unique.
* ArrayAccess (C163, C164): scopes which contain an access form a path in a tree of scopes (loop and function identifiers are unique); the same access is not added twice. The list sorted by arrays (`mArrayAccesses`) is not modelled.
* `LoopInfo` (C165, C166): loops are natural (a header is the only entry, each block has a successor in its loop, blocks are distinct), inner loops are inside of outer ones and do not contain their headers, other loops do not intersect, the entry block is in no loop. `getLoopPreheader()` is a single outside predecessor with a single successor. PHI-nodes, arguments of calls and metadata are not modelled.
* Run-time library (C168, C169): `sapforInitDI(DI, String, Offset)` stores a string to a pool and adds the offset to an identifier of a type in this string; `sapforDeclTypes` declares types; `sapforAllocatePool` allocates a pool. Sources of the library are not in the repository, parameters are described in include/tsar/Analysis/Intrinsics.td. The node for external functions in a call graph has no callees (C167).
* Legality of loop interchange (C171, C172): `Right` (results of canonical loop analysis and of dependence analysis are true: different induction variables which are changed by headers only, invariant bounds, positive steps, a true trait for each written location), `Describes` (accesses of an iteration determine its effect) and reflexivity of the alias relation are assumptions. Only headers of the form `v = start; v < stop; v += step` are modelled; values in headers are trees; a recurrence of a loop in a step is a load of its induction variable. Perfect nesting is used as the fact that a nest is described by a list of headers and a body.
* Limits of distribution (C173, C174): arrays found by metadata of top-level memory locations, descriptions of functions, calls and loops are inputs of the model. Decisions of the passes do not depend on flags of arrays except for the guard, so they are modelled as a list of requests which is applied afterwards. Locations of messages are not modelled.
* Include tree (C175-C177): the source manager gives an included file a larger number than its includer, `llvm::sort()` permutes and orders by offsets, the hash table of files is replaced by the order of insertion.
* Check of macros (C178, C179): `for_each_macro()` is a function from a node to locations of macros in it, a node which contains a bad node is bad; the recursive visitor visits children in order and calls overridden methods for each of them; `VisitiTypeLoc` is never called by the visitor (its name is misspelled) and is not modelled.
* Writing of files (C180, C181): `rename` is atomic, `createUniqueFile` gives a new file, a stream writes data in order in arbitrary portions and stores at most `room` bytes; results of system calls are parameters; a crash is a crash of the process (there is no `fsync`); use of a stream after an unsuccessful direct open is not modelled; a suffix is inserted before an extension, other parts of a filename are kept.
* Global names (C182): the recursive visitor visits declarations inside a declaration in the order of a source code and calls `TraverseDecl` for each of them; visited locations and files are not modelled.
* Matching of memory (C183, C184): `llvm::sort()` permutes and orders by names; search of a declaration by a mangled name and availability of sources are parameters.
* Matching in a scope (C185): `llvm::sort()` permutes and orders by names; the search of metadata for the location of a scope and statistics are not modelled.
* Processing of inputs (C186, C187): kinds of extensions, results of `parseIRFile()` and return codes of Clang and Flang tools are parameters; options `-emit-ast`, `-merge-ast`, `-dump-ast`, `-print-ast` are not modelled.
* Options (C188): `getInputKindForExtension()` is a parameter, `ll_fails` assumes that it does not recognize extensions with a leading dot.

## 6. Disagreements between the code and its documentation

Each item is a proved theorem with the suffix `_fails`.

* `intersect` reports complements which overlap the intersection for two or more dimensions (C05).
* A byte range outside of an array is converted to a wrong array range (C54).
* Array ranges of different shapes are reported as disjoint although they overlap (C55, C06).
* `MemorySet::operator==` accepts different sets of array ranges and rejects a copy of a set of
  byte ranges because a copy joins touching ranges (C09).
* `MemorySet::intersect` / `LocationDFValue::merge` / `intersect` return wrong "changed" flags
  (C10, C11); queries of the full value are inconsistent (C12).
* Two statistic counters of traits are swapped (C56).
* The pre-order number of a node is overwritten each time an edge to the node is examined. On graphs
  which are not trees a node may be an "ancestor" of a node which it does not reach (C27).
* `solveDataFlowUpward` / `Downward` ask `isDAG` for a region. Children in the used graph traits
  are predecessors and the entry of a region has none, so the answer is always "acyclic" and an
  irreducible region is solved by a single pass. The result is not a solution: a location may be
  reported as written on all paths although there is a path without writes (C18, C28).
* As a result, reaching definitions and live memory are wrong for irreducible regions (C20, C21).
* `collapse()` drops bytes of a definition which is partially covered by definitions at the exit: they
  are neither must nor may defined (the example from the comment in the code, C22).
* `collapse()` considers definitions at the latch if the trip count is positive, but the latch is not
  executed if the trip count is 1 and the loop is left from its header (C22).
* `buildLoopRegion` dereferences a missing element of `Blocks` if a block of a loop has an unreachable
  predecessor; the tool avoids it by removal of unreachable blocks (C53).
* `Bimap::erase_first` / `erase_second` leave a pointer to the deleted node in the other index (C24). A
  removal of a range of iterators increments an iterator to a deleted node (C58). Not modelled: copy,
  move and list assignments have no `return` statement, `swap` and removals by a key in `ListBimap` do
  not compile if they are instantiated.
* `ItemRegister::numberOfIDs` returns the next identifier, not the number of registered items (C29).
* `PersistentIterator::operator=`: an iterator which is assigned stays in the list of its former element,
  the destruction of this element never finishes; an invalid iterator which remembers the same bucket stays
  invalid. A copied container shares lists of iterators with the original (C30). Not modelled:
  `DenseMapInfo` of persistent iterators hashes an address which changes when a table grows.
* `castAPInt` rejects values from the upper half of a signed type, e.g. 2^62 for 64 bits (C31).
* A dependence with the direction `NE` is recorded with one kind only, although there are pairs of
  iterations in both orders (C32). If all levels are requested for a confused dependence, a direction of a
  level which does not exist is asked (C32).
* `UpdateDepFunctor` leaves distances of inner levels unchanged if a new dependence has fewer known levels,
  so a summary contains a distance which does not bound all dependencies (C33).
* An output dependence with an unknown direction is not oriented: a recorded distance may be negative (C33).
* A location which becomes `Dependency` because its pointer is not read-only has no recorded kinds of
  dependencies; the result for its alias node has no flags at all. The same holds for a node with several
  private locations which are not shared (C59). Memory which must be copied into a loop is not marked so in the
  combined description of a node if the node contains memory without accesses (C59).
* `cover()` never updates the boundary of the current class of overlapping nodes, so bytes are counted twice: parts
  of 4, 8 and 4 bytes where the last one lies inside of the second one cover 16 bytes. If none of listed locations
  is from the tree of the location, the first element of an empty map is read (C36).
* `aliasRelation()` compares ends of locations as `uint64_t`: a location with a negative end covers everything with a
  positive end (C37). The merged relation of 'must alias, coincides' and 'must alias, contained' is 'coincides' (C60),
  `addEmptyNode()` then treats the location as one which covers an alias node.
* `getPrev()` of a chain inspects only the first child, while nodes of other chains may precede the previous node
  of the chain (C61), so the loop over a chain with new ambiguous pointers in `AliasTree::add()` skips smaller memory.
* `AliasTree::insert()` appends a may-alias pointer to a chain even if the chain is then rejected, so the
  pointer belongs to several chains.
* `divide()` returns an already overwritten remainder if division of a product by a symbol is given up after
  substitution (LLVM calls `cannotDivide()` there): (x+1)*(x+2) by x is 0 with the remainder 2. Zero after substitution
  does not mean divisibility: (x/2)*y by x is 0 without a remainder. Casts of factors are not accumulated in
  `IsSafeTypeCast`, so a wrong quotient is marked as safe (C39). `findGCD()` inherits these results (C40).
* `countPrimeNumbers()` uses a counter of the type `int` for a bound of the type `std::size_t`, so behavior is undefined if
  the bound is not less than 2^31-1 (C42).
* Loop reversal (C43): a loop without iterations and a non-unary step is replaced by a loop with one iteration; a negative
  step with a strict condition adds an iteration; an unsigned loop down to zero never stops; texts are pasted without
  parentheses; the value of the induction variable after the loop differs and its use after the loop is not checked.
* Loop reversal (C44): `ToTransform.resize(Idx)` truncates the vector, so a clause which names loops not in the order of the
  nest loses the greater ones. The warning about a wrong number prints the number minus one.
* `CanonicalLoopPass` (C62): if the bound is the first operand, the inverse predicate is stored instead of the swapped one,
  which is wrong for each predicate.
* `coherent()` (C63): constant bounds are compared as for a strict condition, so `for (i = 0; i <= 0; ++i)` is rejected. The
  matcher also accepts the assignment `=` as a condition; `APSInt` constants of different types are compared.
* Loop interchange (C45): the literal with the name of the clause is recognised by its text, so an induction variable with the name `interchange` is skipped and the loop over pairs reads behind the end of the list (`interchange_fails`). The handler of calls in `isMemoryAccessedIn` starts with `return;`, so memory accessed by calls is not taken into account.
* `getArgument` (C46) returns the argument after the requested one, and the first argument of a function is never returned.
* Connections (C47, C64, C65): `createAnalysisCloseConnectionPass(bool)` ignores its argument; constructors of three passes with `AnalysisID` do not initialise `mActiveOnly`; `getActive()` is computed before the beginning if nothing is active, so that `getActiveSocket()` never returns null; `setActive` has no `return true`; `wait()` on a closed socket loops for ever or returns without a notification, `getAnalysis()` on it returns old data. Sockets are elements of a `SmallVector` with two inline elements and their addresses are given to connections, so a third server would leave dangling addresses (not modelled).
* Output files (C48): `clear(.., true)` and the destructor of a file which has not been cleared remove the destination even if only a temporary file has been written; if the temporary file cannot be created the destination is truncated at once.
* Analysis server (C66): `ActiveFunc` is updated before the request is served and `ActiveIDs` is not cleared, so a request of unavailable passes for a function makes the next request for this function return passes executed for another function.
* `getTsarDirective`/`getTsarClause` start the search from the reserved entry of a table, so `#pragma spf not_directive` and `#pragma spf analysis not_clause` violate assertions in `getParent` (`pragma_fails`, `lookup_reserved_fails`); `getTsarDirectiveNamespace("not_namespace")` succeeds.
* `DvmRealignBody` has a wrong parent (Directives.td:239: `DvmRegion`), so the directive `realign` has a body which is not described and `region` has a body which is not expected (`hasBody_fails`). Names `accross` and `staget` are misspelled (Directives.td).
* `HandleDirectiveBody` is assigned to `false` only if it is already `false` (PragmaHandlers.cpp:222), so clauses after a body of a directive would never be recognized; this is not reachable now because there are no handlers for DVMH pragmas (`dvm_kept`).
* `ClauseVisitor::backtrack` mishandles `OneOf` nested in `One` (`visit_complete_fails`) and a repetition of an expression which may be empty leads to an infinite loop (`visit_total_fails`); there are no such prototypes in the table now (`tsar_prototypes`).
* Parallel loops, unknown reduction: `getReductionKind` returns RK_NoReduction for recurrences SelectICmp and SelectFCmp (DIDependenceAnalysis.cpp:572-603), the value is attached as a non-null description (1696-1699), and the check for an unknown operation (ParallelLoop.cpp:186-194) tests for a null pointer only. A loop with such a recurrence is reported as parallel (`parallel_reduction_fails`).
* Parallel loops, dereferences: traits of an alias node are replaced by traits of the only location which is not a dereference of a private pointer (DIDependenceAnalysis.cpp:2283-2291), so a dependence that is recorded for the dereference does not prevent parallel execution (`parallel_deref_fails`).
* `accessCoverage` stops at a node without traits, `explicitAccessCoverage` visits its children (MemoryTraitUtils.h:29-58). Memory below such a node is not covered (`access_coverage_fails`).
* Strong SIV test (DependenceAnalysis.cpp): if a sign of the coefficient is unknown it takes the negated coefficient for the absolute value and may report independence of dependent accesses (`strongSIV_sign_fails`).
* Exact SIV test: bounds of directions are computed from coefficients which are not divided by their common divisor, a direction may be lost (`exactSIV_gcd_fails`), and the whole test may report independence for `A[i][4*i]` and `A[i][2*i + 2]` (`depends_gcd_fails`).
* A symbolic coefficient may be zero: strong, weak-crossing and weak-zero tests lose directions, the whole test may report independence (`strongSIV_zero_fails`, `weakCrossing_zero_fails`, `weakZeroDst_zero_fails`, `depends_zero_fails`).
* Delta test: if `testSIV` returns without a new constraint then the constraint of a previous subscript is intersected (`depends_stale_fails`) and the level is used uninitialised for the first subscript (`depends_level_fails`).
* `gcdMIVtest` computes a remainder of division by zero if all coefficients are zero; `banerjeeMIVtest` does not release arrays of coefficients and bounds on an early return; `classifyPair` dereferences a null loop for an access outside of loops if the check of the subscript fails. These are noted from reading, only the first one is visible in the model (the result `none` of `gcdMIV`).
* `combineWith` and `allUsesReplacedWith` (DIDependenceAnalysis.cpp:479-486, 2612-2618): the comment says that the initial value of the trait is necessary, but the first call of `combineIf` changes the trait. If the variable is private, `combineIf<Flow>` removes this property, and `combineIf<Anti>` copies the distance of the second location as if the variable has no anti dependencies (`combineWith_order_fails`).
* `combineIf` for IR-level traits (DIDependenceAnalysis.cpp:208-222) calls `DIDep->getDistance(I)` for all levels of the IR-level dependence, but unknown levels at the end of the metadata-level vector have been dropped: an assertion is violated or memory out of range is read (`combineWith_levels_fails`). The result depends on the order of bound values.
* `clarifyDescriptor` (DIDependenceAnalysis.cpp:347-353) drops `FirstPrivate` when the new trait is not first private, even if the new analysis found nothing but a dependence: first and last private location becomes last private only (`clarify_firstPrivate_fails`).
* `clarifyDescriptor` (DIDependenceAnalysis.cpp:325-330, 366): if there are no common kinds of dependencies (or a first private location is replaced by a dependence), the result has no alternatives at all (`clarify_legal_fails`, `clarify_accuracy_fails`).
* `addOrUpdateInPool` (DIDependenceAnalysis.cpp:386-406) returns the negation of what is documented (`addOrUpdate_result_fails`), the only caller ignores this value.
* C82: `cleanSubscripts()` limits the loop over dimensions by the number of subscripts before zeros are added, so for `A[0][0][k][l]` with omitted zeros the linear subscript `k*n` is used as a subscript of the third dimension (`clean_shift_fails`). For `A[i][0][c]` with the last constant size two subscripts out of three are stored (`clean_tail_fails`). Indexed types are not compared with the type of an element (`clean_type_fails`). After a failed attempt to add zeros only the last new subscript is removed.
* C83: the remainder of the division of the GCD by the product of sizes is only printed; a size of a dimension may be zero and a subscript is divided by zero later (`fill_zero_fails`). Without metadata the sizes which are a part of indexed types are ignored (`fill_type_fails`).
* C84: `getelementptr` instructions before a cast are lost, but the range is not marked as inexact (`extract_cast_fails`).
* C85: the loop in `addDirectUserCalleeAttr` contains `continue` only, so it has no effect on the result. A function which always calls itself is marked as one which always returns (`alwaysReturn_recursion_fails`).
* C86: `LibFunc` is not propagated inside a component if a callee is visited before its caller (`libFunc_recursion_fails`). A function whose address is passed to another function is not marked as called indirectly (`indirectCall_arg_fails`).
* C87: `qsort()` is a function without an entry in the list, so globals accessed by a comparator are lost (`accesses_callback_fails`). The loop over nested conversions always restarts from the same operand, so a second conversion is not inspected (`found_cast_fails`).
* C88: `getSignedRangeMin()` of a recurrence is used as its exact beginning: if it is a symbolic nonnegative value, elements from the zero one are considered as accessed (`aggregate_start_fails`).
* C88: a subscript which depends on two loops (`A[i + j]`) is described by the inner loop only (`aggregate_nested_fails`).
* C88: `getSmallConstantTripCount() - 1` loses the last iteration of a loop which is left from its latch (`aggregate_trip_fails`).
* C88: `A[i][i]` is considered as an access to the whole matrix, i.e. it becomes a must-definition of elements which are never written (`aggregate_diagonal_fails`).
* C89: `f(&x, &x)`: arguments of a call are processed in order, so if the first one is always defined the use of the second one is lost (`block_interference_fails`).
* C89: if a location is contained in another one and bases of pointers are different values, the offset is ignored and a definition of wrong bytes is added (`contained_base_fails`).
* C89: `cmpxchg` is a must-definition (`simple_cmpXchg_fails`).
* C90: a callee which writes `p->b` has a def-use set with the pointer to the field only, so if it is not a delinearized array the argument of a call is considered to be unchanged (`arg_field_fails`).
* C90: `hasMayDef()` ignores definitions of a part of a variable (`global_part_fails`); `isPure()` never returns the second flag, so this branch is unreachable (`isPure_globals_never`).
* CallExtractor.cpp:69: `getNextUsefulInstruction` tests `Inst` instead of `I`, so markers after a call are not skipped (`marker_is_skipped_fails`); the result is an unneeded block only.
* GlobalLiveMemory.cpp:149-174: `checkCallsFrom` does not look at instructions after a call (`check_alone_fails`), the analysis relies on the pass which was run before.
* GlobalLiveMemory.cpp:250-252: only components with several functions are excluded, a function which calls itself is analyzed without the live set of the recursive call (`self_recursion_fails`).
* GlobalLiveMemory.cpp:337: memory of named parameters of a function with a variable number of arguments is considered dead after its exit (`vararg_fails`).
* GlobalLiveMemory.cpp:341: the live set is searched with the pointer of the argument only, so `f(&A[1])` followed by a use of `A` makes writes in `f` dead if the use is known as a location of `A` (`other_name_fails`).
* GlobalLiveMemory.cpp:135-137: for a pointer derived from a parameter only memory after the parameter is checked (`before_parameter_fails`).
* C93: `SeenInstrs` is a set of instructions, not of uses: for `f(p, p)` only one parameter of `f` is checked (`twice_fails`).
* C93: a variable which contains the parameter is accepted as an operand of a call if the corresponding parameter is `nocapture`, although the callee may copy its content (`deep_fails`).
* C93: memory returned by a `noalias` function is considered local together with everything which is accessible through it (`new_fails`).
* C93: `getCalledFunction()` is dereferenced without a check for a pointer returned by an indirect call (`indirect_fails`).
* C94: `TraverseFunctionDecl` clears the list of changes also for a local declaration of a function, so references after it are not changed (`function_fails`).
* C94: `VisitNamedDecl` changes names of local types and members, but only `DeclRefExpr` are updated (`type_fails`).
* C95: after replacement of a range entries inside of it are stale: later requests inside of it damage text outside (`inner_fails`).
* C95: the entry of a character is the last symbol of its replacement, so text inserted at a replaced character appears inside of the replacement (`single_fails`) or, if the character was removed, before the previous character (`empty_fails`).
* C95: `ReplaceText` removes text inserted by `InsertText` (default mode) at its first character (`lost_fails`); `clang::Rewriter` keeps it.
* C95: `RewriterBase::InsertText` does not pass `InsertAfter`, so `InsertTextBefore` is `InsertTextAfter` (`before_fails`).
* C95: replacement of an empty range after insertion at the same place removes the rest of a text (`zero_fails`); insertion after the last token is out of bounds of the table (`end_fails`); removal of a line which starts before the rewritten range is out of bounds (`line_fails`).
* `FlangRewriter::InsertText` returns `true` (an error) even if it succeeds; `ReplacedSize` uses the entries in the swapped order. Checks `getFileID(SR.getBegin()) != getFileID(SR.getBegin())` in `ExternalRewriter` are always false.
* C96 `PointerScalarizer.cpp:185`: `LastValues[Succ] = LastValues[BB]` keeps a single value for an exit block; if two blocks of a loop branch to the same exit block (a loop with `break`), the value of the last visited one is stored on both paths (`ptr2reg_shared_fails`).
* C96 `PointerScalarizer.cpp:240-245`: `deleteRedundantPhiNodes` erases a phi-node but `LastValues` still refers to it, `insertStoreInstructions` then uses a deleted value (`ptr2reg_dangling_fails`, a `do` loop with an `if` before its end).
* C96 `PointerScalarizer.cpp:243-244`: the result of `dyn_cast<Instruction>` is dereferenced without a check, a constant (or an argument) stored on both branches leads to a null pointer (`ptr2reg_null_fails`).
* C97 `UnreachableCodeElimination.cpp:188-198`: removal of an unreachable operand of `||` replaces the value 1 with the value of the left operand, `x = a || b` becomes `x = a` (`eliminate_or_fails`).
* C97 `UnreachableCodeElimination.cpp:205-282`: the remaining operand of `?:` is not enclosed in parentheses, `x = c ? a, b : d` becomes `x = a, b` (`eliminate_comma_fails`); `)` is inserted at the beginning of the last token unless the next token is `;` (`eliminate_cond_fails`).
* C97 `UnreachableCodeElimination.cpp:333-402`: `if` is replaced with nothing or with several statements even if it is a body of a loop or a branch without braces: in `if (a) x = 1; else if (b) { unreachable } y = 1;` the assignment to `y` becomes the branch of `else` (`eliminate_elseif_fails`, `eliminate_braces_fails`). Braces are inserted before the last token of a loop with a declaration if its body has no braces (lines 343-346).
* C97 `UnreachableCodeElimination.cpp:541-550`: for a loop with an unreachable body the last token of the initialization is removed and the increment is not removed (the comma operator instead of a range), `for (i = 0; i < n; ++i) {…}` becomes `i =; ++i` (`eliminate_for_fails`).
* C98 `UnreachableCodeElimination.cpp:586-589`: `BI != EI && … || …` dereferences the end of the list if all segments start before the end of the range; empty coverage data are dereferenced too (`isUnreachable_end_fails`). A range which starts before the first segment is unreachable even if it contains executed code (`isUnreachable_begin_fails`).
* C100 `ASTDependenceAnalysis.cpp:254-275`: a location with the trait LastPrivate only gets neither a clause nor a diagnostic; if its variable is not referenced by name in the loop then it remains shared (`last_private_fails`).
* C100 `VariableCollector.cpp:237-241`: memory accessed through a pointer declared in a loop is treated as local (`inner_variable_fails`).
* C100 `VariableCollector.cpp:68-74`: a static variable declared in a loop is treated as local, but all threads share it (`static_variable_fails`).
* C100 `VariableCollector.cpp:254-256`: a private location without a known variable is accepted without a clause (`hidden_variable_fails`).
* C100 `OpenMPAutoPar.cpp:564`: the value of the loop variable after the loop is not restored (`loop_variable_fails`).
* C99 `ASTDependenceAnalysis.cpp:299-307`: `-fignore-redundant-memory=weak` and `=partial` reject references which `=bounded` accepts (`ignore_redundant_fails`).
* C99 `ASTDependenceAnalysis.cpp:220-252`: dependences with unknown distances are neither recorded nor reported (`unknown_distance_fails`); `… == CoincideLocal || CoincideGlobal` (235-237) is always true, so a part of a variable is accepted as the whole one.
* C101 `CanonicalLoop.cpp:564-567`: for a condition `10 > i` the inverse predicate (`<=`) is reported instead of the swapped one (`<`), `reversed_condition_fails`.
* C101 `CanonicalLoop.cpp:289-299, 559`: the last comparison in the header is used without a check that it reads the variable; for `i < (n ? 5 : 6)` it is `n != 0` (`selected_bound_fails`).
* C101, C102 `CanonicalLoop.cpp:393-424`: operands of a phi-node are checked, but not the condition which selects them, so `i += (a ? 1 : 2)` is accepted even if `a` changes (`selected_step_fails`).
* C101 `CanonicalLoop.cpp:269-280`: the check for calls is inverted: calls which write unknown memory are skipped in the search for the last write. It has no effect on loops accepted by the syntactic part of the analysis.
* C103 `OpenMPAutoPar.cpp:284-287`: only the component of the current loop is negated, so the sink of `A[i][j] = A[i-1][j+1]` is `(i-1, j-1)` (`ordered_inner_fails`).
* C103 `OpenMPAutoPar.cpp:119-156`: depth of a directive starts with 0, so `push_back` never reduces it, `addOrUpdateOrderedIfNeed` never finalizes a nest and a shorter vector of distances is read out of bounds (`ordered_short_fails`).
* C103 `OpenMPAutoPar.cpp:598-644`: distances are numbers of iterations but they are added to values of variables; if the step is not 1, waiting is ignored (`ordered_step_fails`).
* C99, C103 `ASTDependenceAnalysis.cpp:232-242`: the key of distances is the first location of a node for all its locations, so only the first distances are stored.
* C104 `DeadDeclsElimination.cpp:74-77, 109-131`: attributes of a variable are not checked. Accesses to `volatile` variables are removed (`volatile_fails`, `volatile_read_fails`), an assignment to a block-scope `extern` variable is removed (`extern_fails`), an assignment through a reference of C++ is removed (`reference_fails`).
* C104 `Utils.cpp:486-499`: `CXXConstructExpr` is not a side effect, so `std::lock_guard<std::mutex> G(M);` is removed (`constructor_fails`).
* C104 `DeadDeclsElimination.cpp:153-162`: only an initializer is checked, so `int A[f()];` is removed with the call (`array_size_fails`).
* C104 `DeadDeclsElimination.cpp:88-92`: a reference to a constant of an enumeration does not preserve the enumeration (`enumeration_fails`).
* C104 `DeadDeclsElimination.cpp:79-86`: a map of types contains the first declaration of a type only, so a definition after a forward declaration is removed (`redeclaration_fails`).
* C104 `DeadDeclsElimination.cpp:210-229`: an unused variable of a range-based loop is removed and the rest is not a loop (`range_loop_fails`).
* C105 `Inline.cpp:427-431`: the flag for a comma operator is set for the left operand, a call in the right operand is moved before the left one (`comma_fails`), or the whole statement is replaced (`comma_void_fails`).
* C105 `Inline.cpp:390-435`: the last operand of `?:` without the second operand and the operand of `sizeof` are not examined (`elvis_fails`, `sizeof_fails`); an argument may mention the previous declarator of the same declaration (`declarator_fails`).
* C105 `Inline.cpp:645-652`: a call of a `void` function replaces the whole statement: a label is lost (`label_fails`), a loop is lost if the call is in the first part of its header (`for_init_fails`), a body of a loop or a branch without braces gets several statements (`loop_body_fails`, `else_fails`).
* C105: each copy of a static variable is a new object (`static_fails`). User labels of a callee are copied (not modelled), enumerators of a local enumeration are not in `FunctionDecl::decls`, so they may capture names (not modelled), `const` types of returned values give invalid declarations (not modelled).
* C106 `Inline.cpp:775-808`: the search stops at the first function which has been visited twice, so other cycles are missed (`recursion_missed_fails`) and a function which is called at two levels is reported although there is no recursion (`recursion_diamond_fails`). `NeedToAdd` is the flag of the last call, so the search may not end (`recursion_endless_fails`). The result is stored in a static variable, so it is not computed again for the next translation unit.
* C108 `SourceUnparser.cpp:214-223`: `unparseDeref` prints `*` for an expression which is already an address, so one dereference is lost: `*u.p` is printed as `*u` for a union (`unparse_fails`), the target of `A[0]` is printed as `*A` for an array without a constant size (`unparse_vla_fails`).
* C108 `SourceUnparser.cpp:126-132`: a separator is printed after each unknown subscript, so the text is not an expression, and `*` is printed before it (`unparse_template_fails`). An offset inside of an element is ignored.
* C108 `SourceUnparser.cpp:187`: a product of sizes of dimensions is computed in 32 bits, it may be zero, then it is a divisor (`unparse_divide_fails`). Lines 173-178: the loop for the reversed order of dimensions does not process the dimension 0; this order is not used (Fortran uses the direct order too, hence subscripts of Fortran arrays are printed in the C order if debug information lists dimensions in the order of the source).
* C109 `DIEstimateMemory.cpp:1554-1555`: elements of an expression of a variable are appended to a list which is reversed later, so `DW_OP_LLVM_fragment` becomes the last element (`build_fails`).
* C110 `DIMemoryLocation.h:159-161`: variables are compared twice, expressions are not compared (`ne_fails`). `operator==` ignores `Template` and `AfterPointer`, keys of hash tables do not.
* C111: `findMetadata` (lib/Analysis/Memory/Utils.cpp:237-246) scans the block of a user for intrinsics with exactly the same expression, so `x = v; x.byte0 = w; use(v)` reports that `x` holds `v` (`findMetadata_fails`). `findAliasBlocks` does take overlapping fragments into account. Intrinsics with a dereference are skipped everywhere, although they say that the variable has moved to memory (`findMetadata_deref_fails`).
* C112: `checkAssignmentRHS` (ExprPropagation.cpp:587-627) shares `DeclRefIdx`, `IsAllDeclRefAvailable` and `RHSDecls` between usages of a definition: references are checked for the first usage only, so `x = a; use(x); a = 5; use(x)` may become `use((a)); a = 5; use((a))` (`second_fails`).
* C112: `VisitDeclRefExpr` (lines 470-485) accepts any declaration which has an outermost declaration, even if a local declaration with the same name is visible (`hidden_fails`).
* C112: `unparseReplacement` prints constants without parentheses: `x-y` becomes `x--1` (`negative_fails`).
* C112: in `TraverseCompoundStmt` (line 320) a local `Res` hides the outer one, so `false` is returned and a traversal stops after a block with a `propagate` clause. It affects completeness only and is not modelled.
* C113: `findAvailableDecls` marks a variable as available if it holds any transitive operand of the definition in the point of usage, not the operand the variable held in the definition: `x = d * 2; d = 2; use(x)` becomes `use((d * 2))` (`avail_fails`), see also `copy_fails`. Global variables which are not pointers are always available (`global_fails`). A store to memory which is read by the definition is not checked (`memory_fails`).
* C114: `excludeIfAssignment` visits first children only and gives up on binary operators: `(a, x) = 1` and `(c ? x : y) = 1` (C++) do not exclude `x` (`target_fails`); `*(int *)0 = 1` and `this->x = 1` violate its assertion (`target_crash_fails`).
* C117: `findIRForLocation` (AST/Matcher.h:102-110) takes the last element of a queue without a check for emptiness, and an empty queue is not erased. `VisitStmt` of both visitors is called for every expression, so two nested expressions which begin where a loop starts take two elements: `expr_crash_fails`. If a loop is matched through the initialization of a `for` (LoopMatcher.cpp:118-140), the initialization itself takes from the queue again: `init_crash_fails`. Without assertions: `release_crash_fails`.
* C118: `MatchImplicitVisitor` (LoopMatcher.cpp:198-222) treats a C++ range-based `for` as an ordinary statement, so its loop is matched with a label which precedes it: `match_label_fails`.
* C121: `LabelVisitor` (ControlFlowTraits.cpp:44-54) collects `goto` statements instead of the loops which contain a label, so `LoopsWithLabel` in `VisitGotoStmt` (lines 116-135) is never a list of loops: a jump into a loop is not recorded as its entry (`entry_never`, `entry_fails`), a jump inside a loop is recorded as an exit (`goto_exit_fails`).
* C121, C122: `TraverseStmt` (line 72) does not treat `CXXForRangeStmt` as a scope: its `break` is recorded as an exit of the outer loop (`break_range_fails`), and without an outer loop the assertion in `VisitBreakStmt` fails (`control_crash_fails`).
* C123: `VisitCallExpr` (lines 139-157): a call through a variable has a callee declaration which is not in the map, so its flags are empty, which means a safe call (`calls_fails`); only a callee without a declaration is treated as unsafe.
* C125: `NoMetadataDSEPass` does not check `isVolatile()`: a volatile store to a local variable without metadata which is not read is removed (DeadCodeElimination.cpp:95, `dse_volatile_fails`).
* C125: an operand is removed if it does not access memory (DeadCodeElimination.cpp:117, 131) even though it is a terminator (`invoke` of a function which does not access memory), a block without a terminator remains (`dse_terminator_fails`). The same check lets calls of functions which do not access memory but may not return be removed, and a `landingpad` whose value is only stored.
* C127: `TraitT` has no induction (AnalysisReader.cpp:79-105), so a variable which is listed as an induction variable, read and modified is considered as shared: its dependences disappear (`import_induction_fails`).
* C128: `auto F = No; if (F) F = Dep->getFlags();` (AnalysisReader.cpp:314-317, 348-351) never copies flags, and causes are dropped (`import_causes_fails`). `Dep` may be null (DIDependenceAnalysis.cpp sets dependences without descriptions), then `Dep->getLevels()` is undefined (`import_null_fails`).
* C130: the distance of an anti dependence is the distance of a flow dependence (AnalysisWriter.cpp:203, `export_anti_fails`). The check of width uses `sizeof` of an optional value, so values with 33-64 bits are truncated (`export_distance_fails`).
* C132: export does not write dependences of privatizable variables, and import considers absence of dependences as `shared` (`roundtrip_private_fails`); a first private variable becomes private (`roundtrip_first_fails`).
* C133: while the base of a member expression is visited other candidates in it take its place: `s[t->n].x`, `(t + s->n)->x` and `(c ? s : t)->x` leave a reference to a removed parameter or access a wrong member (`replaced_fails`). `(s[i]).x` and `(&s[i])->x` lose the index.
* C134: members which are only read are passed by value if the strict option is off, so a change through an alias is not seen (`preserved_fails`). A union is treated as a structure (`union_fails`). Not modelled but seen in the code: a static local structure is replaced with variables which are not static; an array member of a structure passed by value becomes a pointer, so changes are visible in the caller; a null pointer which is never dereferenced by the original function is dereferenced at the call of a clone; `VisitVarDecl` (StructureReplacement.cpp:857-880) uses an iterator after its erasure.
* C135: `addPragmaMetadata` uses flags of the second member for all remaining members (`pragma_arrays_fails`).
* C136: an explicit request of a callee with a pointer to a member does not mark the member as assigned, so the address of a copy is passed (`newArg_value_fails`). An argument expression is duplicated or dropped with its side effects.
* C137: a member marked as an array by an explicit request is not a change, so callers in a cycle do not see it (`fill_closed_fails`).
* C138: an explicit request is a change in each pass, so the search does not end (`inCalls_terminates_fails`). `CanvasItr` is never incremented in `insertNewFunctions`, so all functions of a component get the first clone (`insertNew_own_fails`); calls between functions of a component are replaced before metadata of the second one exist.
* C141: `ParentTotalIterations` may be zero (RegionWeights.cpp:199-212): a nest of loops which has not been executed in the profile leads to division by zero (`run_defined_fails`). `AssumedEntryCount` is `unsigned`, so `2^32` calls become zero (`run_calls_fails`). If a parent loop has no identifier then the number of calls of the function is used instead of its iterations (`parent_fails`).
* C142: `Calls.try_emplace(DbgLoc)` keeps a single call for a location (DependenceInliner.cpp:240-253, `attribute_fails`).
* C143: `mCurrentSCCCost` is evaluated before inlining only, and it is stored again after inlining without an update (DependenceInliner.cpp:163-174), so the number of accesses is not bounded by the threshold (`bound_fails`).
* C145: metadata of memory without a variable (a result of a call, an address made from an integer) do not contain its size (DIEstimateMemory.cpp:2287-2290), so a part and the whole share `DIMemory`. `erase(EMToM.second)` (NotInitializedMemory.cpp:225-226) removes the whole as well: nothing is reported (`covers_fails`). If `DIAT.find` fails then there is neither a report nor a warning (NotInitializedMemory.cpp:209-211, `covers_silent_fails`).
* C146: when optimization is disabled, `actualize` is applied to a directive which cannot be inserted (`invalid`) and has been replaced, so neither the directive nor its replacements are written and no error is reported (DVMHWriter.cpp:1609-1630, 1684-1696, `performed_fails`). A directive without replacements which cannot be inserted is also dropped with no error (DVMHWriter.cpp:1609-1611, `performed_childless_fails`).
* C148: `AlignLess` reads `RHSAxis` from `LHS.Relation` (DVMHDirecitves.h:147), so parameters of axes are never compared; the loop is left at the first pair of equal constants (DVMHDirecitves.h:143-145), so `A[1][2]` and `A[1][3]` are the same entry (`distinct_fails`). APC creates such entries for remote accesses (lib/APC/Parallelization.cpp:816-826), so one of two remote elements is lost.
* C149: variables are compared by name, so of two variables with the same name only the first one is kept in a merged directive; if it is not visible near the statement then nothing is written for the second one (`hidden_fails`).
* C150: DVMHDataTransferIPO.cpp:968-972 does not transfer an induction variable if a parallel loop post-dominates a write. If the variable is also read in another region its old value is used there (`induction_fails`). Moreover, the `return` also omits `get_actual` for a call which reads and writes the variable (`induction_read_fails`).
* C151: DVMHDataTransferIPO.cpp:532 uses the list of `actual` directives to build `get_actual` directives after a call. Variables which are not changed on a device are copied (`after_call_fails`), necessary variables are not lost because each written variable is also listed in `actual`.
* C152: DVMHDirecitves.cpp:104-113 rejects another loop in the dependent dimension only if it is mentioned after the current loop: accesses `A[j]`, `A[i]` are accepted, accesses `A[i]`, `A[j]` are rejected (`other_loop_fails`).
* C153: DVMHDirecitves.cpp:122-134 takes into account only a sign of a step. For `A[n-i] = A[n-i+1]` the width is declared for a wrong side (`reversed_fails`), for `A[i] = A[i-2]` with a step 2 the declared width is 1 (`strided_fails`).
* C155: ASTDependenceAnalysis.cpp:231 searches a declaration for the first memory location of an alias node, and `emplace` (237) does not update an existing element: distances of other memory locations are lost without a diagnostic (`several_fails`, `repeated_fails`). The condition at lines 234-236 is always true because of a missing comparison with `CoincideGlobal`, so variables which do not coincide with memory are accepted.
* C157 (`mixed_fails`, `crash_fails`): `mergeSiblingRegions` (DVMHSMAutoPar.cpp:453-457) does not clear `ToMerge` when a kind of a region changes. A host-only region is merged into a device region, and two merged device regions which are followed by a host-only region are merged again (a null reference is dereferenced).
* C158 (`tie_fails`, `tie_order_fails`): `optimizeLevelImpl` (DVMHSMAutoPar.cpp:593-594) overwrites a mapping of an array for each access, so the last access determines `tie` clause. A coefficient which is not a constant is treated as a negative one.
* C159 (`no_region_fails`): `sanitizeAcrossLoops` (DVMHSMAutoPar.cpp:517-519) looks up an end of a region without a check that the loop is surrounded by a region.
* C160 (`misplaced_fails`, `crash_fails`): `TraverseStmt` (RegionDirectiveInfo.cpp:104-109) does not reset `mNewActiveRegions` after an unexpected directive, and a directive at the end of a block is still `mNewPragma` after the block. The next scope drops outer regions, or `mActiveRegions.size() - mNewActiveRegions` wraps around.
* C164: `DIArrayAccessInfo::erase` stops the update of scopes (`break`, DIArrayAccess.cpp:233-236) at the first scope which contains accesses to the removed array only. Other scopes are not updated and refer to removed list elements: for a loop nest with a single array one of the loops always has a dangling reference (`erase_dangling_fails`), accesses to other arrays may be lost (`erase_fails`). The condition in DIArrayAccess.cpp:231 also reads an element before the comparison with the end of the range. `clear()` does not clear the set of arrays.
* C166. `loopEndInstr()` iterates over successors of a terminator and redirects all equal successors at once, so if two cases of a switch leave a loop to the same block then the second one finds the exit block which has been just created (it is not in the loop) and adds one more exit block before it: `sl_end` is called twice for each exit (`double_exit_fails`).
* (not modelled, found when reading) `loopEndInstr()` does not update PHI-nodes in targets of exit edges; a new preheader may obtain several incoming values from the same block in PHI-nodes; a location of the end of a loop is stored with `line1` and `col1` keys instead of `line2` and `col2`; `visitCallBase()` marks a call at the beginning twice and never marks a call at the end; the counter of stores is computed as `NumStore += NumStore + NumStoreArray`; the result of `real_path()` is negated, so a real path is used only if it is not available.
* C167. `collectCallee()` handles a call of a casted function: the callee is marked, but the traversal continues from the node of the edge (this is the node of external functions) instead of the node of the callee, so its callees are not instrumented (`cast_callee_fails`). Moreover, the callee is in the set after that, so it is not traversed when it is called directly.
* C168. `regTypes()` does nothing if there are no types but `visitEntryPoint()` requires its result, so a module without types leads to a fatal error (`no_types_fails`).
* C169. A pool is allocated for strings of all modules, but modules use indices which start from zero and the offset of a module is not added to them, so strings of different modules overwrite each other (`shared_pool_fails`).
* C170. `findAvailableSuffix()` for a list of modules does not repeat a search for modules which have been checked before a suffix was increased (`name_conflict_fails`).
* Loop interchange (C171): only induction variables of outer loops in headers of inner loops are checked. The initial value of an outer loop may depend on an induction variable of an inner one or on a private variable, so `for (i = j; ..) for (j = 0; ..)` is accepted in strict mode and has another number of iterations after interchange (`start_fails`). Calls in headers are ignored because the handler of unknown memory starts with `return;` (`call_fails`). If a loop has no iterations, final values of induction variables differ (`empty_fails`).
* Limits of distribution (C173): the handler of unknown memory is empty, so a global array which is accessed by a function without a body stays distributed unless it is passed as an argument (`unknown_fails`); an address returned from a function is not noticed (`return_fails`). Flags of formal parameters are set without a check, so `IO_PRIV` may be replaced by `SPF_PRIV`.
* Include tree: files are identified by `FileID` only, so files of different translation units with equal identifiers share a node (`units_fails`); `root_size()` counts internal declarations although `roots()` does not list them (`root_size_fails`); declarations from one macro expansion have equal offsets and are ordered by an unstable sort (`tie_fails`).
* Check of macros: a clause at the end of a block is applied to the next statement outside of the block (`dangling_fails`); `*mIsInvalid` is overwritten for each function, so errors in other translation units are forgotten (`last_fails`); the whole unit is traversed for each function, so messages are repeated (`repeated_fails`).
* Writing of files: if a temporary file cannot be created the target is truncated and written directly (`direct_fails`); errors of writing are not checked before the temporary file replaces the target, so a full disk destroys the source file (`room_fails`); the buffer for a number of a dump has `digits10 + 1` characters, so numbers with five digits are truncated and the dump 10000 overwrites the dump 1000 (`truncated_fails`).
* Global names: enumerators of global enumerations in C++ are not registered as global names (`cpp_fails`).
* Matching of memory: variables of a macro with equal names are removed from the map and are not remembered as unmatched (`dropped_fails`); the loop over global variables is inside the loop over functions, so the same declaration is added for each function (`repeated_fails` in `MemMatch`).
* C186: without `-merge-ast` and without a language a file with Clang AST is placed in `CSourcesToMerge` only (`Tool.cpp:730-732`), it is neither analysed nor reported. If the language is `fortran` and Flang is not available the same is true for all sources (`Tool.cpp:721-723`).
* C188: `mGlobalOpts.UnknownFunctionWeight` is assigned twice (`Tool.cpp:631-632`), so `-unknown-function-weight` has no effect (by default the weight of unknown functions is 20 instead of 1000000) and `-unknown-builtin-weight` does not change the weight of builtins.
* C188: the check of options incompatible with LLVM IR uses `sys::path::extension()` with the leading dot (`Tool.cpp:689-692`, compare with `substr(1)` in line 710), so it never finds a file with LLVM IR.
