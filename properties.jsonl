{"id": "C01", "title": "Intersection of two byte ranges is exact", "statement": "For two scalar (dimensionless) memory ranges with the same base and known bounds, intersect() reports no intersection exactly when no byte belongs to both, and otherwise the returned range contains exactly the common bytes; the two complement lists contain exactly the remaining bytes of the left and of the right range.", "quantifier": "all pairs of ranges with the same base and known bounds", "why_tests_cant": "ranges are drawn from all pairs of 64-bit bounds; a sample cannot show that no boundary combination loses or invents a byte", "anchors": ["lib/Analysis/Memory/MemoryLocationRange.cpp:intersectScalar", "include/tsar/Analysis/Memory/MemoryLocationRange.h:intersect"]}
{"id": "C02", "title": "Subtraction of an arithmetic progression splits the original exactly", "statement": "When the complement of a one-dimensional strided range with respect to its intersection is computed and the threshold is not exceeded, the produced pieces together contain exactly the indexes of the original range which are not in the intersection.", "quantifier": "all strided ranges (start, step, trip count) and all sub-progressions of them", "why_tests_cant": "start, step and trip count are unbounded; the number of produced pieces grows with the step ratio", "anchors": ["lib/Analysis/Memory/MemoryLocationRange.cpp:difference"]}
{"id": "C03", "title": "Intersection of two strided dimensions is exact", "statement": "For two one-dimensional strided ranges of the same array, intersect() answers 'no intersection' iff no index belongs to both, and otherwise the start/step/trip count it returns denote exactly the set of the common indexes.", "quantifier": "all pairs of strided ranges with positive steps and trip counts", "why_tests_cant": "correctness depends on number-theoretic facts (linear Diophantine equations) for all steps and starts", "anchors": ["lib/Analysis/Memory/MemoryLocationRange.cpp:intersect"]}
{"id": "C04", "title": "Multi-dimensional intersection is sound and exact", "statement": "For two multi-dimensional ranges with equal dimension sizes intersect() returns a range which denotes exactly the elements which belong to both; the left (right) complements cover exactly the elements of the left (right) range outside the intersection.", "quantifier": "all pairs of multi-dimensional strided ranges with any number of dimensions", "why_tests_cant": "number of dimensions and the sizes are unbounded", "anchors": ["lib/Analysis/Memory/MemoryLocationRange.cpp:intersect", "lib/Analysis/Memory/MemoryLocationRange.cpp:difference"]}
{"id": "C05", "title": "Complement lists are untouched when there is no intersection", "statement": "The documentation of intersect() says that if the intersection is empty the lists of complements are not changed.", "quantifier": "all pairs of ranges and initial complement lists", "why_tests_cant": "needs all interleavings of per-dimension outcomes", "anchors": ["include/tsar/Analysis/Memory/MemoryLocationRange.h:intersect", "lib/Analysis/Memory/MemoryLocationRange.cpp:intersect"]}
{"id": "C06", "title": "Ranges reported as joinable are joined without losing or inventing memory", "statement": "If two ranges are reported joinable then joining one to the other produces a range which denotes exactly the union of the two, for byte ranges and for multi-dimensional strided ranges.", "quantifier": "all pairs of ranges with any number of dimensions", "why_tests_cant": "unbounded bounds, steps and dimensions", "anchors": ["include/tsar/Analysis/Memory/MemorySetInfo.h:areJoinable", "include/tsar/Analysis/Memory/MemorySetInfo.h:join"]}
{"id": "C07", "title": "A memory set built by insertions denotes exactly the inserted memory", "statement": "After any sequence of insertions into an empty memory set, the memory denoted by the set is exactly the union of the inserted locations; joining locations while inserting neither drops nor adds memory.", "quantifier": "all sequences of insertions of locations", "why_tests_cant": "the state depends on the whole insertion history", "anchors": ["include/tsar/Analysis/Memory/MemorySet.h:insert"]}
{"id": "C08", "title": "Containment and overlap queries on a memory set are sound", "statement": "If contain(Loc) returns true then every cell of Loc belongs to the set; if overlap(Loc) returns false then no cell of Loc belongs to the set.", "quantifier": "all memory sets reachable by insertions and all locations", "why_tests_cant": "the answer is computed by repeatedly subtracting pieces; the number of pieces is unbounded", "anchors": ["include/tsar/Analysis/Memory/MemorySet.h:findContaining", "include/tsar/Analysis/Memory/MemorySet.h:contain", "include/tsar/Analysis/Memory/MemorySet.h:overlap"]}
{"id": "C09", "title": "Equality of memory sets", "statement": "Two memory sets compare equal only if they denote the same memory (the data-flow solver stops when values compare equal).", "quantifier": "all pairs of memory sets", "why_tests_cant": "equality of canonical forms must be checked on all pairs of sets", "anchors": ["include/tsar/Analysis/Memory/MemorySet.h:operator=="]}
{"id": "C10", "title": "Merge and intersection of memory sets", "statement": "merge() makes the set denote the union and reports a change whenever the denoted memory changed; intersect() leaves exactly memory of both sets.", "quantifier": "all pairs of memory sets", "why_tests_cant": "depends on arbitrary set contents", "anchors": ["include/tsar/Analysis/Memory/MemorySet.h:merge", "include/tsar/Analysis/Memory/MemorySet.h:intersect"]}
{"id": "C11", "title": "Data-flow values form a lattice with a full element", "statement": "merge() is union, intersect() is intersection where the full value is the universe: it is the neutral element of intersect and the absorbing element of merge; both report a change iff the value changed.", "quantifier": "all pairs of data-flow values including the full value", "why_tests_cant": "laws quantify over all sets", "anchors": ["include/tsar/Analysis/Memory/DFMemoryLocation.h:LocationDFValue::merge", "include/tsar/Analysis/Memory/DFMemoryLocation.h:LocationDFValue::intersect"]}
{"id": "C12", "title": "Queries on the full data-flow value are consistent", "statement": "For every data-flow value, the boolean query cover(range) agrees with the list returned by findCoveredBy, contain(loc) agrees with insert(loc) returning 'already exists'.", "quantifier": "all data-flow values and all locations", "why_tests_cant": "consistency must hold for every value, including the universal one which is rarely built in tests", "anchors": ["include/tsar/Analysis/Memory/DFMemoryLocation.h:cover", "include/tsar/Analysis/Memory/DFMemoryLocation.h:findCoveredBy", "include/tsar/Analysis/Memory/DFMemoryLocation.h:insert"]}
{"id": "C13", "title": "Joining memory traits is a semilattice in which information is only lost towards dependency", "statement": "The conjunction of traits is associative, commutative and idempotent, 'no access' is neutral and 'dependency' (with all unit flags) is absorbing on the dependence part; privatizable variants are ordered as documented.", "quantifier": "all trait values (all 2^19 bit patterns)", "why_tests_cant": "exhaustive pairwise laws over the full bit space and arbitrary length joins", "anchors": ["lib/Analysis/Memory/BitMemoryTrait.h:BitMemoryTrait", "lib/Analysis/Memory/BitMemoryTrait.h:Id"]}
{"id": "C14", "title": "Conversion of a trait to its descriptor and back", "statement": "Converting any trait value obtained by joining the documented traits to a descriptor never reaches the unreachable default case, and converting the descriptor back yields a trait with the same classification.", "quantifier": "all joins of documented traits", "why_tests_cant": "joins of arbitrary subsets of traits with arbitrary unit flags", "anchors": ["lib/Analysis/Memory/BitMemoryTrait.cpp:toDescriptor", "lib/Analysis/Memory/BitMemoryTrait.cpp:BitMemoryTrait"]}
{"id": "C15", "title": "The iterative data-flow solver returns a fixed point", "statement": "When solveDataFlowIteratively() returns, the value of every node other than the entry equals its transfer function applied to the meet over its predecessors, and the entry keeps the boundary condition.", "quantifier": "all finite graphs, all lattices and transfer functions for which it terminates", "why_tests_cant": "all graphs and all transfer functions", "anchors": ["include/tsar/ADT/DataFlow.h:solveDataFlowIteratively"]}
{"id": "C16", "title": "The data-flow solution is sound for every execution path", "statement": "With monotone transfer functions, the value computed for a node is below (safe with respect to) the composition of the transfer functions along every path from the entry.", "quantifier": "all finite graphs, all paths of any length, all monotone frameworks", "why_tests_cant": "paths are unbounded in number and length", "anchors": ["include/tsar/ADT/DataFlow.h:solveDataFlowIteratively"]}
{"id": "C17", "title": "The data-flow solver terminates on finite-height lattices", "statement": "For monotone transfer functions on a lattice of finite height the round-robin iteration stops.", "quantifier": "all finite graphs and finite-height lattices", "why_tests_cant": "termination cannot be tested", "anchors": ["include/tsar/ADT/DataFlow.h:solveDataFlowIteratively"]}
{"id": "C18", "title": "A single topological pass solves acyclic graphs", "statement": "On an acyclic graph solveDataFlowTopologicaly() computes in one pass values which satisfy the equations of every node.", "quantifier": "all acyclic graphs", "why_tests_cant": "all graphs", "anchors": ["include/tsar/ADT/DataFlow.h:solveDataFlowTopologicaly"]}
{"id": "C19", "title": "Removing an adjacent node removes every edge to it and nothing else", "statement": "After removal of a successor (predecessor) no occurrence of it remains and all other adjacent nodes stay with their order and multiplicity.", "quantifier": "all adjacency lists", "why_tests_cant": "erase-while-iterating code must be right for every arrangement of duplicates", "anchors": ["include/tsar/ADT/DataFlow.h:SmallDFNode::removeAdjacentNode"]}
{"id": "C20", "title": "Must-reaching definitions are defined on every path", "statement": "If the analysis says that a location is in the must-defined set before a node then on every path from the entry of the region to the node the location is written; if it is not in the may-defined set then no path writes it.", "quantifier": "all region graphs and all paths", "why_tests_cant": "paths are unbounded", "anchors": ["lib/Analysis/Memory/DefinedMemory.cpp:DataFlowTraits<ReachDFFwk*>", "include/tsar/Analysis/Memory/DefinedMemory.h:ReachDFFwk"]}
{"id": "C21", "title": "Live memory covers every upward exposed read", "statement": "If on some path from a node a location is read before it is written, the location is live at the node.", "quantifier": "all region graphs, all paths and all boundary conditions", "why_tests_cant": "paths are unbounded", "anchors": ["lib/Analysis/Memory/LiveMemory.cpp:DataFlowTraits<LiveDFFwk*>"]}
{"id": "C22", "title": "Collapsing a region summarises its def-use behaviour", "statement": "After a loop region is collapsed to a node: a location in its definitions is written on every execution which leaves the region; a location which may be written is in definitions or may-definitions; a location which may be read before it is written inside of the region is in its uses.", "quantifier": "all loop regions and all paths through them", "why_tests_cant": "paths are unbounded and the summary is used recursively for every nesting depth", "anchors": ["lib/Analysis/Memory/DefinedMemory.cpp:ReachDFFwk::collapse"]}
{"id": "C23", "title": "A bidirectional map is a partial bijection after every history", "statement": "After any sequence of insertions, emplacements and erasures by iterator, looking up by the first key and by the second key give mutually inverse results, and each key is mapped to at most one partner.", "quantifier": "all operation histories", "why_tests_cant": "history dependent", "anchors": ["include/tsar/ADT/Bimap.h:Bimap"]}
{"id": "C24", "title": "Erasing from a bidirectional map by key forgets the pair in both directions", "statement": "After erase_first(K) (erase_second(K)) neither key of the removed pair can be found.", "quantifier": "all reachable bimaps and keys", "why_tests_cant": "history dependent; requires looking at both indexes", "anchors": ["include/tsar/ADT/Bimap.h:erase_first", "include/tsar/ADT/Bimap.h:erase_second"]}
{"id": "C25", "title": "A list bimap maps every key of a list to the same partner list", "statement": "After any sequence of insertions every key finds the node whose list contains it, a key belongs to one node only, and erasing the node forgets all keys of both lists.", "quantifier": "all operation histories", "why_tests_cant": "history dependent", "anchors": ["include/tsar/ADT/ListBimap.h:ListBimap"]}
{"id": "C26", "title": "Tree relation answers ancestor/descendant questions exactly on trees", "statement": "On a tree the relation built from node numbering says ancestor (descendant, equal, unreachable) exactly when the first node is a proper ancestor (...) of the second one.", "quantifier": "all finite trees and pairs of nodes", "why_tests_cant": "trees of every shape", "anchors": ["include/tsar/ADT/SpanningTreeRelation.h:SpanningTreeRelation", "include/tsar/ADT/GraphNumbering.h:numberGraph"]}
{"id": "C27", "title": "Tree relation on general graphs describes the spanning tree", "statement": "For a general (not tree) graph the relation of two reachable nodes describes the depth-first spanning tree, i.e. a node which is reported as an ancestor reaches the descendant by tree edges and siblings are not reported as ancestors.", "quantifier": "all rooted graphs", "why_tests_cant": "graphs of every shape", "anchors": ["include/tsar/ADT/GraphNumbering.h:numberGraph", "include/tsar/ADT/SpanningTreeRelation.h:SpanningTreeRelation::compare"]}
{"id": "C28", "title": "Back edge search decides acyclicity", "statement": "isDAG() is true exactly if no cycle is reachable from the entry; findBackEdge() returns the end iff so, otherwise an edge which closes a cycle.", "quantifier": "all finite graphs", "why_tests_cant": "graphs of every shape", "anchors": ["include/tsar/ADT/GraphUtils.h:findBackEdge", "include/tsar/ADT/GraphUtils.h:isDAG"]}
{"id": "C29", "title": "Registered items get unique dense identifiers", "statement": "After any sequence of registrations different items have different identifiers, the same item always gets the same identifier, identifiers are consecutive from the first one.", "quantifier": "all registration histories", "why_tests_cant": "history dependent", "anchors": ["include/tsar/ADT/ItemRegister.h:ItemRegister"]}
{"id": "C30", "title": "Persistent iterators stay valid while their element is in the container", "statement": "After any history of creations, copies, assignments and destructions of persistent iterators and insertions/erasures in the container, a live persistent iterator dereferences to the element it was created for as long as it is not erased and is reported as invalid after that.", "quantifier": "all histories", "why_tests_cant": "history dependent", "anchors": ["include/tsar/ADT/PersistentIterator.h", "include/tsar/ADT/PersistentMap.h", "include/tsar/ADT/PersistentSet.h"]}
{"id": "C31", "title": "Numeric casts succeed only if the value is preserved", "statement": "castAPInt() returns true only if the destination holds exactly the mathematical value of the source, otherwise it returns false and does not truncate silently.", "quantifier": "all bit widths and all values", "why_tests_cant": "values of every bit width", "anchors": ["include/tsar/Support/NumericUtils.h:castAPInt", "include/tsar/Support/NumericUtils.h:isOverflow"]}
{"id": "C32", "title": "Every loop carried dependence is recorded with its kind", "statement": "If the dependence test reports a dependence whose direction at the analysed loop admits a carried instance from source to destination (or reverse), the flow/anti/output flag describing this instance is recorded.", "quantifier": "all dependence kinds and all direction vectors", "why_tests_cant": "all direction vectors of any length", "anchors": ["lib/Analysis/Memory/PrivateAnalysis.cpp:insertDependence"]}
{"id": "C33", "title": "Reported dependence distances cover all merged dependencies", "statement": "After any sequence of dependencies is merged, the distance range reported at every known level contains the distances of all merged dependencies at this level.", "quantifier": "all sequences of dependencies with any number of levels", "why_tests_cant": "history dependent", "anchors": ["lib/Analysis/Memory/PrivateAnalysis.cpp:DependenceImp::UpdateFunctor", "lib/Analysis/Memory/PrivateAnalysis.cpp:UpdateDepFunctor"]}
{"id": "C34", "title": "Privatization decisions are sound", "statement": "A location classified as private is never read before it is written in an iteration and is not used after the loop; last private is written in the last iteration on every exit; second to last private likewise for the latch; readonly is never written.", "quantifier": "all loops, iterations and executions of the loop body", "why_tests_cant": "all executions", "anchors": ["lib/Analysis/Memory/PrivateAnalysis.cpp:resolveAccesses"]}
{"id": "C35", "title": "Merging traits of overlapping memory loses no dependence and leaves an antichain", "statement": "After redundant elements are removed from a list of (memory, trait) pairs no two remaining elements are comparable in the memory tree and the trait of each remaining element accounts for every removed element it covers.", "quantifier": "all lists of estimate memory and traits", "why_tests_cant": "lists of any length", "anchors": ["lib/Analysis/Memory/PrivateAnalysis.cpp:removeRedundant"]}
{"id": "C36", "title": "Coverage test", "statement": "If cover() says that a location is covered by a list of memory locations, then the sizes of pairwise disjoint listed locations inside of it sum up to at least its size.", "quantifier": "all memory trees and lists", "why_tests_cant": "trees of any shape", "anchors": ["include/tsar/Analysis/Memory/MemoryCoverage.h:cover"]}
{"id": "C37", "title": "Alias relation of two memory locations", "statement": "When the relation of two estimate memory locations says 'contained' ('covers') then every byte of the first (second) belongs to the other one and the other one is larger, 'coincides' means equal sizes and, together with 'must alias', the same bytes, 'no alias' means no common bytes.", "quantifier": "all pairs of locations with any offsets and sizes", "why_tests_cant": "offsets and sizes of every 64-bit value including negative offsets", "anchors": ["lib/Analysis/Memory/EstimateMemory.cpp:aliasRelation"]}
{"id": "C38", "title": "Chains of estimate memory are ordered by size", "statement": "After any sequence of insertions each chain of estimate memory rooted at a base has strictly increasing sizes from the leaf to the root, each memory belongs to exactly one chain and is reachable from its first element, and the inserted location is represented by a memory of the same size.", "quantifier": "all insertion histories", "why_tests_cant": "history dependent", "anchors": ["lib/Analysis/Memory/EstimateMemory.cpp:AliasTree::insert", "lib/Analysis/Memory/EstimateMemory.cpp:AliasTree::find"]}
{"id": "C39", "title": "Symbolic division satisfies numerator = quotient * denominator + remainder", "statement": "divide(N, D) returns Q and R such that N = Q*D + R for every value of the symbolic variables.", "quantifier": "all symbolic expressions and all valuations", "why_tests_cant": "expressions of any shape and all values", "anchors": ["lib/Support/SCEVUtils.cpp:SCEVDivision", "lib/Support/SCEVUtils.cpp:divide"]}
{"id": "C40", "title": "The greatest common divisor of a list of symbolic expressions divides each of them", "statement": "findGCD() returns an expression which divides the value of every expression in the list for every value of the symbolic variables.", "quantifier": "all lists of expressions and valuations", "why_tests_cant": "unbounded", "anchors": ["lib/Support/SCEVUtils.cpp:findGCD"]}
{"id": "C41", "title": "Linear form extraction is exact when it is reported as safe", "statement": "computeSCEVAddRec() returns an affine recurrence which has the same value as the expression in every iteration of the loop when it reports the result as safe.", "quantifier": "all expressions, valuations and iterations", "why_tests_cant": "unbounded", "anchors": ["lib/Support/SCEVUtils.cpp:computeSCEVAddRec"]}
{"id": "C42", "title": "The prime table contains exactly the primes", "statement": "countPrimeNumbers(Bound) returns all primes up to the bound in ascending order and nothing else.", "quantifier": "all bounds", "why_tests_cant": "all natural bounds; the sieve relies on a theorem about quadratic forms", "anchors": ["lib/Support/SCEVUtils.cpp:countPrimeNumbers"]}
{"id": "C43", "title": "Loop reversal preserves the iteration space", "statement": "The reversed loop header executes exactly the iterations of the original loop in the opposite order.", "quantifier": "all start values, bounds, steps, comparison operators and increment forms", "why_tests_cant": "all integer parameters, including empty loops and steps which do not divide the range", "anchors": ["lib/Transform/Clang/LoopReversal.cpp:transformLoop", "lib/Transform/Clang/LoopReversal.cpp:parseCondition", "lib/Transform/Clang/LoopReversal.cpp:parseIncrement"]}
{"id": "C44", "title": "Loop reversal transforms exactly the requested loops", "statement": "Every loop of the nest named in the clause, and no other, is selected for reversal.", "quantifier": "all lists of names and numbers in a clause", "why_tests_cant": "all orders and repetitions of requests", "anchors": ["lib/Transform/Clang/LoopReversal.cpp:traverseStmt"]}
{"id": "C45", "title": "Loop interchange permutes the loop headers", "statement": "After any list of swaps the new order of headers is a permutation of the old one and equals the composition of the requested transpositions; the header put at each position is the source of the requested loop.", "quantifier": "all nests and swap lists", "why_tests_cant": "all lists", "anchors": ["lib/Transform/Clang/LoopInterchange.cpp:TraverseStmt"]}
{"id": "C46", "title": "An argument is found by its number", "statement": "getArgument(F, N) returns the N-th argument of the function, or null when the function has no such argument.", "quantifier": "all functions and argument numbers", "why_tests_cant": "all argument lists", "anchors": ["lib/Support/Utils.cpp:getArgument", "include/tsar/Support/IRUtils.h:getArgument"]}
{"id": "C47", "title": "Closing only the active connection keeps other connections open", "statement": "A close-connection pass created to close the active connection only does not close other connections; a pass created for a server closes the connection to this server only.", "quantifier": "all sets of open connections", "why_tests_cant": "all sets of connections", "anchors": ["lib/Analysis/AnalysisSocket.cpp:createAnalysisCloseConnectionPass", "lib/Analysis/AnalysisSocket.cpp:AnalysisCloseConnectionPass"]}
{"id": "C48", "title": "An output file is never left half written", "statement": "If output is produced through a temporary file then at every crash point the destination holds either its previous content or the complete new content.", "quantifier": "all write sequences and crash points", "why_tests_cant": "all crash points", "anchors": ["lib/Support/Utils.cpp:OutputFile", "include/tsar/Support/OutputFile.h"]}
{"id": "C49", "title": "Directive and clause lookup is the inverse of naming", "statement": "getTsarClause(D, getName(C)) finds C for each clause C of directive D, and a name is found iff some directive (clause) with this name and parent exists.", "quantifier": "all names, namespaces and directives", "why_tests_cant": "all strings", "anchors": ["lib/Support/Directives.cpp:getTsarDirective", "lib/Support/Directives.cpp:getTsarClause", "lib/Support/Directives.cpp:getTsarDirectiveNamespace"]}
{"id": "C50", "title": "A loop reported as parallel has no preventing dependence", "statement": "If a loop is reported as parallel then no covered memory has an output dependence, an unknown-distance flow or anti dependence, an address access, or unknown reduction.", "quantifier": "all loops, alias trees and trait sets", "why_tests_cant": "all trait sets", "anchors": ["lib/Analysis/Parallel/ParallelLoop.cpp:runOnFunction"]}
{"id": "C51", "title": "Subscript dependence tests prove independence only if there is none", "statement": "When the ZIV, strong SIV, weak-zero SIV, weak-crossing SIV or GCD test reports independence, then no pair of iterations within the loop bounds accesses the same element.", "quantifier": "all coefficients, constants and loop bounds", "why_tests_cant": "all integer coefficients and iteration counts", "anchors": ["lib/Analysis/Memory/DependenceAnalysis.cpp:testZIV", "lib/Analysis/Memory/DependenceAnalysis.cpp:strongSIVtest", "lib/Analysis/Memory/DependenceAnalysis.cpp:weakZeroSrcSIVtest", "lib/Analysis/Memory/DependenceAnalysis.cpp:weakCrossingSIVtest", "lib/Analysis/Memory/DependenceAnalysis.cpp:gcdMIVtest"]}
{"id": "C52", "title": "A region keeps its entry first and its exit last", "statement": "After any sequence of node additions to a region of a data-flow graph the entry node is the first node, the exit node is the last one and every node belongs to the region once.", "quantifier": "all sequences of node additions", "why_tests_cant": "history dependent", "anchors": ["include/tsar/Analysis/DataFlowGraph.h:DFRegion::addNode"]}
{"id": "C53", "title": "Successor and predecessor lists of a region mirror each other", "statement": "In a region graph built for a loop nest a node is a successor of another one as many times as the latter is a predecessor of the former; back edges of the loop lead to the latch only, so the region graph of a reducible loop is acyclic.", "quantifier": "all loop nests", "why_tests_cant": "all control flow graphs", "anchors": ["lib/Analysis/DFRegionInfo.cpp:buildLoopRegion"]}
{"id": "C54", "title": "Conversion of a byte range to an array range keeps the bytes", "statement": "When a byte range is intersected with an array range and lies inside of the array, it is treated as an array range which consists of the same bytes.", "quantifier": "all arrays (dimensions, element sizes) and byte ranges", "why_tests_cant": "all sizes and numbers of dimensions", "anchors": ["lib/Analysis/Memory/MemoryLocationRange.cpp:delinearize"]}
{"id": "C55", "title": "Views of an array with different shapes are never reported as disjoint when they overlap", "statement": "If two array ranges with the same base have different dimension sizes, the intersection is reported as absent only if the ranges have no common bytes.", "quantifier": "all pairs of array ranges", "why_tests_cant": "all shapes", "anchors": ["lib/Analysis/Memory/MemoryLocationRange.cpp:intersect"]}
{"id": "C56", "title": "Statistic counters count the trait they are named after", "statement": "When a trait is converted to a descriptor, for each trait set in the descriptor exactly the counter named after this trait is increased.", "quantifier": "all joins of documented traits and all counters", "why_tests_cant": "all combinations of traits and unit flags; the mapping of tags to counters is positional", "anchors": ["include/tsar/Analysis/Memory/MemoryTrait.h:MEMORY_TRAIT_STATISTIC", "lib/Analysis/Memory/BitMemoryTrait.cpp:toDescriptor"]}
{"id": "C57", "title": "Parent and lowest common ancestor in a tree are found exactly", "statement": "In a tree the search of a parent returns the parent of each node except the root, and the search of the lowest common ancestor of a non-empty range of nodes returns the lowest node which is a proper ancestor of all of them, or nothing if there is no such node.", "quantifier": "all finite trees and all non-empty sequences of their nodes", "why_tests_cant": "trees and sequences of every shape", "anchors": ["include/tsar/ADT/SpanningTreeRelation.h:findParent", "include/tsar/ADT/SpanningTreeRelation.h:findLCA"]}
{"id": "C58", "title": "Range erasure in a bidirectional map", "statement": "Erasing a range of iterators of Bimap or ListBimap removes exactly the elements of the range and touches no freed memory.", "quantifier": "every map and every non-empty valid range", "why_tests_cant": "Needs an address-reuse independent argument: the defect is a use after free which tests may not notice.", "anchors": ["include/tsar/ADT/Bimap.h: erase(iterator, iterator)", "include/tsar/ADT/ListBimap.h: erase(iterator, iterator)"]}
{"id": "C59", "title": "Results for alias nodes neither hide dependencies nor claim too much", "statement": "For every alias node what is reported (not accessed, read-only, shared, privatizable, not used after the loop) is true for all memory accessed in the node, and if no kind of loop-carried dependence is reported then the node is reported as not accessed, read-only, shared, privatizable, reduction or induction.", "quantifier": "all lists of memory with traits in a node, all recorded dependencies, all executions of a loop", "why_tests_cant": "any combination of traits in nodes of any size and all executions of a loop", "anchors": ["lib/Analysis/Memory/PrivateAnalysis.cpp:storeResults", "lib/Analysis/Memory/PrivateAnalysis.cpp:checkFirstPrivate"]}
{"id": "C60", "title": "Relation of a memory location to all memory of an alias node", "statement": "A relation which is obtained by merging relations with several locations makes only claims which hold for each of merged relations.", "quantifier": "all lists of locations and all answers of alias analysis", "why_tests_cant": "depends on combinations of relations in lists of any length", "anchors": ["lib/Analysis/Memory/EstimateMemory.cpp:mergeAliasRelation", "include/tsar/Analysis/Memory/EstimateMemory.h:aliasRelation"]}
{"id": "C61", "title": "Chains of estimate memory may be passed in both directions", "statement": "getPrev() of a memory is the memory whose getNext() is this one, so chains may be passed from the root to the leaf.", "quantifier": "all insertion histories", "why_tests_cant": "history dependent: it depends on the order in which chains have been linked", "anchors": ["include/tsar/Analysis/Memory/EstimateMemory.h:getPrev", "lib/Analysis/Memory/EstimateMemory.cpp:AliasTree::add"]}
{"id": "C62", "title": "The predicate reported for a canonical loop relates the induction variable to the bound", "statement": "For every canonical loop the reported predicate p satisfies: the condition of the loop holds for a value of the induction variable exactly when `value p end` holds, wherever the bound stands in the comparison.", "quantifier": "All integer predicates, widths and values, both positions of the bound in the comparison", "why_tests_cant": "Tests write the variable on the left; the operand order and equality of the operands are rarely combined.", "anchors": ["lib/Analysis/Clang/CanonicalLoop.cpp:checkLoop", "include/tsar/Analysis/Clang/CanonicalLoop.h:getPredicate"]}
{"id": "C63", "title": "A loop with constant step is accepted as canonical only if it makes progress towards its bound, and is rejected only if increment and condition conflict", "statement": "If the check of increment and condition succeeds for a loop with a constant step then the loop stops unless a value overflows; if it fails then the increment does not move the variable towards the bound or the loop has no iterations.", "quantifier": "All initial values, bounds, steps, comparison operators, increment forms, both positions of the bound", "why_tests_cant": "The claim ranges over all constants; tests contain a few headers.", "anchors": ["lib/Analysis/Clang/CanonicalLoop.cpp:coherent"]}
{"id": "C64", "title": "One socket per server, the active socket is the last activated one", "statement": "After any sequence of registering servers, accessing sockets and activating servers, each mentioned server has exactly one socket and keeps its position, search by a server finds its socket and fails only for an unknown server, and the active socket is the socket of the server activated last; if nothing has been activated, the absence of an active socket is reported.", "quantifier": "all sequences of operations on the list of sockets", "why_tests_cant": "The state depends on the whole history of operations.", "anchors": ["include/tsar/Analysis/AnalysisSocket.h:AnalysisSocketInfo"]}
{"id": "C65", "title": "Waiting and data of a socket", "statement": "wait() and release() return only after the server has notified the client in response to this very call, and they return if the server eventually notifies; getAnalysis() returns only data sent by the server in response to this very request.", "quantifier": "all servers (arbitrary functions of the history of requests) and all histories of a socket, including closed sockets", "why_tests_cant": "Ranges over all behaviours of the server and all histories.", "anchors": ["include/tsar/Support/SMStringSocket.h:SMStringSocketBase", "include/tsar/Analysis/AnalysisSocket.h:AnalysisSocket"]}
{"id": "C66", "title": "A server responds by results for the requested function", "statement": "A response of the analysis server to a request for a function consists of the requested analysis passes in the requested order, and these passes hold results for the requested function; an empty response is sent only if the analysis is not available.", "quantifier": "all sequences of requests and all sets of available passes and providers", "why_tests_cant": "The server caches results, so a response depends on the whole sequence of requests.", "anchors": ["include/tsar/Analysis/AnalysisServer.h:AnalysisResponsePass"]}
{"id": "C67", "title": "Clients and servers are synchronised", "statement": "The passes which the pipelines of the tool run on a client and on an analysis server agree under every schedule: no request is unexpected for the server, no thread is blocked for ever, all passes finish; passes of the client after a wait start only after the passes of the server before the notification have finished.", "quantifier": "all schedules of two threads, all amounts of other work and all numbers of requests", "why_tests_cant": "The number of schedules is unbounded, tests observe a few of them.", "anchors": ["include/tsar/Analysis/AnalysisServer.h:AnalysisServer", "lib/Analysis/AnalysisSocket.cpp:AnalysisNotifyClientPass", "lib/Analysis/Memory/DIMemoryAnalysisServer.cpp:DIMemoryAnalysisServer", "lib/APC/MemoryServer.h:DVMHMemoryServer", "lib/APC/ClangDVMHWriter.cpp:createAnalysisWaitServerPass"]}
{"id": "C68", "title": "Prototypes and anchors read from the generated tables are those of the clause description", "statement": "For every list of directive descriptions, the prototype returned for a clause is exactly the flattened list of its expressions (offsets of neighbouring clauses never overlap), and the search for the end of a nested group from any of its elements returns the end of the same group.", "quantifier": "all lists of records, all clauses, all positions inside nested groups", "why_tests_cant": "Tests can only look at clauses which exist now; tables are regenerated whenever a description is changed.", "anchors": ["utils/TableGen/TableGen.cpp: GenClausePrototypeList, GenClauseOffsetList", "lib/Support/Directives.cpp: ClausePrototype::get", "include/tsar/Support/Directives.h: findAnchor"]}
{"id": "C69", "title": "A clause is accepted if and only if it belongs to the language of its prototype", "statement": "For every clause of TSAR and every line of tokens, a visit of the clause terminates, never pops an empty stack or leaves unfinished groups, and ends with a success or with a diagnostic. If it succeeds then exactly the consumed tokens form a word of the language described by the prototype and the tokens added to the replacement represent this word. If a beginning of the line which is followed by a name or by the end of the line is a word of the language then the clause is recognized.", "quantifier": "all clauses, all token sequences with an end-of-directive token, all initial positions", "why_tests_cant": "The number of possible lines is unbounded (repetitions may be nested), backtracking behaviour depends on the whole history of visited groups.", "anchors": ["include/tsar/Frontend/Clang/ClauseVisitor.h: ClauseVisitor::visitBody, visitSingleExpr, visitAnchor, backtrack", "include/tsar/Frontend/Clang/ExternalPreprocessor.h: Lex, Backtrack, RevertCachedTokens", "lib/Frontend/Clang/PragmaHandlers.cpp: DefaultClauseVisitor"]}
{"id": "C70", "title": "A pragma is replaced without diagnostics if and only if it is a directive followed by its clauses", "statement": "For every line which follows '#pragma spf', processing terminates, and the line is replaced without diagnostics if and only if it is a name of a directive from this namespace and a sequence of names of its clauses with well formed bodies. The replacement is the compound statement which lists the namespace, the directive and the clauses in the order of the line.", "quantifier": "all lines of tokens, all directives", "why_tests_cant": "There are infinitely many lines; errors in a clause may affect recognition of the following ones.", "anchors": ["lib/Frontend/Clang/PragmaHandlers.cpp: PragmaNamespaceReplacer::HandlePragma, PragmaReplacer::HandlePragma, ClauseReplacer::HandleClause", "include/tsar/Frontend/Clang/PragmaHandlers.h: PragmaReplacerNode::FindHandler", "include/tsar/Frontend/Clang/DefaultPragmaHandlers.h: AddPragmaHandlers"]}
{"id": "C71", "title": "Clauses found in the syntax tree are clauses of the source line", "statement": "For every accepted pragma, the syntax tree of its replacement is recognized as a pragma with the same namespace and directive, its clauses are clauses of the line in the same order, and a search for a clause finds all occurrences of the clause and nothing else.", "quantifier": "all accepted lines, all clause identifiers", "why_tests_cant": "A line may contain any number of clauses of any kinds with arbitrary bodies.", "anchors": ["lib/Frontend/Clang/Pragma.cpp: traversePragmaName, Pragma::Pragma, Pragma::clause, findClause"]}
{"id": "C72", "title": "Combined traits of aliased locations never lose a dependence", "statement": "Traits of an alias node are computed from traits of all memory locations in it. If a location which is taken into account has a flow, anti or output dependence then the alias node has a dependence; the alias node is free of dependencies if and only if every such location is; accesses to an address, accesses in a header, uses after the loop and locks are reported for the node if and only if some location has them. The computation is defined for all consistent traits.", "quantifier": "all finite sets of locations with consistent traits, both values of the option to ignore redundant memory", "why_tests_cant": "the number of aliased locations is unbounded and all combinations of traits matter", "anchors": ["lib/Analysis/Memory/DIDependenceAnalysis.cpp: combineTraits", "lib/Analysis/Memory/BitMemoryTrait.h: BitMemoryTrait"]}
{"id": "C73", "title": "Accessed memory is covered by selected alias nodes exactly once", "statement": "The search for a coverage of explicit accesses (and of all accesses) in an alias tree returns accessed nodes only, every accessed node is inside one of the returned nodes, none of the returned nodes is inside a larger accessed node, and no node of the tree is covered twice. Every accessed proper descendant of an explicitly accessed node is reported with flow, anti and output dependencies.", "quantifier": "all alias trees and all sets of traits", "why_tests_cant": "trees of any height and any distribution of traits over nodes", "anchors": ["include/tsar/Analysis/Memory/MemoryTraitUtils.h: explicitAccessCoverage, accessCoverage", "lib/Analysis/Memory/DIDependenceAnalysis.cpp: runOnFunction"]}
{"id": "C74", "title": "Tests of several loops report independence only if there are no common elements", "statement": "When the exact SIV test, the exact or symbolic RDIV test or the Banerjee inequalities report independence, no iterations within the bounds of loops access the same element; directions which they remove never occur for accesses to the same element.", "quantifier": "all coefficients, constants and bounds (symbolic ones for symbolic RDIV and Banerjee), all numbers of loops and all iterations", "why_tests_cant": "Ranges over unbounded integers, arbitrary nests and symbolic expressions.", "anchors": ["lib/Analysis/Memory/DependenceAnalysis.cpp:exactSIVtest", "lib/Analysis/Memory/DependenceAnalysis.cpp:exactRDIVtest", "lib/Analysis/Memory/DependenceAnalysis.cpp:symbolicRDIVtest", "lib/Analysis/Memory/DependenceAnalysis.cpp:banerjeeMIVtest"]}
{"id": "C75", "title": "Constraints on iterations keep every dependence", "statement": "Intersection of two constraints keeps every pair of iterations which satisfies both of them, and propagation of constraints into subscripts of the same group keeps equality of subscripts for such pairs, so no dependence is lost by the Delta test; directions updated from constraints include directions of all these pairs.", "quantifier": "all constraints (distances, lines, points), all subscripts and all pairs of iterations", "why_tests_cant": "Ranges over unbounded integers and arbitrary subscripts.", "anchors": ["lib/Analysis/Memory/DependenceAnalysis.cpp:intersectConstraints", "lib/Analysis/Memory/DependenceAnalysis.cpp:propagate", "lib/Analysis/Memory/DependenceAnalysis.cpp:updateDirection"]}
{"id": "C76", "title": "Subscripts are tested in exactly one group", "statement": "Each linear pair of subscripts of two accesses is tested in exactly one group. Groups are the classes of the relation generated by shared loops: subscripts which are linked by a chain of shared loops are always in the same group and other subscripts never are; a separable group consists of a single subscript.", "quantifier": "all numbers of subscripts and all sets of loops in them", "why_tests_cant": "The number of dimensions and the sets of shared loops are unbounded.", "anchors": ["lib/Analysis/Memory/DependenceAnalysis.cpp:depends"]}
{"id": "C77", "title": "Loops are numbered consistently for two accesses", "statement": "A loop has the same number for the source and for the destination if and only if it is the same loop, different loops have different numbers, numbers are exactly 1..MaxLevels, and numbers which do not exceed CommonLevels are numbers of loops which surround both accesses.", "quantifier": "all positions of two accesses in all loop forests", "why_tests_cant": "Depth and shape of loop nests are unbounded.", "anchors": ["lib/Analysis/Memory/DependenceAnalysis.cpp:establishNestingLevels", "lib/Analysis/Memory/DependenceAnalysis.cpp:mapSrcLoop", "lib/Analysis/Memory/DependenceAnalysis.cpp:mapDstLoop"]}
{"id": "C78", "title": "The dependence test covers every real dependence", "statement": "If two accesses to memory with linear subscripts access the same element in some iterations then the dependence test of a pair of instructions does not report independence, and the reported directions, distances and peeling flags of every common loop cover these iterations; a loop independent dependence is reported if the iterations are the same.", "quantifier": "all numbers of subscripts, all linear subscripts, all loop nests and all pairs of iterations", "why_tests_cant": "Ranges over unbounded integers, nests and interactions of all single tests.", "anchors": ["lib/Analysis/Memory/DependenceAnalysis.cpp:depends"]}
{"id": "C79", "title": "Dependencies cross the split iteration", "statement": "If a loop is reported as splitable by the weak-crossing test then every dependence between two different iterations crosses the reported split iteration, hence there are no dependencies inside of any of two parts of the loop.", "quantifier": "all coefficients, constants, bounds and all pairs of iterations", "why_tests_cant": "Ranges over unbounded integers.", "anchors": ["lib/Analysis/Memory/DependenceAnalysis.cpp:weakCrossingSIVtest"]}
{"id": "C80", "title": "Combination of dependencies for a source-level variable covers dependencies of all its parts", "statement": "A source-level (metadata-level) variable may be bound to several IR-level locations or replace other variables. Traits attached to the variable never exclude a dependence (its kind and distances for all loops of a nest) which is possible for one of combined locations; if kinds of dependencies are known for all of them, the result contains exactly these kinds; a dependence is reported as a possible one only if none of the locations has a certain one; causes of dependencies and access flags are accumulated; the combination is always defined.", "quantifier": "all traits, all distance vectors of all lengths, all numbers of combined locations", "why_tests_cant": "Distances are unbounded integers, vectors have arbitrary lengths, and the order of locations is arbitrary.", "anchors": ["lib/Analysis/Memory/DIDependenceAnalysis.cpp:combineIf", "lib/Analysis/Memory/DIDependenceAnalysis.cpp:combineWith", "lib/Analysis/Memory/DIDependenceAnalysis.cpp:allUsesReplacedWith", "include/tsar/Analysis/Memory/DIMemoryTrait.h:DIDependence"]}
{"id": "C81", "title": "Traits of a variable remain true when they are clarified after transformations", "statement": "Traits of a source-level variable are kept in a pool and clarified each time the program is analyzed again. If all descriptions are true then the clarified one is true: claims about accesses, writes, loop-carried dependencies and distances, necessity of initialization of a private copy, the value after the loop, reductions and inductions. Locked traits are never updated, flags of accesses found earlier are kept, known distances are not replaced.", "quantifier": "all sequences of clarifications of all traits", "why_tests_cant": "Histories of clarifications are unbounded and all combinations of traits matter.", "anchors": ["lib/Analysis/Memory/DIDependenceAnalysis.cpp:clarifyDescriptor", "lib/Analysis/Memory/DIDependenceAnalysis.cpp:clarify", "lib/Analysis/Memory/DIDependenceAnalysis.cpp:moveIf", "lib/Analysis/Memory/DIDependenceAnalysis.cpp:isLockedTrait", "lib/Analysis/Memory/DIDependenceAnalysis.cpp:addOrUpdateInPool"]}
{"id": "C82", "title": "Delinearized subscripts denote the same element of an array", "statement": "If an access to an array is marked as delinearized, then its subscripts, combined with the sizes of dimensions in row-major order, give the same address as the original indexes of the access instruction (modulo the width of an index). Subscripts that were omitted by the optimizer are restored as zeros, and an element has as many subscripts as the array has dimensions.", "quantifier": "every array with known or symbolic sizes of dimensions, every list of indexes with arbitrary indexed types, every value of symbolic variables", "why_tests_cant": "sizes and subscripts are symbolic and the number of dimensions is not bounded; a test only examines particular expressions", "anchors": ["include/tsar/Analysis/Memory/Delinearization.h:Array::Range", "lib/Analysis/Memory/Delinearization.cpp:DelinearizationPass::cleanSubscripts"]}
{"id": "C83", "title": "Computed sizes of dimensions divide subscripts", "statement": "If sizes of dimensions of an array are computed from accesses (they are not given by debug information), then each computed size is invariant in all loops with accesses, it is not zero, and each subscript of each complete access is a multiple of the product of sizes of inner dimensions, so all these accesses could be delinearized. Known sizes are preserved.", "quantifier": "every set of accesses in every nest of loops, every known prefix and suffix of sizes, every value of symbolic variables", "why_tests_cant": "GCD of symbolic expressions is computed for an arbitrary number of expressions; tests only cover a few shapes", "anchors": ["lib/Analysis/Memory/Delinearization.cpp:DelinearizationPass::fillArrayDimensionsSizes", "lib/Support/SCEVUtils.cpp:tsar::findGCD"]}
{"id": "C84", "title": "Subscripts taken from an address describe its offset", "statement": "The indexes which are collected from a chain of address computations sum up to the distance from the base of an array to the accessed element (or to the beginning of the structure which contains it). If there are more indexes than dimensions, the access is marked as inexact; if an element has fewer indexes than dimensions, it is marked as an access with omitted zeros.", "quantifier": "every chain of address computations and casts, every number of dimensions", "why_tests_cant": "chains are of arbitrary length and fields of structures could appear at any place", "anchors": ["lib/Analysis/Memory/Delinearization.cpp:extractSubscriptsFromGEPs", "lib/Analysis/Memory/Delinearization.cpp:DelinearizationPass::collectArrays"]}
{"id": "C85", "title": "Attributes of functions and loops follow from the functions which may be executed", "statement": "A function is marked as free of input/output if and only if every function which may be executed when it is called (directly or through any chain of calls) is known and is not an input/output function; it is marked as free of indirect calls if and only if every such function is known. If a function is marked as one which always returns, then control comes back to the caller. A loop has the attribute if and only if each function called in the loop has it, and a loop which is accepted for parallelization executes neither input/output, nor unknown functions, nor functions which may stop execution of the program.", "quantifier": "every call graph (including mutually recursive functions), every set of library functions and intrinsics, every loop with any number of blocks and calls", "why_tests_cant": "call graphs are of arbitrary size and depth; tests cover a few chains of calls and do not cover recursion through several components", "anchors": ["lib/Transform/IR/InterprocAttr.cpp:POFunctionAttrsAnalysis::runOnSCC", "lib/Transform/IR/InterprocAttr.cpp:addNoIOAttr", "lib/Transform/IR/InterprocAttr.cpp:addAlwaysReturnAttr", "lib/Transform/IR/InterprocAttr.cpp:LoopAttributesDeductionPass::runOnFunction", "lib/Analysis/Parallel/ParallelLoop.cpp"]}
{"id": "C86", "title": "Library functions and functions called through pointers are recognized", "statement": "Functions which are known to be library ones (and functions mutually recursive with them) are marked as parts of a library, and so is each function which is used by a marked function; nothing else is marked. A function is marked as called indirectly if its address is used in any way other than as a callee of a direct call.", "quantifier": "every call graph, every order in which components are visited, every nest of constant expressions and aliases which refer to a function", "why_tests_cant": "the result depends on the order of a traversal and on chains of uses of unlimited length", "anchors": ["lib/Transform/IR/InterprocAttr.cpp:RPOFunctionAttrsAnalysis::runOnModule", "lib/Transform/IR/InterprocAttr.cpp:addLibFuncAttrsTopDown", "lib/Transform/IR/InterprocAttr.cpp:AttrKind::IndirectCall"]}
{"id": "C87", "title": "All global variables which may be accessed by a call are collected", "statement": "The list of globals collected for a function contains every global variable which is referenced by a body of a user function which may be executed when the function is called, and it contains nothing else. If an unknown function may be executed, then the list contains all global variables of the program.", "quantifier": "every call graph (including recursion), every function body, every nest of constant expressions in operands", "why_tests_cant": "chains of calls and constant expressions are unlimited", "anchors": ["lib/Analysis/Memory/GlobalsAccess.cpp:GlobalsAccessCollector::runOnModule", "include/tsar/Analysis/Memory/GlobalsAccess.h"]}
{"id": "C88", "title": "Accesses to an array in a loop are summarised exactly", "statement": "When an access to an element of an array inside loops is summarised by a range of elements for the whole loop, the range contains each byte which may be accessed on some iteration, and if the access is executed on each iteration, each byte of the range is accessed. An access whose subscripts do not depend on the analyzed loop is not attributed to it.", "quantifier": "all arrays, numbers of dimensions, sizes, subscripts, loops and numbers of iterations", "why_tests_cant": "A test covers a few subscripts; the range must be right for all numbers of dimensions, steps, starts and trip counts.", "anchors": ["lib/Analysis/Memory/DefinedMemory.cpp:aggregate"]}
{"id": "C89", "title": "Def-use sets of a basic block describe its executions", "statement": "For each execution of a basic block: memory which is reported as defined is written by the block; each byte of an accessible location which is written is reported as defined or as possibly defined; each byte which is read before it has been written in the block is reported as used.", "quantifier": "all basic blocks, instructions, sizes of accesses, overlapping locations, answers of alias analysis and addresses of objects", "why_tests_cant": "Aliasing and overlapping of locations depend on addresses which are known in run time only, tests cover a few of combinations.", "anchors": ["lib/Analysis/Memory/DefinedMemory.cpp:initialize", "lib/Analysis/Memory/DefinedMemory.cpp:AddKnownAccessFunctor", "lib/Analysis/Memory/DefinedMemory.cpp:AddUnknownAccessFunctor", "include/tsar/Analysis/Memory/MemoryAccessUtils.h:for_each_memory"]}
{"id": "C90", "title": "Effects of calls are derived from effects of callees", "statement": "If effects of a function are known, memory which is pointed by an argument of its call is reported as written (read) if the function may write it (read its value from outside), and it is reported as entirely written only if the function always writes all of it; the same holds for global variables; a function which is considered pure does not use global variables to access memory.", "quantifier": "all functions, their def-use sets, parameters, arguments, global variables and executions", "why_tests_cant": "Effects of a call depend on all executions of a callee.", "anchors": ["lib/Analysis/Memory/DefinedMemory.cpp:initialize", "lib/Analysis/Memory/Utils.cpp:isPure", "lib/Analysis/Memory/EstimateMemory.cpp:stripPointer"]}
{"id": "C91", "title": "Extraction of calls keeps the program and isolates each call", "statement": "The pass which extracts calls does not change what a function executes (from each block the same sequences of instructions and branches), does not lose, duplicate or reorder instructions, leaves the entry block first, and afterwards each call (except markers of debug information and lifetime) is the only instruction before the terminator of its block, so the check made by the interprocedural analysis of live memory succeeds for each function without 'invoke'.", "quantifier": "all functions (any number of blocks of any size, any control flow, any position of calls and markers)", "why_tests_cant": "splits are made while the list of blocks is traversed, new blocks are visited again; tests cover a few positions of calls only", "anchors": ["lib/Transform/IR/CallExtractor.cpp: needToExtract, getNextUsefulInstruction, CallExtractorPass::runOnFunction", "lib/Analysis/Memory/GlobalLiveMemory.cpp: checkCallsFrom"]}
{"id": "C92", "title": "Memory which is alive after exit from a function", "statement": "If the interprocedural analysis of live memory is performed, then each byte which a function may write and which is read after its exit (in any chain of callers) belongs to the locations reported as alive after exit from the function; memory of a parameter or of a global value which is not alive after any call is not reported. The analysis is refused in the presence of recursion and of functions which can not be analyzed.", "quantifier": "all modules (call graphs, def-use sets, positions of calls, actual arguments) and all chains of activations", "why_tests_cant": "a wrong answer appears only for a combination of several functions: the caller reads memory which the callee writes under another name", "anchors": ["lib/Analysis/Memory/GlobalLiveMemory.cpp: GlobalLiveMemory::runOnModule, initMayLivesWithIPO", "lib/Analysis/Memory/LiveMemory.cpp: LiveMemoryPass::runOnFunction"]}
{"id": "C93", "title": "A parameter marked as not captured is never captured", "statement": "If a pointer parameter of a function gets the attribute 'nocapture', then no execution of the function leaves a copy of this pointer (or a pointer derived from it) in memory which is accessible from outside of the function. The analysis always ends.", "quantifier": "all functions (any control flow, any chains of loads, stores, casts, address computations and calls), all executions, all contents of memory at the entry", "why_tests_cant": "the pointer may travel through any number of memory cells and levels of indirection before it escapes", "anchors": ["lib/Transform/IR/NoCaptureAnalysis.cpp:isCaptured", "lib/Transform/IR/NoCaptureAnalysis.cpp:applyDefinitionConstraint", "lib/Transform/IR/NoCaptureAnalysis.cpp:applyUsageConstraint"]}
{"id": "C94", "title": "Renaming of local objects keeps meaning of names", "statement": "After renaming of local objects each name in the program refers to the same declaration as before; names of declarations in scopes marked with the directive become different from each other and from all other names; nothing else in the program is changed (in particular names outside of these scopes and names in scopes with macros).", "quantifier": "all programs: any nesting of scopes, shadowing, directives, order of declarations and references, sets of existing names", "why_tests_cant": "a new name may clash with any name which is visible anywhere in the scope, shadowing may be of any depth", "anchors": ["lib/Transform/Clang/RenameLocal.cpp:ClangRenamer", "lib/Analysis/Clang/GlobalInfoExtractor.cpp:ClangGlobalInfoPass::runOnModule"]}
{"id": "C95", "title": "Requests to a rewriter of a source text compose", "statement": "A rewriter of a copy of a source text accepts replacements and insertions in terms of locations in the initial text. After any sequence of requests the text is the initial one where each replaced range is substituted, each inserted text is next to the character at its location (text inserted before precedes text inserted after), and everything else is unchanged; the text of a range can be asked at any moment; the order of replacements of disjoint ranges does not matter. Removal of a range with a flag removes the whole line if and only if nothing but whitespaces remains on it.", "quantifier": "all texts, all sequences of requests of any length", "why_tests_cant": "correctness of a request depends on all requests performed before it, a wrong offset appears only for particular combinations", "anchors": ["lib/Support/RewriterBase.cpp: RewriterBaseImpl::ReplaceText, RewriterBaseImpl::InsertText", "include/tsar/Support/RewriterBase.h: getRewrittenText, RewriterBase::InsertTextBefore", "lib/Support/Clang/Utils.cpp: ExternalRewriter::RemoveText"]}
{"id": "C96", "title": "Promotion of memory to registers keeps the meaning of a loop", "statement": "After the pass that promotes a location accessed through a pointer to a register, a loop visits the same basic blocks in the same order and has the same effects on other memory as before the pass; after the loop the location holds the value the original loop leaves in it and every value used after the loop is unchanged. Inside of the loop the location is not written and is not read except by loads without users, and each inserted phi-node that remains joins different operands.", "quantifier": "every loop in static single assignment form with a preheader (any number of blocks, any nested or irreducible control flow), every initial state, every number of executed blocks", "why_tests_cant": "The number of control-flow graphs and of placements of loads and stores is unbounded; correctness depends on the order of a depth-first traversal, on dominance and on values that flow around back edges.", "anchors": ["lib/Transform/IR/PointerScalarizer.cpp: insertPhiNodes, handleLoads, handleMemoryAccess, fillPhiNodes, deleteRedundantPhiNodes, insertLoadInstructions, insertStoreInstructions"]}
{"id": "C97", "title": "Elimination of unreachable code keeps the behaviour of a program", "statement": "The text produced by elimination of unreachable code can be read as a C program which, started in any state, has the same result as the original program whenever the run of the original program does not execute code reported as unreachable by coverage data; a program without unreachable code is not changed; identifiers which occur only in unreachable code do not remain in the text.", "quantifier": "every program (any nesting of blocks, branches, loops, declarations, logical, conditional and comma operators), every assignment of unreachable marks, every meaning of operations and functions, every state, every number of iterations", "why_tests_cant": "The transformation edits text; whether the edited text has the same meaning depends on precedence of operators, scopes of declarations, dangling else and on side effects of conditions in programs of arbitrary depth.", "anchors": ["lib/Transform/Clang/UnreachableCodeElimination.cpp: UnreachableCodeVisitor::TraverseStmt, TraverseBinaryOperator, TraverseConditionalOperator, TraverseIfStmt, TraverseWhileStmt, TraverseForStmt, getRemoveRangeWithSemi", "lib/Support/Clang/Utils.cpp: findSideEffect"]}
{"id": "C98", "title": "A range is reported as unreachable exactly if coverage data contain no executed position in it", "statement": "A source range is considered as unreachable iff the coverage segment which contains any position of the range has a counter and this counter is zero.", "quantifier": "every sorted list of coverage segments, every range of positions", "why_tests_cant": "Correctness of a binary search followed by a scan depends on all relative placements of segments and range boundaries in lists of arbitrary length.", "anchors": ["lib/Transform/Clang/UnreachableCodeElimination.cpp: UnreachableCodeVisitor::isUnreachable"]}
{"id": "C99", "title": "Traits of memory are related with variables of a loop without losses", "statement": "If the source-level dependence analysis of a loop succeeds, then: the loop has an induction variable; each memory location with a trait that needs a clause is mentioned by a variable in the list for this trait, or its variable is declared in the loop, or the location has no variable; a variable is in a list only if the whole variable has this trait, it is referenced in the loop, it is not declared there, and no call with unknown effects may access it if it is global; each variable referenced in the loop has been analyzed for each possible number of dereferences.", "quantifier": "every loop, every set of traits, every alias tree, every relation between memory locations and variables, every option to ignore redundant memory", "why_tests_cant": "Sets of traits, trees and variables are unbounded, the result depends on the order of nodes and on which of several locations mentions a variable first.", "anchors": ["lib/Analysis/Clang/ASTDependenceAnalysis.cpp: ClangDependenceAnalyzer::evaluateDependency", "lib/Analysis/Clang/VariableCollector.cpp: VariableCollector::findDecl, localize, VisitDeclRefExpr, VisitVarDecl"]}
{"id": "C100", "title": "A loop with an inserted OpenMP directive computes the same values", "statement": "If a loop is reported as parallel, the source-level analysis succeeds and a directive with clauses private, firstprivate, lastprivate and reduction is inserted, then in any parallel execution (any number of threads, any distribution of iterations, any interleaving of accesses) each memory cell used after the loop has the same value as after the sequential loop.", "quantifier": "every loop body (a program which depends on read values in any way), every number of iterations, every team of threads, every schedule and interleaving, every initial memory, all traits which are right for the sequential loop", "why_tests_cant": "Races depend on a schedule; the number of schedules is unbounded and a wrong clause is visible only in some of them.", "anchors": ["lib/Transform/Clang/OpenMPAutoPar.cpp: ClangOpenMPParallelization::exploitParallelism, ClauseVisitor, OMPForDirective", "lib/Transform/Clang/SharedMemoryAutoPar.cpp: ClangSMParallelization::findParallelLoops", "lib/Analysis/Clang/ASTDependenceAnalysis.cpp: ClangDependenceAnalyzer::evaluateDependency"]}
{"id": "C101", "title": "A canonical loop counts as reported", "statement": "If a for-loop is reported as canonical with a start, a step, a bound and a predicate then its variable has the value of the start before the first iteration, it equals start plus n steps after n iterations, it is not changed before the end of an iteration, and the condition of the loop compares the variable with the bound by the predicate.", "quantifier": "Every loop, every alias relation, every set of traits, every execution and number of iterations.", "why_tests_cant": "A wrong bound or step shows up only for particular values and forms of the loop header; the number of iterations is unbounded.", "anchors": ["lib/Analysis/Clang/CanonicalLoop.cpp: checkLoop, findLastWrite, findLastCmp, isLoopInvariantMemory", "include/tsar/Analysis/Clang/CanonicalLoop.h: CanonicalLoopInfo"]}
{"id": "C102", "title": "Expressions in the header of a canonical loop are invariant", "statement": "The start, the step and the bound of a loop reported as canonical have the same value at every point of the execution of the loop. If the loop is reported as rectangular, they have the same value at every point of the execution of the parent loop.", "quantifier": "Every loop nest, every expression and all states visited by the loop.", "why_tests_cant": "An expression which changes its value is visible only if an execution changes the memory it depends on.", "anchors": ["lib/Analysis/Clang/CanonicalLoop.cpp: checkLoop, isLoopInvariantMemory", "include/tsar/Analysis/Clang/CanonicalLoop.h: CanonicalLoopInfo"]}
{"id": "C103", "title": "Dependent iterations of an ordered loop are executed in order", "statement": "If a loop nest with regular dependences is parallelized with an ordered directive, then in every parallel execution which obeys the inserted sinks two iterations connected by a dependence with the reported distances are executed one after another, and sinks refer to previous iterations only, so that threads do not wait for each other forever.", "quantifier": "Every loop nest, every set of reported distance ranges, every iteration space and every timing of iterations.", "why_tests_cant": "A missing sink is a race: it is visible only for some schedules and the number of schedules is unbounded.", "anchors": ["lib/Transform/Clang/OpenMPAutoPar.cpp: OMPOrderedDirective, makeOrderedRange, ClangOpenMPParallelization::addOrUpdateOrderedIfNeed, ClangOpenMPParallelization::exploitParallelism, buildOrederedSink"]}
{"id": "C104", "title": "Elimination of dead declarations preserves programs", "statement": "Elimination of dead declarations changes neither behaviour of a function nor its signature: the transformed function is accepted by a compiler (each name which is still used is still declared, declarations of the same group are removed together), it has the same parameters, and if the original function has defined behaviour then the transformed one makes the same calls and the same accesses to volatile variables in the same order, returns the same value and leaves the same values in memory which outlives the call. A declaration which is never mentioned except in removable assignments, without macros in its scope and without side effects in its initializer, is removed.", "quantifier": "every function (nested statements, loops, declarations of variables and types) and every execution of it, including infinite ones", "why_tests_cant": "The result depends on all references in an arbitrarily nested body and on all executions of the function; tests run several functions only.", "anchors": ["lib/Transform/Clang/DeadDeclsElimination.cpp: DeclVisitor, eliminateDeadDecls, runOnFunction", "lib/Support/Clang/Utils.cpp: findSideEffect"]}
{"id": "C105", "title": "Inline expansion preserves behaviour", "statement": "If calls are expanded by the source-level inliner, then the transformed program makes the same calls of external functions with the same arguments in the same order, returns the same values and leaves the same values in global variables as the original program: arguments are evaluated once and before the body, each return leaves the inserted body only, names of the callee do not capture names of the caller, and a call is not moved over other evaluations or out of a branch which is not executed.", "quantifier": "every program (nested statements, loops, declarations, expressions of any depth), every set of functions marked for expansion, every nesting of expansions, every behaviour of external functions and every execution", "why_tests_cant": "The result depends on the place of a call in an arbitrarily nested statement and on all executions of the program; tests expand several programs only.", "anchors": ["lib/Transform/Clang/Inline.cpp: TraverseCallExpr, compile, HandleTranslationUnit, getTemplatInstantiationCheckers", "include/tsar/Transform/Clang/Inline.h: Template, TemplateInstantiation"]}
{"id": "C106", "title": "Inline expansion does not expand recursive functions", "statement": "The inliner finds recursive functions and does not expand them, so that expansion is finite: the search terminates, each cycle of calls to expand contains a function which has been found, and a function is reported only if it is recursive.", "quantifier": "every call graph, every set of functions marked for expansion and every order in which functions and calls are visited", "why_tests_cant": "Cycles may have any length and may be connected with other cycles; tests contain several call graphs only.", "anchors": ["lib/Transform/Clang/Inline.cpp: findRecursion, getTemplateCheckers, checkTemplates"]}
{"id": "C107", "title": "New identifiers do not clash", "statement": "An identifier generated by a source-level transformation starts with the requested name, differs from all known identifiers of a program and from all identifiers generated before, and its search terminates.", "quantifier": "every set of identifiers and every sequence of requested names", "why_tests_cant": "A clash requires a specific set of identifiers in a program; tests contain several sets only.", "anchors": ["lib/Transform/Clang/Inline.cpp: addSuffix", "lib/Transform/Clang/StructureReplacement.cpp: addSuffix"]}
{"id": "C108", "title": "Printed memory designates analyzed memory", "statement": "The text of a memory location which is shown to a user (and is used in generated directives) is an expression of the source language, it is read in one way only, and it designates memory at the address which is described by the debug location. Hence locations with the same text are the same memory.", "quantifier": "every variable, every layout of types (nested structures, arrays with any number of dimensions and any lower bounds, recursive types), every debug expression, every content of memory, template and minimal modes", "why_tests_cant": "The text is composed of casts, subscripts, members and parentheses in combinations which depend on a type and offsets; tests print several locations only.", "anchors": ["lib/Unparse/SourceUnparser.cpp: unparse, unparseDeref, unparseAsScalarTy, unparseAsStructureTy, unparseAsPointerTy, unparseAsArrayTy, addUnknownSubscripts", "include/tsar/Unparse/SourceUnparser.h: updatePriority, getPriority, toString", "include/tsar/Unparse/CSourceUnparser.h: appendToken", "lib/Analysis/Memory/DIMemoryLocation.cpp: getOffsets, getSize"]}
{"id": "C109", "title": "Debug locations describe memory accessed in IR", "statement": "A debug location which is built for a pointer in IR describes the memory the pointer refers to: a DWARF expression is valid, its value is the address in the pointer (for zero offsets if they are not constants, in this case the location is marked as a template), and its size is the size of accessed memory.", "quantifier": "every pointer (any chain of constant and variable offsets and loads of any length), every known or unknown size, every content of memory", "why_tests_cant": "Expressions are built backwards word by word, the last operation is found by a scan and replaced; tests contain several pointers only.", "anchors": ["lib/Analysis/Memory/DIEstimateMemory.cpp: buildDIExpression, buildDIMemory", "lib/Analysis/Memory/DIMemoryLocation.cpp: getOffsets, getSize, get"]}
{"id": "C110", "title": "Comparison of debug locations is consistent", "statement": "Two debug locations are different if and only if they are not equal, keys of hash tables are equal if and only if locations are the same, and equal keys have equal hash values.", "quantifier": "every pair of debug locations", "why_tests_cant": "An error may be seen for specific pairs of locations only (the same variable, different expressions).", "anchors": ["include/tsar/Analysis/Memory/DIMemoryLocation.h: operator==, operator!=, DenseMapInfo"]}
{"id": "C111", "title": "A variable reported for a value holds it", "statement": "If a source-level variable (or its part) is reported as an owner of a value in the points where the value is used, then on each path from the entry of a function to such a point the variable holds exactly the current value of the register when the point is reached. The variable which is returned as the main one got the value before the others.", "quantifier": "every control-flow graph (any loops), every placement of debug intrinsics and fragments of variables, every path of any length, every list of users", "why_tests_cant": "Whether a variable is overwritten depends on all paths, including the ones which go through back edges; tests contain several graphs only.", "anchors": ["lib/Analysis/Memory/Utils.cpp: findMetadata, findDomDbgValues, findAliasBlocks, mayAliasFragments, hasDeref"]}
{"id": "C112", "title": "Expression propagation preserves values", "statement": "After propagation of definitions into usages at the source level each expression has the same value as the original one: a name in an inserted text refers to the declaration it referred to in the definition (it is not hidden at the place of usage), and variables of an inserted expression have the values they had in the definition.", "quantifier": "every program text (any nesting of scopes, any number of definitions and usages), every expression, every state which agrees with the analysis", "why_tests_cant": "Name capture and stale values depend on declarations between a definition and a usage; tests propagate into several usages only.", "anchors": ["lib/Transform/Clang/ExprPropagation.cpp: DefUseVisitor, VisitDeclRefExpr, VisitNamedDecl, checkAssignmentRHS, enterInScope, exitFromScope, TraverseBinaryOperator, TraverseVarDecl, TraverseStmt, unparseReplacement"]}
{"id": "C113", "title": "Available declarations have not changed their values", "statement": "A variable which is replaced with the right-hand side of its definition holds the value of the right-hand side, and each declaration which is reported as available in a point of usage has the value it had in the definition.", "quantifier": "every sequence of assignments to local variables, global variables and memory of any length, every pair of a definition and a usage", "why_tests_cant": "Which SSA values variables hold depends on the whole history of assignments; tests contain several sequences only.", "anchors": ["lib/Transform/Clang/ExprPropagation.cpp: findAvailableDecls, rememberPossibleAssignment"]}
{"id": "C114", "title": "Targets of assignments are not propagated", "statement": "A reference to a variable which gets a new value in an assignment, an increment or a decrement is never replaced, and processing of any assignment does not fail.", "quantifier": "every left-hand side of an assignment", "why_tests_cant": "Left-hand sides are expressions of any depth.", "anchors": ["lib/Transform/Clang/ExprPropagation.cpp: excludeIfAssignment"]}
{"id": "C115", "title": "Loops of the source and of LLVM IR are matched at the same place, one to one", "statement": "Loop matching relates a `for`, `while` or `do` only to a loop of the same function which starts at the same place of the source (or at the initialization of the `for`); no loop is matched twice; every explicit loop of the function is either matched or reported as not matched, never both.", "quantifier": "every function: any number of statements, loops, macros and inclusions, every order of iteration over the table of macros", "why_tests_cant": "Several statements may have the same position (inclusions, macros), loops may be removed from LLVM IR; tests contain a few layouts.", "anchors": ["lib/Analysis/Clang/LoopMatcher.cpp: MatchExplicitVisitor, MatchImplicitVisitor, runOnFunction", "include/tsar/Analysis/AST/Matcher.h: findIRForLocation, matchInMacro", "include/tsar/Support/DILocationMapInfo.h: isEqual"]}
{"id": "C116", "title": "Loops which share a place are matched in order", "statement": "If several loops of the source are at one place, the first of them is related to the outermost loop of LLVM IR which starts there, the second to the next one, and so on. Loops from a macro are related in order if there are as many of them as loops of LLVM IR at the place of expansion; otherwise all of them are reported.", "quantifier": "every function whose loops in LLVM IR have positions of loops, any number of loops at one place", "why_tests_cant": "A swap of two loops at one place changes meaning of all results of analysis of these loops; it depends on queues of any length.", "anchors": ["lib/Analysis/Clang/LoopMatcher.cpp: MatchExplicitVisitor, runOnFunction", "include/tsar/Analysis/AST/Matcher.h: matchInMacro"]}
{"id": "C117", "title": "Loop matching has no undefined behaviour", "statement": "Loop matching finishes for every function: it never takes an element of an empty queue.", "quantifier": "every function: any number of statements and loops which share a place", "why_tests_cant": "Whether a queue becomes empty depends on the number of all statements and expressions at a place.", "anchors": ["include/tsar/Analysis/AST/Matcher.h: findIRForLocation", "lib/Analysis/Clang/LoopMatcher.cpp: MatchExplicitVisitor, MatchImplicitVisitor"]}
{"id": "C118", "title": "Implicit loops are matched with their labels", "statement": "A label is related only to a loop which is formed by jumps to this label.", "quantifier": "every function with labels and implicit loops", "why_tests_cant": "It depends on all the statements between a label and a header of a loop.", "anchors": ["lib/Analysis/Clang/LoopMatcher.cpp: MatchImplicitVisitor"]}
{"id": "C119", "title": "Perfectly nested loops are found exactly", "statement": "A `for` loop is reported as perfect if and only if it is an innermost `for` or its body, without braces, is a single `for`.", "quantifier": "every function: any nesting of loops and statements", "why_tests_cant": "Counters of loops and statements are saved and restored around every nested loop; tests contain nests of a few loops.", "anchors": ["lib/Analysis/Clang/PerfectLoop.cpp: TraverseForStmt, VisitStmt"]}
{"id": "C120", "title": "Everything which leaves a source loop is recorded as its exit", "statement": "Every `break`, `return` and `goto` which leaves a `for`, `while` or `do` is recorded as an exit of this loop; every `return` is recorded as an exit of the function.", "quantifier": "every function: any nesting of loops, switches and other statements, any labels", "why_tests_cant": "What a statement leaves depends on all statements which enclose it.", "anchors": ["lib/Analysis/Clang/ControlFlowTraits.cpp: VisitBreakStmt, VisitReturnStmt, VisitGotoStmt, TraverseStmt", "include/tsar/Analysis/Clang/ControlFlowTraits.h: RegionCFInfoBase"]}
{"id": "C121", "title": "Recorded exits leave their loops and jumps into loops are recorded", "statement": "A statement which is recorded as an exit of a loop is able to leave it, and every `goto` from the outside into a loop is recorded as an entry of this loop.", "quantifier": "every function: any nesting of loops and any labels", "why_tests_cant": "It depends on positions of all labels relative to all loops.", "anchors": ["lib/Analysis/Clang/ControlFlowTraits.cpp: LabelVisitor, VisitGotoStmt, VisitBreakStmt"]}
{"id": "C122", "title": "Collection of control-flow traits never fails", "statement": "Control-flow traits are collected for every correct function without a failure.", "quantifier": "every function which is correct in C or C++", "why_tests_cant": "It is a statement about all programs.", "anchors": ["lib/Analysis/Clang/ControlFlowTraits.cpp: TraverseStmt, VisitBreakStmt"]}
{"id": "C123", "title": "Calls in loops are recorded with safe flags", "statement": "Every call is recorded in the function and in each loop which contains it, with flags which include everything the callee may do: not to return, to unwind, to return twice, to perform input and output.", "quantifier": "every function, any nesting of loops, every table of known functions and their attributes", "why_tests_cant": "A call may be in any number of loops and its callee may be any expression.", "anchors": ["lib/Analysis/Clang/ControlFlowTraits.cpp: VisitCallExpr"]}
{"id": "C124", "title": "Elimination of dead stores removes exactly what is dead and never uses an erased instruction", "statement": "The pass terminates and never uses an erased instruction. It removes exactly those stores to local variables without metadata whose alias set is accessed by such stores only. No other instruction which accesses memory is removed, operands of remaining instructions remain, and operands of removed instructions which do not access memory remain only if they are used.", "quantifier": "every function, every alias information, every order of iteration over sets of pointers", "why_tests_cant": "The worklist depends on the order of iteration over sets of pointers, and repeated removal of operands depends on the whole graph of uses.", "anchors": ["lib/Transform/IR/DeadCodeElimination.cpp: NoMetadataDSEPass, runOnFunction"]}
{"id": "C125", "title": "Elimination of dead stores preserves executions", "statement": "After elimination the function executes the same blocks in the same order, external observers see the same events, and the memory other instructions may access is the same.", "quantifier": "every function, every meaning of instructions which alias analysis describes correctly, every number of steps", "why_tests_cant": "It is a statement about all executions of all functions.", "anchors": ["lib/Transform/IR/DeadCodeElimination.cpp: NoMetadataDSEPass, runOnFunction"]}
{"id": "C126", "title": "External analysis results are applied to the loop, variable and function they describe", "statement": "Import of a file with analysis results changes traits of a location in a loop only if the file describes a loop at the position of this loop and, in this loop, a variable declared at the same position of the same file with the same name. If several loops of the file have one position the first one is used. The result depends only on what the file states about this variable in this loop.", "quantifier": "every file, every list of loops and locations, every correspondence between paths and files", "why_tests_cant": "Any number of descriptions may be in the file, paths to one file may differ.", "anchors": ["lib/Analysis/Reader/AnalysisReader.cpp: buildLoopCache, createVar, addToCache, buildTraitCache, findLoop, load", "include/tsar/Analysis/Reader/AnalysisJSON.h: Info"]}
{"id": "C127", "title": "External analysis results never add dependences and remove only those the file denies", "statement": "Import never adds a dependence. It removes a dependence of some kind only if the file does not list it for the variable, or lists the variable as private or as a reduction. A variable becomes read only, shared, private or a reduction only if this follows from the file, an induction variable is not treated as a variable without dependences. Traits which are already exact do not change.", "quantifier": "every combination of traits of a variable and every combination of statements about it in a file", "why_tests_cant": "There are thousands of combinations of traits, and a wrong one silently changes a parallel program.", "anchors": ["lib/Analysis/Reader/AnalysisReader.cpp: load, isOnlyAnyOf, updateAntiFlowDep, updateOutputDep"]}
{"id": "C128", "title": "Imported distances replace distances in the loop and nothing else", "statement": "Import of a dependence sets the distance in the loop to the listed one and keeps distances for inner loops, flags and causes of the dependence. Import never fails.", "quantifier": "every description of a dependence, any number of levels, every listed distance", "why_tests_cant": "Any number of levels is possible.", "anchors": ["lib/Analysis/Reader/AnalysisReader.cpp: updateAntiFlowDep, updateOutputDep", "include/tsar/Analysis/Memory/DIMemoryTrait.h: DIDependence"]}
{"id": "C129", "title": "Repeated import of analysis results changes nothing", "statement": "A file is imported each time a function is processed, for loops of all functions. The result does not depend on how many times it is imported.", "quantifier": "every file, every list of loops with any traits", "why_tests_cant": "It is an algebraic law on all sets of traits.", "anchors": ["lib/Analysis/Reader/AnalysisReader.cpp: runOnFunction, load"]}
{"id": "C130", "title": "Exported analysis results describe all loops and variables and are read back as they have been written", "statement": "A written file contains a loop for each loop of the program at its position and, for each variable accessed in the loop, exactly its traits with exact distances. What is read from the file for a variable of a loop is what has been written for it, nothing is read for other variables.", "quantifier": "every list of loops and locations with any traits", "why_tests_cant": "Any number of loops share one list of variables.", "anchors": ["lib/Analysis/Reader/AnalysisWriter.cpp: runOnModule", "lib/Unparse/Utils.cpp: buildVariable"]}
{"id": "C131", "title": "Calls of functions which are declared as pure do not access memory", "statement": "After import a call in a loop is considered as one without accesses if and only if the file lists the callee as pure: the first function at the position of the callee with its name or, if there is no such function, with its linkage name. Other traits of the call do not change.", "quantifier": "every file, every subprogram", "why_tests_cant": "Any number of functions may be in the file, with the same names and lines.", "anchors": ["lib/Analysis/Reader/AnalysisReader.cpp: buildFunctionCache, findFunction, load"]}
{"id": "C132", "title": "Import of exported analysis results restores traits", "statement": "If traits are written to a file and the file is read for the same program, traits of each variable do not change.", "quantifier": "every combination of traits with any distances", "why_tests_cant": "There are thousands of combinations of traits and any number of distances.", "anchors": ["lib/Analysis/Reader/AnalysisWriter.cpp: runOnModule", "lib/Analysis/Reader/AnalysisReader.cpp: load"]}
{"id": "C133", "title": "After replacement no reference to a replaced structure is left", "statement": "In a clone of a function a replaced parameter or variable of a structure type is not declared, so no reference to it may remain in the body: each access to its members is replaced with an access to a new variable. A structure which is used in another way is not replaced.", "quantifier": "every body of a function, every set of candidates, every set of requested calls", "why_tests_cant": "Any expression may surround an access to a member.", "anchors": ["lib/Transform/Clang/StructureReplacement.cpp: ReplacementSanitizer, ReplacementCollector, VisitDeclRefExpr, VisitMemberExpr"]}
{"id": "C134", "title": "A clone of a function with replaced structures does the same as the original one", "statement": "If members of a structure are passed separately, each execution of the clone has the same effect on memory as an execution of the original function, for all values of members, aliases included.", "quantifier": "every body, every memory, every finite execution (loops and choices included)", "why_tests_cant": "Equality of all executions of two programs on all memories.", "anchors": ["lib/Transform/Clang/StructureReplacement.cpp: ReplacementSanitizer, insertNewFunction, applyReplacement"]}
{"id": "C135", "title": "The list of parameters of a clone is well-formed and metadata describe it", "statement": "The new list of parameters contains, in the order of the original parameters, either a parameter or one new parameter for each accessed member, separated by single commas. Metadata, in memory and in a pragma, describe the source of each new parameter: its number, member and whether it is an array.", "quantifier": "any number of parameters and members, any of parameters without accessed members", "why_tests_cant": "Any number of parameters may disappear, commas depend on all of them.", "anchors": ["lib/Transform/Clang/StructureReplacement.cpp: buildParameters, addPragmaMetadata, insertNewFunction"]}
{"id": "C136", "title": "An argument of a call of a clone is the member which its parameter stands for", "statement": "At a replaced call each argument has the value of the member of the structure passed to the original call or is a pointer to this member, according to metadata of the clone.", "quantifier": "every argument, replaced or not, every kind of a parameter, every memory", "why_tests_cant": "Any combination of kinds of the parameter and the argument in any memory.", "anchors": ["lib/Transform/Clang/StructureReplacement.cpp: replaceCall"]}
{"id": "C137", "title": "Members which are accessed by a callee are available in its callers", "statement": "If a function passes its parameter to a requested call, all members the callee needs are among members of the caller, with a pointer if the callee needs a pointer. It holds for recursive functions, and the search of members ends.", "quantifier": "every call graph, recursion included, every set of members and flags", "why_tests_cant": "Any call graph with cycles of any length.", "anchors": ["lib/Transform/Clang/StructureReplacement.cpp: fillImplicitReplacementMembers"]}
{"id": "C138", "title": "Consistency of requested calls and own clones of functions", "statement": "Search for requested calls ends, and after it each requested call passes candidates to replaced parameters only. Each function which is replaced in calls has its own clone.", "quantifier": "every call graph, every list of requests", "why_tests_cant": "Any call graph, candidates are removed in any order.", "anchors": ["lib/Transform/Clang/StructureReplacement.cpp: sanitizeCandidatesInCalls, insertNewFunctions"]}
{"id": "C139", "title": "Execution count of an instruction", "statement": "The number of executions of an instruction is the counter of the last coverage segment which starts at its position or before it, zero if there is no such segment or no position. The search always ends.", "quantifier": "every sorted list of segments of any length, every position", "why_tests_cant": "The list of segments has any length, a search is wrong on boundaries.", "anchors": ["lib/Analysis/Reader/RegionWeights.cpp: getExecutionCount"]}
{"id": "C140", "title": "Weights of functions are sums over executed instructions and callees", "statement": "The total weight of a function is the sum over its instructions of the number of executions multiplied by the cost of the instruction together with the weight of a callee; the weight of a single call is the average over calls. The result does not depend on the order in which the call graph is traversed. There are no weights for recursive functions and functions without a profile.", "quantifier": "every module, profile, options and every bottom-up order of functions", "why_tests_cant": "Any call graph and any order of its traversal.", "anchors": ["lib/Analysis/Reader/RegionWeights.cpp: getWeight, runOnModule"]}
{"id": "C141", "title": "Weights of loops are averages over iterations of outer loops", "statement": "The total weight of a loop is the sum over its instructions, its self weight and self number of iterations are averages over iterations of the parent loop or over calls of the function. The analysis never fails.", "quantifier": "every module with any nests of loops and any profile", "why_tests_cant": "Any nests and any counters, zero included.", "anchors": ["lib/Analysis/Reader/RegionWeights.cpp: getLoopExecutionCount, runOnModule", "include/tsar/Support/IRUtils.h: for_each_loop"]}
{"id": "C142", "title": "Calls which prevent analysis of loops are inlined with everything they call", "statement": "Calls which cause dependences and all calls which may be executed inside of them are marked for inlining, other calls are not marked. The search always ends, recursion included.", "quantifier": "every module, call graph with cycles, every list of causes, any order of iteration over sets", "why_tests_cant": "Any call graph with cycles.", "anchors": ["lib/Transform/IR/DependenceInliner.cpp: DependenceInlinerAttributer"]}
{"id": "C143", "title": "Inlining for dependence analysis is bounded by the threshold", "statement": "The number of memory accesses of a function after inlining does not exceed the threshold given by the user if something has been inlined.", "quantifier": "every call graph without recursion, every threshold", "why_tests_cant": "Any depth and width of the call graph.", "anchors": ["lib/Transform/IR/DependenceInliner.cpp: evaluateCostOnSCC, runOnSCC, getInlineCost"]}
{"id": "C144", "title": "The report about not initialized memory is determined by uses", "statement": "For a function, a variable is printed as a not initialized scalar or aggregate of a class (local, global, argument, unknown) exactly if it has this class, it is the smallest described memory which contains memory that is read before it is written and which is not constant, and it is not a part of other reported memory. A warning about memory without metadata is printed exactly if such memory is not accessed through an argument and has no metadata.", "quantifier": "every alias tree, every set of upward exposed reads and every order of traversal of sets", "why_tests_cant": "Trees of memory are unbounded and the order of traversal of hash tables depends on addresses.", "anchors": ["lib/Analysis/Memory/NotInitializedMemory.cpp: NotInitializedMemoryAnalysis::runOnFunction, insert, erase"]}
{"id": "C145", "title": "Every use of not initialized memory is covered by the report", "statement": "Every byte of a variable which may be read before it is written belongs to a reported variable, or a warning is printed. Only memory which contains such bytes is reported and no reported variable is a part of another one.", "quantifier": "every alias tree, every set of upward exposed reads, every assignment of metadata and every order of traversal of sets", "why_tests_cant": "It is about all bytes of all variables and all nestings of memory.", "anchors": ["lib/Analysis/Memory/NotInitializedMemory.cpp: NotInitializedMemoryAnalysis::runOnFunction", "lib/Analysis/Memory/DIEstimateMemory.cpp: getRawDIMemoryIfExists"]}
{"id": "C146", "title": "Optimization of data transfers loses no required transfer", "statement": "When DVMH directives are written, each directive which transfers data between devices is either written to sources, or there is nothing to transfer at that point (no variables, or variables do not exist there), or every directive which replaces it is itself performed; otherwise an error is reported.", "quantifier": "all acyclic graphs of replacements between directives, all sets of roots and all initial flags of directives", "why_tests_cant": "The decision for one directive depends on the whole graph of replacements and on whether any other root in the program can be optimized, so finitely many programs do not cover the graphs.", "anchors": ["lib/Transform/Clang/DVMHWriter.cpp: traversePragmaDataPO, ClangDVMHWriter::runOnModule, tryToIgnoreDirective, insertPragmaData"]}
{"id": "C147", "title": "Optimization of data transfers is all or nothing", "statement": "If some directive with replacements cannot be optimized then only original directives are written; otherwise no original directive with replacements is written. Required and final directives are never replaced, directives which are not related to the optimized ones are not changed, a directive which cannot be inserted is never written, and an error is reported exactly when a directive which is not optimized cannot be inserted.", "quantifier": "all acyclic graphs of replacements between directives, all sets of roots and all initial flags of directives", "why_tests_cant": "A mix of original and optimized directives appears only for particular shapes of a graph in which directives are shared between roots.", "anchors": ["lib/Transform/Clang/DVMHWriter.cpp: traversePragmaDataPO, ClangDVMHWriter::runOnModule, insertPragmaData"]}
{"id": "C148", "title": "Elements in lists of data directives are distinguished", "statement": "The order of variables and array elements in DVMH data directives is a strict weak order, and two entries share a place in a directive exactly when they denote the same entity.", "quantifier": "all pairs and triples of entries: whole variables, elements with constant subscripts, elements aligned with axes", "why_tests_cant": "An order is a relation over all triples of entries with any number of subscripts; entries which collapse differ only in late subscripts or in parameters of axes.", "anchors": ["include/tsar/Transform/Clang/DVMHDirecitves.h: Align, AlignLess, AlignVarListT", "lib/APC/Parallelization.cpp: createRemoteInParallel"]}
{"id": "C149", "title": "Merging of data directives keeps requested transfers", "statement": "Data directives near a statement are merged into groups of consecutive directives of the same kind: a merged directive lists every visible variable of its group once and nothing else, directives which are skipped or cannot be inserted are not written, groups follow in the order of directives, and directives bound to a statement stay next to it.", "quantifier": "all lists of directives near a statement, all visibility predicates and all sets of end markers", "why_tests_cant": "The result depends on the interleaving of kinds, skipped directives and repeated variables in lists of any length.", "anchors": ["lib/Transform/Clang/DVMHWriter.cpp: insertPragmaData, isPragmaInDeclScope, ClangDVMHWriter::runOnModule"]}
{"id": "C150", "title": "Copies of data on a host and on a device stay coherent", "statement": "If transfers around regions are replaced by transfers around accesses on a host, then every read in a function, on a host or on a device, obtains the last written value, and after the exit from the function a host holds current values of all variables which exist outside it.", "quantifier": "all functions (sequences of instructions on a host and regions on a device of any length), all sets of variables, alias relations and accessed elements, all computed values", "why_tests_cant": "A stale copy is visible only for particular interleavings of accesses and regions, and depends on aliases between variables.", "anchors": ["lib/Transform/Clang/DVMHDataTransferIPO.cpp: DVMHDataTransferIPOPass::optimizeGlobalOut, initPragmaData, addGetActualIf, addTransferToWrite, processBB, addIfNeed"]}
{"id": "C151", "title": "Calls of optimized functions are surrounded by transfers of their data", "statement": "If transfers at the entry to a function and at its exits are moved to callers, then a caller performs them around each call for exactly variables of the function, and a call behaves as with a single memory.", "quantifier": "all callees, all lists of variables at the entry and at exits, all sets of variables optimized in a caller", "why_tests_cant": "Lists for the entry and for exits differ only for variables which are read but never written on a device.", "anchors": ["lib/Transform/Clang/DVMHDataTransferIPO.cpp: DVMHDataTransferIPOPass::optimizeGlobalIn, collectInCallee, sortMemory, addPragma"]}
{"id": "C152", "title": "Loops with regular dependencies are accepted for pipelined execution only if accesses are regular", "statement": "A loop with dependencies is accepted only if all subscripts of each dependent array are affine, a single dimension of the array depends on the loop and nothing else appears in this dimension; the reported depth of a nest is the maximal number of loops such that a negative distance of an inner loop is less than the distance of the outermost one.", "quantifier": "all lists of accesses, subscripts, dependencies and distance vectors", "why_tests_cant": "The condition depends on all monoms of all accesses in any order and on distance vectors of any length.", "anchors": ["lib/Transform/Clang/DVMHDirecitves.cpp: processRegularDependencies, updatePAD"]}
{"id": "C153", "title": "Declared widths of dependencies cover accessed elements", "statement": "An element which is read in an iteration of a pipelined loop and which carries a dependence lies inside widths declared for the dependent dimension, relatively to an element written in the same iteration; widths of other dimensions and other arrays are not changed.", "quantifier": "all subscripts a*i+b, all initial values and steps of a loop, all pairs of dependent iterations", "why_tests_cant": "A direction and a width depend on signs and values of a step and a coefficient together.", "anchors": ["lib/Transform/Clang/DVMHDirecitves.cpp: processRegularDependencies, getDistance"]}
{"id": "C154", "title": "A parallel nest does not exceed the depth allowed by dependencies", "statement": "Loops are added to a pipelined parallel nest from the outermost one, each of them is accepted and perfectly contains the next one, and for every loop of the nest the number of loops starting from it does not exceed the depth allowed by its dependencies.", "quantifier": "all nests of loops of any depth with any results of dependence analysis", "why_tests_cant": "The bound is updated at each level and depends on all previous levels.", "anchors": ["lib/Transform/Clang/DVMHSMAutoPar.cpp: ClangDVMHSMParallelization::processRegularDependencies, exploitParallelism"]}
{"id": "C155", "title": "Known distances of dependencies reach a parallelizer", "statement": "If distances of all dependencies in an alias node are known, then distances of each memory location are recorded for its variable, or a memory location without a variable is reported; recorded dependencies are not lost.", "quantifier": "all sets of traits of an alias node, all previously recorded dependencies", "why_tests_cant": "A loss happens only if several memory locations belong to the same alias node or are described by the same variable.", "anchors": ["lib/Analysis/Clang/ASTDependenceAnalysis.cpp: ClangDependenceAnalyzer::evaluateDependency"]}
{"id": "C156", "title": "Merging of regions preserves all data directives and clauses", "statement": "When regions around several parallel loops are merged, a single region starts before the first loop and ends after the last one, all loops stay parallel, and the merged actual, get_actual and in/out/local clauses contain exactly variables listed in directives of the merged loops; other loops are not changed.", "quantifier": "all lists of at least two distinct loops with regions and all sets of variables", "why_tests_cant": "A lost variable results in stale data on a device for some programs only; tests cover a few shapes of nests and variables.", "anchors": ["lib/Transform/Clang/DVMHSMAutoPar.cpp: mergeRegions"]}
{"id": "C157", "title": "Only regions of consecutive loops of the same kind are merged", "statement": "Regions are merged only if their loops are consecutive statements and they have the same execution target (any device or a host only); all such loops are merged, each loop once.", "quantifier": "all sequences of statements in a scope and all kinds of regions", "why_tests_cant": "Depends on the order and kinds of all statements in a scope.", "anchors": ["lib/Transform/Clang/DVMHSMAutoPar.cpp: mergeSiblingRegions"]}
{"id": "C158", "title": "An array is tied with loops according to all its accesses", "statement": "A dimension of an array is tied with a loop in a parallel directive only if subscripts of all accesses to this dimension in the loop depend on a counter of the loop, and the direction of the tie is a direction of a change of the subscripts.", "quantifier": "all arrays, all sequences of accesses and all affine subscripts", "why_tests_cant": "Depends on all accesses to an array and their order.", "anchors": ["lib/Transform/Clang/DVMHSMAutoPar.cpp: optimizeLevelImpl"]}
{"id": "C159", "title": "A pipelined loop stays parallel only if dependent dimensions are tied", "statement": "A loop with regular dependencies stays parallel if and only if each dimension of each array which carries dependencies is tied with some loop, otherwise all directives around the loop are removed and other directives are preserved.", "quantifier": "all sets of dependencies, ties and directives around a loop", "why_tests_cant": "A parallel directive which remains in an illegal case or a directive which is lost in a legal one depends on all arrays in a loop.", "anchors": ["lib/Transform/Clang/DVMHSMAutoPar.cpp: sanitizeAcrossLoops"]}
{"id": "C160", "title": "Directives mark exactly loops and calls in the following statement", "statement": "A loop or a call is marked for optimization in a region if and only if it is inside a compound statement or a loop which directly follows a region directive with this name; a misplaced directive is ignored and does not affect other directives.", "quantifier": "all bodies of functions, all placements and nesting of directives", "why_tests_cant": "The result depends on the whole history of a traversal, the number of placements of directives is unbounded.", "anchors": ["lib/Analysis/Clang/RegionDirectiveInfo.cpp: RegionDirectiveVisitor::TraverseStmt, VisitCallExpr"]}
{"id": "C161", "title": "A region contains exactly functions called from it", "statement": "A function belongs to an optimization region if and only if it is called, directly or through other analyzed functions, from a call marked by a region directive, including recursive functions.", "quantifier": "all call graphs, all orders of functions in strongly connected components and all sets of marked calls", "why_tests_cant": "A missed function depends on the order of traversal of recursive functions in a call graph.", "anchors": ["lib/Analysis/Clang/RegionDirectiveInfo.cpp: ClangRegionCollector::runOnModule, OptimizationRegion::markForOptimization"]}
{"id": "C162", "title": "Queries about loops in a region do not affect each other", "statement": "A loop belongs to an optimization region if and only if its function belongs to the region or the loop is inside of a marked loop; the answer does not depend on previous queries although the region caches answers.", "quantifier": "all nests of loops, all sets of marked loops and all sequences of queries", "why_tests_cant": "Cached answers depend on the whole history of queries.", "anchors": ["lib/Analysis/Clang/RegionDirectiveInfo.cpp: OptimizationRegion::contain"]}
{"id": "C163", "title": "Accesses of a scope after additions", "statement": "Array accesses are added to a collection in any order. For each scope the collection enumerates every access which is inside of the scope exactly once and nothing else, and all accesses are enumerated exactly once.", "quantifier": "all trees of scopes, all lists of distinct accesses and all orders of their addition", "why_tests_cant": "Scopes share one list and refer to its parts, so an addition to one scope may change ranges of any other scope; orders of additions and shapes of trees are unbounded.", "anchors": ["lib/Analysis/Memory/DIArrayAccess.cpp: DIArrayAccessInfo::add", "include/tsar/Analysis/Memory/DIArrayAccess.h: DIArrayAccessInfo::scope_accesses"]}
{"id": "C164", "title": "Accesses of a scope after removal of an array", "statement": "Array accesses are added to a collection and accesses to arrays are removed in any order. For each scope the collection enumerates every access which is inside of the scope and which has not been removed exactly once and nothing else; no scope refers to a removed access.", "quantifier": "all trees of scopes and all histories of additions and removals", "why_tests_cant": "A removal updates ranges of all scopes, a result depends on a whole history and on an order of scopes in a hash table.", "anchors": ["lib/Analysis/Memory/DIArrayAccess.cpp: DIArrayAccessInfo::add, DIArrayAccessInfo::erase", "include/tsar/Analysis/Memory/DIArrayAccess.h: DIArrayAccessInfo::scope_accesses"]}
{"id": "C165", "title": "Instrumentation of loops preserves control flow", "statement": "Instrumentation of loops for dynamic analysis (insertion of preheaders and exit blocks) does not change which original basic blocks are executed and in which order: each branch and each case of a switch leads to the same block as before, and executions of the instrumented and of the original function are in correspondence.", "quantifier": "all functions, all forests of natural loops and all executions", "why_tests_cant": "Control-flow graphs are arbitrary: nested loops without preheaders, exits which leave several loops, blocks with several edges into a loop. The instrumenter edits the graph while it walks over it; tests run a few well-formed loops.", "anchors": ["lib/Transform/Mixed/Instrumentation.cpp: loopBeginInstr, loopEndInstr, loopIterInstr, regLoops", "include/tsar/Support/IRUtils.h: for_each_loop"]}
{"id": "C166", "title": "Instrumentation reports balanced loop events", "statement": "In each execution of an instrumented function begin, iteration and end events of loops are balanced: when a block is executed a dynamic analyzer has begun and not yet ended exactly the loops which contain this block, with the innermost one on the top, each execution of a loop header is reported as a single iteration, and all loops have been ended when the function returns.", "quantifier": "all functions, all forests of natural loops and all execution paths", "why_tests_cant": "A single missed or duplicated event on some rare exit path breaks the stack of a dynamic analyzer; the number of paths through nested loops is unbounded.", "anchors": ["lib/Transform/Mixed/Instrumentation.cpp: loopBeginInstr, loopEndInstr, loopIterInstr, regLoops", "include/tsar/Support/IRUtils.h: for_each_loop"]}
{"id": "C167", "title": "Functions reachable from start functions are instrumented", "statement": "If functions to start instrumentation from are specified then exactly the functions which may be called from them, directly or transitively, are instrumented, other functions are ignored; all functions are instrumented by default.", "quantifier": "all call graphs (with recursion, unknown callees and callees casted to another type) and all lists of names", "why_tests_cant": "Call graphs are arbitrary, a result depends on the order of traversal; tests contain a few call chains.", "anchors": ["lib/Transform/Mixed/Instrumentation.cpp: collectCallee, excludeFunctions"]}
{"id": "C168", "title": "Types of all instrumented modules get unique identifiers", "statement": "When an instrumented program starts, types of all modules are declared with different dense identifiers, and each metadata string is registered with an offset such that the identifier of a type in this string denotes the declared type with the correct size.", "quantifier": "all lists of instrumented modules and all orders of types in a register", "why_tests_cant": "Offsets are accumulated in generated code at startup for any number of modules, order of types in a hash table is arbitrary.", "anchors": ["lib/Transform/Mixed/Instrumentation.cpp: regTypes, visitEntryPoint, createInitDICall"]}
{"id": "C169", "title": "Metadata strings of modules are kept in a pool", "statement": "When an instrumented program starts, a pool of metadata strings is large enough and each index which is used by an instrumented module refers to a string registered for this index by this module.", "quantifier": "all lists of instrumented modules", "why_tests_cant": "Requires reasoning about all combinations of modules which share a pool, tests use a single module.", "anchors": ["lib/Transform/Mixed/Instrumentation.cpp: visitEntryPoint, createInitDICall, createPointerToDI, getOrCreateDIPool"]}
{"id": "C170", "title": "Initialization functions of modules have unique names", "statement": "Functions which initialize instrumented modules get names which differ from each other and from other names in all modules.", "quantifier": "all lists of modules and all sets of existing names", "why_tests_cant": "Existing names are arbitrary, a search in each module may invalidate results of a search in previous modules.", "anchors": ["lib/Transform/Mixed/Instrumentation.cpp: findAvailableSuffix, visitEntryPoint"]}
{"id": "C171", "title": "Loop interchange preserves results of a nest", "statement": "If headers of a nest of loops are interchanged in strict mode, then the new nest stops whenever the original one does, and values of all variables and array elements which are not private are the same after it; reductions are accumulated to the same values, variables which are assigned in each iteration and induction variables have the same final values.", "quantifier": "all nests, bodies, bounds, initial states, permutations of headers and all results of dependence analysis which are right", "why_tests_cant": "iterations, bodies and permutations are unbounded", "anchors": ["lib/Transform/Clang/LoopInterchange.cpp: TraverseForStmt, TraverseStmt, isMemoryAccessedIn"]}
{"id": "C172", "title": "Loop interchange is performed exactly for loops which satisfy documented conditions", "statement": "In strict mode headers are interchanged if and only if each loop up to the innermost named one is canonical, analyzed, has no dependencies except for private, reduction and induction variables, headers of inner loops do not access its induction variable, and outer loops are perfect; with the nostrict clause only canonical form and perfect nesting are required.", "quantifier": "all lists of loops, traits and headers", "why_tests_cant": "all lists of loops", "anchors": ["lib/Transform/Clang/LoopInterchange.cpp: TraverseForStmt, checkLoop, isMemoryAccessedIn"]}
{"id": "C173", "title": "All uses of distributed arrays are supported", "statement": "If distribution of an array is not disabled then its address is never stored or returned, it is accessed by loads, stores and memory markers only, it is passed as a whole to functions with available bodies which expect an array in this position, parameters which are distributed correspond to arrays in all calls, and it is not private in a parallel loop.", "quantifier": "all programs, arrays, instructions, calls and loops", "why_tests_cant": "all programs", "anchors": ["lib/APC/DistributionLimits.cpp: APCDistrLimitsChecker::runOnFunction, APCDistrLimitsIPOChecker::runOnModule"]}
{"id": "C174", "title": "Distribution is disabled for reported reasons only", "statement": "Distribution of an array is disabled if and only if there is one of the documented reasons; the reason is reported, all reports are true, and an array is marked as used by input and output only if it is passed to an unknown function.", "quantifier": "all programs, arrays and orders of functions", "why_tests_cant": "all programs", "anchors": ["lib/APC/DistributionLimits.cpp: APCDistrLimitsChecker::runOnFunction, APCDistrLimitsIPOChecker::runOnModule"]}
{"id": "C175", "title": "The include tree of a translation unit describes its files exactly", "statement": "For one translation unit the tree consists of the files which contain outermost declarations and of the files which include them; children of a file are exactly its declarations and the files of the tree it includes, each once and in the order of offsets; a declaration is found in the file of its expansion location; the root of a file is the not included file from which the file is reached; top-level files are the not included files and internal declarations are the ones without a file.", "quantifier": "every include hierarchy, every list of declarations and every sorting algorithm", "why_tests_cant": "Links are created only for newly inserted files, so exactness depends on the order in which declarations of files are processed", "anchors": ["include/tsar/Analysis/Clang/IncludeTree.h: FileNode::push_back, FileTree::insert, find, findRoot, reconstruct", "lib/Analysis/Clang/IncludeTree.cpp: FileNode::sort, FileTree::reconstruct"]}
{"id": "C176", "title": "Traversal of the include tree visits declarations in the order of a translation unit", "statement": "A depth first traversal from a top-level file visits exactly the declarations which are written in the file and in the files it includes, each once, in the order in which the compiler sees them.", "quantifier": "every include hierarchy, every list of declarations and every sorting algorithm", "why_tests_cant": "Depth of nesting and interleaving of declarations and includes are unbounded", "anchors": ["include/tsar/Analysis/Clang/IncludeTree.h: GraphTraits, FileNode", "lib/Analysis/Clang/IncludeTree.cpp: FileNode::sort, FileTree::reconstruct"]}
{"id": "C177", "title": "The include tree of a project keeps files apart and counts its roots", "statement": "Files of different translation units are different files of the tree and the reported number of top-level files is the number of files in the list of top-level files.", "quantifier": "every list of translation units and every include hierarchy", "why_tests_cant": "File identifiers of different units may coincide in any combination", "anchors": ["include/tsar/Analysis/Clang/IncludeTree.h: FileTree::insert, root_size, roots, reconstruct"]}
{"id": "C178", "title": "A unit is rejected exactly if an assertion that there are no macros is violated", "statement": "A translation unit is marked as invalid if and only if there is an `assert nomacro` clause such that the statement or declaration to which it is attached (the first one after it in the same block) contains a macro or is not located in a single file; each message names such a clause and a macro inside its statement. Clauses nested in other asserted statements are covered.", "quantifier": "every syntax tree and every placement of clauses and macros", "why_tests_cant": "Placement and nesting of pragmas are unbounded", "anchors": ["lib/Analysis/Clang/NoMacroAssert.cpp: NoMacroChecker"]}
{"id": "C179", "title": "The result of the check of macros covers all translation units", "statement": "A module is marked as invalid if and only if a violated assertion is reported for one of its translation units, each violated assertion is reported, and it is reported once.", "quantifier": "every list of functions and translation units", "why_tests_cant": "The result is shared by all functions and depends on their order", "anchors": ["lib/Analysis/Clang/NoMacroAssert.cpp: ClangNoMacroAssert::runOnFunction"]}
{"id": "C180", "title": "Replacement of a source file is atomic", "statement": "At each point where execution may be interrupted a written file has either its old content or the whole new content; without errors it has new content, after a reported error it has the old content, a file which cannot be written is never changed and temporary files are not left.", "quantifier": "every file, content, division of content by a stream, results of system calls and every crash point", "why_tests_cant": "Crash points between system calls and failures of the file system cannot be enumerated by tests", "anchors": ["lib/Core/TransformationContext.cpp: AtomicallyMovedFile", "lib/Frontend/Clang/TransformationContext.cpp: ClangTransformationContext::release"]}
{"id": "C181", "title": "Dumps of a transformed file do not overwrite each other", "statement": "In each history of dumps of files different dumps of a file have different names and the number in a name is the number of dumps of this file so far.", "quantifier": "every history of dumps", "why_tests_cant": "The counter and its text have limited size, histories are unbounded", "anchors": ["lib/Core/TransformationContext.cpp: getDumpFilenameAdjuster"]}
{"id": "C182", "title": "Global names of a translation unit are collected exactly", "statement": "Registered declarations of a translation unit are exactly the declarations which add a name to its global scope (top-level declarations, tags and enumerators inside top-level tags), each is registered once with the top-level declaration which contains it.", "quantifier": "every hierarchy of declarations", "why_tests_cant": "Nesting of tags is unbounded", "anchors": ["lib/Analysis/Clang/GlobalInfoExtractor.cpp: GlobalInfoExtractor::TraverseDecl"]}
{"id": "C183", "title": "Variables which are declared in a macro are matched by names", "statement": "If each variable declared at a location of a macro has memory with its name, and the names are different, then each variable is matched with the memory which has its name; each variable is either matched or remembered as unmatched; variables with equal names are never matched; if numbers of variables and of memory locations are different then nothing is matched.", "quantifier": "every list of declarations and allocas in every order and every sorting algorithm", "why_tests_cant": "Orders of declarations and allocas in a macro are arbitrary", "anchors": ["lib/Analysis/Clang/MemoryMatcher.cpp: MatchAllocaVisitor, MemoryMatcherPass::runOnModule", "include/tsar/Analysis/AST/Matcher.h: matchInMacro"]}
{"id": "C184", "title": "Global variables are matched with their declarations", "statement": "A global variable is matched with its declarations from all translation units with available sources, with nothing else, and each declaration is mentioned once.", "quantifier": "every module: every list of functions and units", "why_tests_cant": "The list is built from all functions of a module", "anchors": ["lib/Analysis/Clang/MemoryMatcher.cpp: MemoryMatcherPass::runOnModule"]}
{"id": "C185", "title": "Variables of a scope are matched with metadata by names", "statement": "If variables of a scope outside macros have different names and metadata variables attached to the scope have different names, then a variable is matched with a metadata variable exactly if their names are equal. The order of declarations and the presence of variables without metadata, or of metadata without variables, does not matter.", "quantifier": "every scope, every list of its variables and of its metadata, every sorting function", "why_tests_cant": "The single pass over sorted lists is correct only due to the order of both lists; tests contain a few scopes.", "anchors": ["lib/Analysis/Clang/DIMemoryMatcher.cpp: MatchDIVisitor::TraverseStmt, ClangDIMemoryMatcherPass::runOnFunction"]}
{"id": "C186", "title": "Each input file is analysed or reported", "statement": "If options which print, dump, emit or merge AST are not used, each file from the command line is analysed as many times as it is specified or a message that it is skipped is printed. If a language is specified, all files are analysed in the order of the command line.", "quantifier": "every list of files, every extension, every specified language, builds with and without Flang", "why_tests_cant": "Combinations of extensions, languages and builds are not enumerable; a dropped file has no visible effect in a test on another file.", "anchors": ["lib/Core/Tool.cpp: Tool::run"]}
{"id": "C187", "title": "The exit code shows whether all files have been processed", "statement": "The exit code is zero exactly if Clang and Flang have succeeded and all files with LLVM IR have been parsed. It is 2 exactly if some tool has returned a code greater than 1 or some but not all files with LLVM IR have been parsed. Queries are processed for all parsed files and a file with errors does not prevent the analysis of other files.", "quantifier": "every list of files, every result of parsing, every return code of Clang and Flang", "why_tests_cant": "Depends on all combinations of failed files.", "anchors": ["lib/Core/Tool.cpp: Tool::run", "lib/Core/IRAction.cpp: executeIRAction"]}
{"id": "C188", "title": "Options of the command line have an effect", "statement": "Weights of unknown functions and builtins from the command line are used in the analysis. If an option which is incompatible with LLVM IR is set, the language is not specified and there is a file with LLVM IR, then the tool is stopped, and it is not stopped otherwise.", "quantifier": "every value of options and every list of files", "why_tests_cant": "Values of options are not bounded and a lost value changes only heuristics.", "anchors": ["lib/Core/Tool.cpp: Tool::storeCLOptions", "include/tsar/Support/GlobalOptions.h: GlobalOptions"]}
