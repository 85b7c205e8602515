/-
Model of the tables of directives and of the lookups in these tables.

Modelled code:
* include/tsar/Support/Directives.td (the whole file),
* utils/TableGen/TableGen.cpp:65-201 (generation of tables),
* lib/Support/Directives.cpp:31-236 (tables and lookups),
* include/tsar/Support/Directives.h:133-154 (findAnchor).
-/

namespace Tsar.Directives

/-! ### Kinds of expressions -/

/-- Kinds of expressions which describe a single token
(Directives.td:32-46). -/
inductive Single
  | Identifier | PPIdentifier | NumericConstant | Comma | Colon | Arrow
  | LParen | RParen | LSquare | RSquare | LBrace | RBrace | Period | Equal
  deriving DecidableEq, Repr

/-- Kinds of expressions which describe a block of tokens
(Directives.td:48-53). -/
inductive Block
  | ZeroOrOne | ZeroOrMore | OneOrMore | OneOf | One
  deriving DecidableEq, Repr

/-- `ClauseExpr` (Directives.h:61-70), the enum of all `ExprKind` records of
Directives.td:25-53. Simplification: the value `NotExpr` and values which are
greater than `NumExprs` do not appear in tables of prototypes, they are not
represented. -/
inductive EK
  | anchor
  | single (s : Single)
  | block (b : Block)
  deriving DecidableEq, Repr

/-- `isSingle` (lib/Support/Directives.cpp:166-170), the table
`ClauseExprSingleTable` (lines 75-82) is filled from the field `IsSingle`
(Directives.td:30-53). Note that the anchor is a single expression. -/
def isSingle : EK → Bool
  | .anchor => true
  | .single _ => true
  | .block _ => false

/-! ### Prototypes -/

/-- A list of expressions (`list<Expr>`, Directives.td:55-81): the empty list,
a list which starts with a single token or a list which starts with a block
with a specified body. -/
inductive Exprs
  | nil
  | tok (k : Single) (rest : Exprs)
  | block (b : Block) (body rest : Exprs)
  deriving DecidableEq, Repr

/-- `GenExprDescription` (utils/TableGen/TableGen.cpp:118-129) for each
expression from a list: the kind, then for a complex expression its children
and the anchor. -/
def flatten : Exprs → List EK
  | .nil => []
  | .tok k rest => .single k :: flatten rest
  | .block b body rest => .block b :: (flatten body ++ .anchor :: flatten rest)

/-- The sum of sizes which are returned by `GenExprDescription`
(utils/TableGen/TableGen.cpp:118-129) for a list of expressions. -/
def genSize : Exprs → Nat
  | .nil => 0
  | .tok _ rest => 1 + genSize rest
  | .block _ body rest => (1 + genSize body + 1) + genSize rest

/-! ### Records -/

/-- Record of the class `Directive` (Directives.td:91-96); `defName` is a name
of the definition, `parent` is a name of the definition of the namespace. -/
structure DirRec where
  defName : String
  name : String
  parent : String
  hasBody : Bool := false
  deriving DecidableEq, Repr

/-- Record of the class `Clause` (Directives.td:119-124). -/
structure ClauseRec where
  defName : String
  name : String
  parent : String
  exprs : Exprs := .nil
  deriving DecidableEq, Repr

/-- All records; the first component of a namespace (Directives.td:83-86) is
the name of the definition and the second component is the name of the
namespace. Each list is in the order of `getAllDerivedDefinitions`. -/
structure Records where
  namespaces : List (String × String)
  directives : List DirRec
  clauses : List ClauseRec

/-! ### Generated tables -/

/-- `NamespaceNameTable` (lib/Support/Directives.cpp:32-37),
`GenNamespaceNameList` (TableGen.cpp:159-168). -/
def nsNames (R : Records) : List String := "not_namespace" :: R.namespaces.map (·.2)

/-- `DirectiveNameTable` (lib/Support/Directives.cpp:40-47). -/
def dirNames (R : Records) : List String := "not_directive" :: R.directives.map (·.name)

/-- `DirectiveBodyTable` (lib/Support/Directives.cpp:49-56). -/
def dirBodies (R : Records) : List Bool := false :: R.directives.map (·.hasBody)

/-- `ClauseNameTable` (lib/Support/Directives.cpp:59-64). -/
def clauseNames (R : Records) : List String := "not_clause" :: R.clauses.map (·.name)

/-- Value of an enumerator `DirectiveNamespaceId::Id` (Directives.h:33-39,
`GenNamespaceIdList`, TableGen.cpp:78-86): definitions are numbered from one.
Simplification: in case of an unknown definition the C++ code is not compiled,
the model yields a number which is too large. -/
def nsEnum (R : Records) (defName : String) : Nat :=
  R.namespaces.findIdx (·.1 == defName) + 1

/-- Value of an enumerator `DirectiveId::Id` (Directives.h:42-50). -/
def dirEnum (R : Records) (defName : String) : Nat :=
  R.directives.findIdx (·.defName == defName) + 1

/-- `DirectiveNamespaceTable` (lib/Support/Directives.cpp:84-91). -/
def dirParents (R : Records) : List Nat := 0 :: R.directives.map (fun d => nsEnum R d.parent)

/-- `ClauseDirectiveTable` (lib/Support/Directives.cpp:93-100). -/
def clauseParents (R : Records) : List Nat := 0 :: R.clauses.map (fun c => dirEnum R c.parent)

/-- `PrototypeTable` (lib/Support/Directives.cpp:127-133,
`GenClausePrototypeList`, TableGen.cpp:131-147). -/
def protoTable (R : Records) : List EK := (R.clauses.map (fun c => flatten c.exprs)).flatten

/-- Offsets which are accumulated in `GenClausePrototypeList`
(TableGen.cpp:135-145). -/
def offsets : Nat → List ClauseRec → List Nat
  | off, [] => [off]
  | off, c :: cs => off :: offsets (off + genSize c.exprs) cs

/-- `PrototypeOffsetTable` (lib/Support/Directives.cpp:117-124,
`GenClauseOffsetList`, TableGen.cpp:149-157): pairs of neighbouring
offsets after the pair for the invalid clause. -/
def offsetTable (R : Records) : List (Nat × Nat) :=
  (0, 0) :: (offsets 0 R.clauses).zip (offsets 0 R.clauses).tail

/-! ### Access to the tables

`none` means that the assertion at the beginning of a function is violated. -/

/-- `getName(DirectiveNamespaceId)` (lib/Support/Directives.cpp:136-140). -/
def getNsName (R : Records) (id : Nat) : Option String :=
  if 0 < id ∧ id < (nsNames R).length then (nsNames R)[id]? else none

/-- `getName(DirectiveId)` (lib/Support/Directives.cpp:142-146). -/
def getDirName (R : Records) (id : Nat) : Option String :=
  if 0 < id ∧ id < (dirNames R).length then (dirNames R)[id]? else none

/-- `getName(ClauseId)` (lib/Support/Directives.cpp:148-152). -/
def getClauseName (R : Records) (id : Nat) : Option String :=
  if 0 < id ∧ id < (clauseNames R).length then (clauseNames R)[id]? else none

/-- `hasBody(DirectiveId)` (lib/Support/Directives.cpp:160-164). -/
def hasBody (R : Records) (id : Nat) : Option Bool :=
  if 0 < id ∧ id < (dirNames R).length then (dirBodies R)[id]? else none

/-- `getParent(DirectiveId)` (lib/Support/Directives.cpp:172-176). -/
def getDirParent (R : Records) (id : Nat) : Option Nat :=
  if 0 < id ∧ id < (dirNames R).length then (dirParents R)[id]? else none

/-- `getParent(ClauseId)` (lib/Support/Directives.cpp:178-182). -/
def getClauseParent (R : Records) (id : Nat) : Option Nat :=
  if 0 < id ∧ id < (clauseNames R).length then (clauseParents R)[id]? else none

/-- Result of a lookup: a violated assertion (undefined behavior in a release
build), `false`, or `true` with an identifier. -/
inductive Lookup
  | assertion
  | notFound
  | found (id : Nat)
  deriving DecidableEq, Repr

/-- `getTsarDirectiveNamespace` (lib/Support/Directives.cpp:184-196). -/
def getTsarDirectiveNamespace (R : Records) (name : String) : Lookup :=
  if name = "" then .notFound
  else
    match (nsNames R).findIdx? (· == name) with
    | some i => .found i
    | none => .notFound

/-- The `std::find_if` of lib/Support/Directives.cpp:205-207 and 219-221: the
first record from the `i`-th one with a specified name and parent. The parent
is requested (with an assertion) for a record with a specified name only. -/
def findFrom (parentOf : Nat → Option Nat) (name : String) (parent : Nat) :
    Nat → List String → Lookup
  | _, [] => .notFound
  | i, n :: ns =>
    if n = name then
      match parentOf i with
      | none => .assertion
      | some p => if p = parent then .found i else findFrom parentOf name parent (i + 1) ns
    else findFrom parentOf name parent (i + 1) ns

/-- `getTsarDirective` (lib/Support/Directives.cpp:198-213). -/
def getTsarDirective (R : Records) (ns : Nat) (name : String) : Lookup :=
  if name = "" then .notFound
  else findFrom (getDirParent R) name ns 0 (dirNames R)

/-- `getTsarClause` (lib/Support/Directives.cpp:215-227). The empty name is
allowed: it is the name of a body of a directive. -/
def getTsarClause (R : Records) (dir : Nat) (name : String) : Lookup :=
  findFrom (getClauseParent R) name dir 0 (clauseNames R)

/-- `ClausePrototype::get` (lib/Support/Directives.cpp:229-235): the range
`[Start, End)` of the table of prototypes. -/
def prototype (R : Records) (id : Nat) : Option (List EK) :=
  if 0 < id ∧ id < (clauseNames R).length then
    match (offsetTable R)[id]? with
    | some (s, e) => some (((protoTable R).drop s).take (e - s))
    | none => none
  else none

/-- The loop of `findAnchor` (Directives.h:144-153), `i` is an offset of the
head of the list, `n` is `ComplexNum`. -/
def findAnchorFrom : Nat → Nat → List EK → Nat
  | _, i, [] => i
  | n, i, e :: es =>
    if e = .anchor then
      if n > 0 then findAnchorFrom (n - 1) (i + 1) es else i
    else findAnchorFrom (if isSingle e then n else n + 1) (i + 1) es

/-- `findAnchor(I, EI)` (Directives.h:135-154) in a prototype `P`; `none` means
that the end of the prototype is dereferenced. -/
def findAnchor (P : List EK) (i : Nat) : Option Nat :=
  match P[i]? with
  | none => none
  | some .anchor => some i
  | some _ => some (findAnchorFrom 0 (i + 1) (P.drop (i + 1)))

/-! ### The list of records from Directives.td -/

/-- Concatenation of expressions into a list of expressions. -/
def E (l : List (Exprs → Exprs)) : Exprs := l.foldr (fun f r => f r) .nil

/-- A single token. -/
def t (k : Single) : Exprs → Exprs := .tok k
/-- `ZeroOrOne<...>` (Directives.td:77). -/
def zo (l : List (Exprs → Exprs)) : Exprs → Exprs := .block .ZeroOrOne (E l)
/-- `ZeroOrMore<...>` (Directives.td:78). -/
def zm (l : List (Exprs → Exprs)) : Exprs → Exprs := .block .ZeroOrMore (E l)
/-- `OneOrMore<...>` (Directives.td:79). -/
def om (l : List (Exprs → Exprs)) : Exprs → Exprs := .block .OneOrMore (E l)
/-- `OneOf<...>` (Directives.td:80). -/
def oneOf (l : List (Exprs → Exprs)) : Exprs → Exprs := .block .OneOf (E l)
/-- `One<...>` (Directives.td:81). -/
def one (l : List (Exprs → Exprs)) : Exprs → Exprs := .block .One (E l)

/-- `[LParen, Identifier, ZeroOrMore<[Comma, Identifier]>, RParen]`
(Directives.td:127, 153, 156). -/
def idList : Exprs :=
  E [t .LParen, t .Identifier, zm [t .Comma, t .Identifier], t .RParen]

/-- Mapping of a single member, `[.name = id]` or `.name = id`
(Directives.td:172-173). -/
def memberMap : List (Exprs → Exprs) :=
  [zo [t .LSquare, t .RSquare], t .Period, t .PPIdentifier, t .Equal, t .Identifier]

/-- Description of a parameter in the clause `replace` of the directive
`metadata` (Directives.td:167-179). -/
def metaParam : Exprs → Exprs :=
  oneOf [one [t .Identifier],
    one [t .LBrace, zo (memberMap ++ [zm (t .Comma :: memberMap)]), t .RBrace]]

/-- Description of a function in the clause `replace` of the directive
`metadata` (Directives.td:165-196). -/
def metaFunc : List (Exprs → Exprs) :=
  [t .Identifier, t .LParen, zo [metaParam, zm [t .Comma, metaParam]], t .RParen]

/-- All records of Directives.td in the order of `RecordKeeper`, that is in
the order of names of definitions. -/
def tsar : Records where
  namespaces := [("Dvm", "dvm"), ("Spf", "spf")]
  directives :=
    [{ defName := "Analysis", name := "analysis", parent := "Spf" },
     { defName := "Assert", name := "assert", parent := "Spf" },
     { defName := "DvmActual", name := "actual", parent := "Dvm", hasBody := true },
     { defName := "DvmArray", name := "array", parent := "Dvm" },
     { defName := "DvmEndInterval", name := "endinterval", parent := "Dvm" },
     { defName := "DvmGetActual", name := "get_actual", parent := "Dvm", hasBody := true },
     { defName := "DvmHostSection", name := "host_section", parent := "Dvm" },
     { defName := "DvmInherit", name := "inherit", parent := "Dvm", hasBody := true },
     { defName := "DvmInterval", name := "interval", parent := "Dvm", hasBody := true },
     { defName := "DvmParallel", name := "parallel", parent := "Dvm", hasBody := true },
     { defName := "DvmRealign", name := "realign", parent := "Dvm", hasBody := true },
     { defName := "DvmRedistribute", name := "redistribute", parent := "Dvm", hasBody := true },
     { defName := "DvmRegion", name := "region", parent := "Dvm" },
     { defName := "DvmRemoteAccess", name := "remote_access", parent := "Dvm", hasBody := true },
     { defName := "DvmTemplate", name := "template", parent := "Dvm", hasBody := true },
     { defName := "Metadata", name := "metadata", parent := "Spf" },
     { defName := "Parallel", name := "parallel", parent := "Spf" },
     { defName := "Region", name := "region", parent := "Spf" },
     { defName := "Transform", name := "transform", parent := "Spf" }]
  clauses :=
    [{ defName := "AssertNoMacro", name := "nomacro", parent := "Assert" },
     { defName := "DvmActualBody", name := "", parent := "DvmActual" },
     { defName := "DvmAlign", name := "align", parent := "DvmArray" },
     { defName := "DvmArrayDistribute", name := "distribute", parent := "DvmArray" },
     { defName := "DvmGetActualBody", name := "", parent := "DvmGetActual" },
     { defName := "DvmInheritBody", name := "", parent := "DvmInherit" },
     { defName := "DvmIntervalBody", name := "", parent := "DvmInterval" },
     { defName := "DvmParallelAcross", name := "accross", parent := "DvmParallel" },
     { defName := "DvmParallelBody", name := "", parent := "DvmParallel" },
     { defName := "DvmParallelCudaBlock", name := "cuda_block", parent := "DvmParallel" },
     { defName := "DvmParallelPrivate", name := "private", parent := "DvmParallel" },
     { defName := "DvmParallelReduction", name := "reduction", parent := "DvmParallel" },
     { defName := "DvmParallelRemoteAccess", name := "remote_access", parent := "DvmParallel" },
     { defName := "DvmParallelShadowRenew", name := "shadow_renew", parent := "DvmParallel" },
     { defName := "DvmParallelStage", name := "staget", parent := "DvmParallel" },
     { defName := "DvmRealignBody", name := "", parent := "DvmRegion" },
     { defName := "DvmRedistributeBody", name := "", parent := "DvmRedistribute" },
     { defName := "DvmRegionAsync", name := "async", parent := "DvmRegion" },
     { defName := "DvmRegionIn", name := "in", parent := "DvmRegion" },
     { defName := "DvmRegionInLocal", name := "inlocal", parent := "DvmRegion" },
     { defName := "DvmRegionInOut", name := "inout", parent := "DvmRegion" },
     { defName := "DvmRegionLocal", name := "local", parent := "DvmRegion" },
     { defName := "DvmRegionOut", name := "out", parent := "DvmRegion" },
     { defName := "DvmRegionTarget", name := "target", parent := "DvmRegion" },
     { defName := "DvmRemoteAccessBody", name := "", parent := "DvmRemoteAccess" },
     { defName := "DvmShadow", name := "shadow", parent := "DvmArray" },
     { defName := "DvmTemplateBody", name := "", parent := "DvmTemplate" },
     { defName := "DvmTemplateDistribute", name := "distribute", parent := "DvmTemplate" },
     { defName := "Induction", name := "induction", parent := "Analysis", exprs := idList },
     { defName := "Inline", name := "inline", parent := "Transform" },
     { defName := "LoopInterchange", name := "interchange", parent := "Transform",
       exprs := E [t .LParen, t .PPIdentifier, t .Comma, t .PPIdentifier, t .RParen] },
     { defName := "LoopReverse", name := "reverse", parent := "Transform",
       exprs := E [t .LParen, oneOf [t .PPIdentifier, t .NumericConstant], t .RParen] },
     { defName := "NoInline", name := "noinline", parent := "Transform" },
     { defName := "NoStrict", name := "nostrict", parent := "Transform" },
     { defName := "Private", name := "private", parent := "Analysis", exprs := idList },
     { defName := "ProcessPrivate", name := "processprivate", parent := "Parallel",
       exprs := idList },
     { defName := "Propagate", name := "propagate", parent := "Transform" },
     { defName := "RegionName", name := "name", parent := "Region",
       exprs := E [t .LParen, t .PPIdentifier, zm [t .Comma, t .PPIdentifier], t .RParen] },
     { defName := "RemoveUnreachable", name := "removeunreachable", parent := "Transform" },
     { defName := "Rename", name := "rename", parent := "Transform" },
     { defName := "Replace", name := "replace", parent := "Transform",
       exprs := E [zo [t .LParen, t .Identifier, zm [t .Comma, t .Identifier], t .RParen]] },
     { defName := "ReplaceMetadata", name := "replace", parent := "Metadata",
       exprs := E ([t .LParen] ++ metaFunc ++ [zm (t .Comma :: metaFunc), t .RParen]) },
     { defName := "With", name := "with", parent := "Transform",
       exprs := E [t .LParen, t .Identifier, t .RParen] }]

end Tsar.Directives
