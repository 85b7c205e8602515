/-!
# Model of unparsing of memory locations

`DIMemoryLocation` (include/tsar/Analysis/Memory/DIMemoryLocation.h, lib/Analysis/Memory/DIMemoryLocation.cpp) and
`SourceUnparserImp` (include/tsar/Unparse/SourceUnparser.h, lib/Unparse/SourceUnparser.cpp).

Simplifications:
* types are already stripped (`stripDIType`, MetadataUtils.h:116-131), sizes are in bytes, a type a pointer
  refers to is a number, so recursive types are possible;
* lists of identifiers and constants (SourceUnparser.h:255-256) are values of tokens;
* numbers are not bounded, except `unsigned Coeff` (SourceUnparser.cpp:187);
* directions of dimensions: the only used value of `IsForwardDim` is `true` (CSourceUnparser.h:37,
  FortranSourceUnparser.h:37).
-/
namespace Tsar.Unparse

/-- A name of a variable or a member (`DIVariable::getName()`, SourceUnparser.h:249-271), names are numbered. -/
abbrev Name := Nat

/-- `DISubrange`: a lower bound (zero if it is absent), a number of elements. `none` if it is not a constant
(SourceUnparser.cpp:148-160). -/
structure Dim where
  lower : Option Int
  count : Option Nat
  deriving DecidableEq

mutual

/-- `DIType`. -/
inductive Ty
  | base (size : Nat)
  | ptr (target : Option Nat)
  | struct (size : Nat) (ms : Mems)
  | union (size : Nat)
  | array (size : Nat) (el : Ty) (dims : List Dim)

/-- Elements of a structure: is it `DW_TAG_member`, a name, an offset, a type. -/
inductive Mems
  | nil
  | cons (member : Bool) (name : Name) (off : Nat) (ty : Ty) (rest : Mems)

end

/-- `getSize`, MetadataUtils.h:103-106. A pointer is eight bytes long. -/
def Ty.size : Ty → Nat
  | .base n => n
  | .ptr _ => 8
  | .struct n _ => n
  | .union n => n
  | .array n _ _ => n

/-- `SourceUnparserImp::Token`, SourceUnparser.h:56-74. -/
inductive Tok
  | address | deref | ident (x : Name) | uconst (n : Nat) | unknown | sep | add | sub | lp | rp | lb | rb
  | field | cast
  deriving DecidableEq

/-- `getPriority`, SourceUnparser.h:119-131. -/
def Tok.priority : Tok → Nat
  | .add | .sub => 0
  | .deref | .address | .cast => 1
  | .lb | .rb | .sep | .field => 2
  | .ident _ | .uconst _ | .unknown => 3
  | .lp | .rp => 4

/-- State: `mReversePrefix`, `mSuffix`, `mIsAddress`, `mCurrType`, `mLastOpPriority`. `bad` is set after
division by zero. -/
structure U where
  pre : List Tok
  suf : List Tok
  addr : Bool
  ty : Option Ty
  prio : Nat
  bad : Bool

/-- `updatePriority`, SourceUnparser.h:182-188. -/
def U.update (s : U) (cur next : Tok) : U :=
  if s.prio < cur.priority then
    { s with pre := s.pre ++ [.lp], suf := s.suf ++ [.rp], prio := next.priority }
  else { s with prio := next.priority }

/-- Append a token to a reversed prefix (`mReversePrefix.push_back`, SourceUnparser.h:175, 188). -/
def U.pushPre (s : U) (t : Tok) : U := { s with pre := s.pre ++ [t] }

/-- Append tokens to a suffix (`mSuffix.push_back`, SourceUnparser.h:176, 189). -/
def U.pushSuf (s : U) (ts : List Tok) : U := { s with suf := s.suf ++ ts }

/-- `unparseAsScalarTy`, SourceUnparser.cpp:34-50. -/
def scalar (s : U) (off : Nat) (pos : Bool) : U :=
  if off = 0 then s
  else
    let s := if s.addr then s else { (s.update .address .address).pushPre .address with addr := true }
    let op := if pos then Tok.add else .sub
    { ((s.update .cast op).pushPre .cast).pushSuf [op, .uconst off] with ty := none }

/-- `addUnknownSubscripts`, SourceUnparser.cpp:126-132. -/
def unknowns (s : U) (dims : Nat) : U :=
  (s.update .lb .rb).pushSuf (.lb :: (List.replicate dims [Tok.unknown, .sep]).flatten ++ [.rb])

/-- All dimensions are constants (`pushDimSize`, SourceUnparser.cpp:144-165). -/
def constDims : List Dim → Option (List (Int × Nat))
  | [] => some []
  | d :: ds =>
    match d.lower, d.count, constDims ds with
    | some l, some c, some r => some ((l, c) :: r)
    | _, _, _ => none

/-- `unsigned Coeff`, SourceUnparser.cpp:187-188. -/
def coeff (ds : List (Int × Nat)) : Nat := ds.foldl (fun c d => (c * d.2) % 2 ^ 32) 1

/-- Tokens of one subscript expression, SourceUnparser.cpp:189-202. -/
def index (tmpl : Bool) (l : Int) (k : Nat) : List Tok :=
  let i := l + k
  if i < 0 then [.sub, .uconst i.natAbs]
  else if i = 0 ∧ tmpl then [.unknown] else [.uconst i.toNat]

/-- `addDim` for all dimensions, SourceUnparser.cpp:186-209. The second result is `true` in case of
division by zero. -/
def indices (tmpl : Bool) : List (Int × Nat) → Nat → List Tok × Bool
  | [], _ => ([], false)
  | [d], k => (index tmpl d.1 (k / coeff []), coeff [] = 0)
  | d :: ds, k =>
    let c := coeff ds
    let r := indices tmpl ds (k % c)
    (index tmpl d.1 (k / c) ++ .sep :: r.1, c = 0 || r.2)

mutual

/-- `unparse(Offset, IsPositive)` (SourceUnparser.cpp:225-240) for types which are not pointers or if
`mIsAddress` is `false`: `unparseAsStructureTy` (lines 52-96), `unparseAsUnionTy` (98-100), `unparseAsArrayTy`
(134-212), `unparseAsPointerTy` (104-105). -/
def inner (tmpl : Bool) : Ty → U → Nat → Bool → U
  | .base _, s, off, pos => scalar s off pos
  | .union _, s, off, pos => scalar s off pos
  | .ptr _, s, off, pos => scalar s off pos
  | .struct size ms, s, off, pos =>
    if !pos || size ≤ off then scalar s off pos
    else
      match members tmpl ms s off none with
      | none => scalar s off pos
      | some r => r
  | .array size el dims, s, off, pos =>
    let s := { s with ty := some el, addr := true }
    if dims.isEmpty || !pos || size ≤ off || el.size = 0 then scalar s off pos
    else
      match constDims dims with
      | none => if tmpl then unknowns s dims.length else scalar s off pos
      | some ds =>
        let r := indices tmpl ds (off / el.size)
        let s := { s with addr := false, bad := s.bad || r.2 }
        inner tmpl el ((s.update .lb .rb).pushSuf (.lb :: r.1 ++ [.rb])) (off % el.size) pos

/-- Search for a member (SourceUnparser.cpp:58-77) and the rest of the unparsing for it (lines 83-95). -/
def members (tmpl : Bool) : Mems → U → Nat → Option U → Option U
  | .nil, _, _, r => r
  | .cons m x mo t rest, s, off, r =>
    if !m then members tmpl rest s off r
    else if off < mo then r
    else
      let s' := if s.addr then { (s.update .deref .deref).pushPre .deref with addr := false } else s
      let s' := { (s'.update .field .field).pushSuf [.field, .ident x] with ty := some t }
      let res := some (inner tmpl t s' (off - mo) true)
      if mo = off then res else members tmpl rest s off res

end

/-- `unparse(Offset, IsPositive)`, SourceUnparser.cpp:225-240, and `unparseAsPointerTy`, lines 102-124. -/
def step (env : Nat → Ty) (tmpl : Bool) (s : U) (off : Nat) (pos : Bool) : U :=
  match s.ty with
  | none => scalar s off pos
  | some (.ptr target) =>
    if !s.addr then scalar s off pos
    else
      match target with
      | none => scalar { s with ty := none } off pos
      | some k =>
        let t := env k
        let s := { s with ty := some t }
        if t.size = 0 then scalar s off pos
        else
          let i := off / t.size
          let s := (s.update .lb .rb).pushSuf (if i = 0 ∧ tmpl then [.lb, .unknown, .rb]
            else if pos then [.lb, .uconst i, .rb] else [.lb, .sub, .uconst i, .rb])
          inner tmpl t { s with addr := false } (off % t.size) pos
  | some t => inner tmpl t s off pos

/-- `unparseDeref`, SourceUnparser.cpp:214-223. -/
def deref (s : U) : U :=
  if s.addr then { (s.update .deref .deref).pushPre .deref with addr := false }
  else
    match s.ty with
    | some (.ptr t) => { s with ty := some (.ptr t), addr := true }
    | _ => { s with ty := none, addr := true }

/-- Operations of `DIExpression`, offsets are in bits. -/
inductive Op
  | deref | constu (n : Nat) | plusU (n : Nat) | plus | minus | fragment (off size : Nat)
  deriving DecidableEq

/-- An offset is its absolute value in bytes and its sign (`true` if it is not negative):
`push` in DIMemoryLocation.cpp:87-96. -/
def offset (p n : Nat) : Nat × Bool := if n ≤ p then ((p - n) / 8, true) else ((n - p) / 8, false)

/-- `DIMemoryLocation::getOffsets`, DIMemoryLocation.cpp:81-116. `p` is `PositiveOffset`, `n` is
`NegativeOffset`, `c` is `Offset`. -/
def offsets : List Op → Nat → Nat → Nat → List (Nat × Bool)
  | [], p, n, _ => [offset p n]
  | .deref :: os, p, n, c => offset p n :: offsets os 0 0 c
  | .constu k :: os, p, n, _ => offsets os p n k
  | .plusU k :: os, p, n, c => offsets os (p + k) n c
  | .plus :: os, p, n, c => offsets os (p + c) n c
  | .minus :: os, p, n, c => offsets os p (n + c) c
  | .fragment k _ :: os, p, n, c => offsets os (p + k) n c

/-- A size of a location in bytes (`getSize`, DIMemoryLocation.cpp:56-80). `none` if it is unknown. -/
def locSize (t : Ty) (os : List Op) : Option Nat :=
  match os.getLast? with
  | some (.fragment _ n) => if n = 0 then none else some ((n + 7) / 8)
  | _ =>
    if Op.deref ∈ os then none
    else
      match offsets os 0 0 0 with
      | [(o, true)] => if o < t.size then some (t.size - o) else none
      | _ => none

/-- The loop over offsets, SourceUnparser.cpp:250-256. -/
def walk (env : Nat → Ty) (tmpl : Bool) (s : U) : List (Nat × Bool) → U
  | [] => s
  | o :: os => walk env tmpl (deref (step env tmpl s o.1 o.2)) os

/-- `SourceUnparserImp::unparse`, SourceUnparser.cpp:242-266. -/
def unparseU (env : Nat → Ty) (tmpl minimal : Bool) (x : Name) (t : Ty) (ops : List Op) : U :=
  let s : U := ⟨[], [], false, some t, Tok.priority (.ident x), false⟩
  let os := offsets ops 0 0 0
  let s := walk env tmpl s os.dropLast
  let o := os.getLast?.getD (0, true)
  let small : Bool :=
    match locSize t ops, s.ty with
    | some n, some τ => n < τ.size
    | _, _ => false
  let s := if !minimal || s.ty.isNone || o.1 ≠ 0 || small then step env tmpl s o.1 o.2 else s
  if s.addr then (s.update .deref .deref).pushPre .deref else s

/-- A text: a prefix, a variable, a suffix (`toString`, SourceUnparser.h:249-271). -/
def U.tokens (s : U) (x : Name) : List Tok := s.pre.reverse ++ .ident x :: s.suf

/-- The text of an expression (`toString()` and `print()`, SourceUnparser.h:233-271). -/
def unparse (env : Nat → Ty) (tmpl minimal : Bool) (x : Name) (t : Ty) (ops : List Op) : List Tok :=
  (unparseU env tmpl minimal x t ops).tokens x

end Tsar.Unparse
