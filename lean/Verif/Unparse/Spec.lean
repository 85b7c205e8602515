import Verif.Unparse.Model
/-!
# What a text designates and what a debug location designates

The grammar of C expressions (ISO C, 6.5.1-6.5.3, 6.5.6) for tokens of a text, a meaning of expressions for a
given layout of types and a content of memory, a meaning of DWARF expressions. Nothing here depends on the way
the text is constructed, only types and tokens are shared with the model.
-/
namespace Tsar.Unparse

/-- Expressions. A subscript is `none` if it is printed as an unknown value. -/
inductive Ex
  | var (x : Name)
  | addr (e : Ex)
  | deref (e : Ex)
  | cast (e : Ex)
  | add (e : Ex) (n : Nat)
  | sub (e : Ex) (n : Nat)
  | idx (e : Ex) (is : List (Option Int))
  | field (e : Ex) (x : Name)
  deriving DecidableEq

/-- A subscript. -/
inductive Sub : List Tok → Option Int → Prop
  | unknown : Sub [.unknown] none
  | pos (n : Nat) : Sub [.uconst n] (some n)
  | neg (n : Nat) : Sub [.sub, .uconst n] (some (-n))

/-- A nonempty list of subscripts. -/
inductive Subs : List Tok → List (Option Int) → Prop
  | one {ts i} : Sub ts i → Subs ts [i]
  | cons {ts i us is} : Sub ts i → Subs us is → Subs (ts ++ .sep :: us) (i :: is)

mutual

/-- Primary expressions. -/
inductive Prim : List Tok → Ex → Prop
  | var (x : Name) : Prim [.ident x] (.var x)
  | paren {ts e} : Sum ts e → Prim (.lp :: ts ++ [.rp]) e

/-- Postfix expressions. -/
inductive Post : List Tok → Ex → Prop
  | prim {ts e} : Prim ts e → Post ts e
  | idx {ts e us is} : Post ts e → Subs us is → Post (ts ++ .lb :: us ++ [.rb]) (.idx e is)
  | field {ts e} (x : Name) : Post ts e → Post (ts ++ [.field, .ident x]) (.field e x)

/-- Unary and cast expressions. -/
inductive Un : List Tok → Ex → Prop
  | post {ts e} : Post ts e → Un ts e
  | addr {ts e} : Un ts e → Un (.address :: ts) (.addr e)
  | deref {ts e} : Un ts e → Un (.deref :: ts) (.deref e)
  | cast {ts e} : Un ts e → Un (.cast :: ts) (.cast e)

/-- Additive expressions. -/
inductive Sum : List Tok → Ex → Prop
  | un {ts e} : Un ts e → Sum ts e
  | add {ts e} (n : Nat) : Sum ts e → Sum (ts ++ [.add, .uconst n]) (.add e n)
  | sub {ts e} (n : Nat) : Sum ts e → Sum (ts ++ [.sub, .uconst n]) (.sub e n)

end

/-! ## Meaning of expressions -/

/-- An object at an address or a value of a pointer, with a type of the object (`none` if it is not known). -/
inductive Res
  | obj (a : Int) (t : Option Ty)
  | val (a : Int) (t : Option Ty)

/-- Variables (addresses and types), types pointers refer to, a content of memory. -/
structure World where
  base : Name → Int
  type : Name → Ty
  env : Nat → Ty
  load : Int → Int

/-- A value of an expression used as a pointer: an array is converted to an address of its first element,
a value of any other object is loaded. -/
def World.value (w : World) : Res → Int × Option Ty
  | .val a t => (a, t)
  | .obj a (some (.array _ el [_])) => (a, some el)
  | .obj a (some (.array _ _ _)) => (a, none)
  | .obj a (some (.ptr t)) => (w.load a, t.map w.env)
  | .obj a _ => (w.load a, none)

/-- A type and an offset of a member. -/
def Mems.find (x : Name) : Mems → Option (Nat × Ty)
  | .nil => none
  | .cons m y o t rest => if m && x == y then some (o, t) else rest.find x

/-- A number of an element of an array for given subscripts: row-major order. -/
def flat : List Dim → List (Option Int) → Option Int
  | [], [] => some 0
  | ⟨some l, _⟩ :: ds, i :: is =>
    match flat ds is, count ds with
    | some r, some c => some ((i.getD 0 - l) * c + r)
    | _, _ => none
  | _, _ => none
where
  /-- A number of elements. -/
  count : List Dim → Option Nat
    | [] => some 1
    | ⟨_, some c⟩ :: ds => (count ds).map (c * ·)
    | _ => none

/-- A meaning of an expression, `none` if there is no one. An unknown subscript is zero: the text describes
all elements, including this one. -/
def World.eval (w : World) : Ex → Option Res
  | .var x => some (.obj (w.base x) (some (w.type x)))
  | .addr e =>
    match w.eval e with
    | some (.obj a t) => some (.val a t)
    | _ => none
  | .deref e =>
    match w.eval e with
    | some r => some (.obj (w.value r).1 (w.value r).2)
    | none => none
  | .cast e =>
    match w.eval e with
    | some r => some (.val (w.value r).1 (some (.base 1)))
    | none => none
  | .add e n =>
    match w.eval e with
    | some r =>
      match w.value r with
      | (a, some t) => some (.val (a + n * t.size) (some t))
      | (_, none) => none
    | none => none
  | .sub e n =>
    match w.eval e with
    | some r =>
      match w.value r with
      | (a, some t) => some (.val (a - n * t.size) (some t))
      | (_, none) => none
    | none => none
  | .idx e is =>
    match w.eval e with
    | some (.obj a (some (.array _ el dims))) =>
      match flat dims is with
      | some k => some (.obj (a + k * el.size) (some el))
      | none => none
    | some r =>
      match w.value r, is with
      | (a, some t), [i] => some (.obj (a + i.getD 0 * t.size) (some t))
      | _, _ => none
    | none => none
  | .field e x =>
    match w.eval e with
    | some (.obj a (some (.struct _ ms))) =>
      match ms.find x with
      | some (o, t) => some (.obj (a + o) (some t))
      | none => none
    | _ => none

/-- The text designates an object at the address. -/
def World.designates (w : World) (ts : List Tok) (a : Int) : Prop :=
  ∃ e, Sum ts e ∧ ∃ t, w.eval e = some (.obj a t)

/-! ## Meaning of DWARF expressions -/

/-- An address in bits which is described by operations, `c` is a constant on the top of the stack. -/
def dwarf (load : Int → Int) : List Op → Int → Option Nat → Option Int
  | [], a, none => some a
  | [], _, some _ => none
  | .deref :: os, a, none => if a % 8 = 0 then dwarf load os (load (a / 8) * 8) none else none
  | .plusU k :: os, a, none => dwarf load os (a + k) none
  | .constu k :: os, a, none => dwarf load os a (some k)
  | .plus :: os, a, some k => dwarf load os (a + k) none
  | .minus :: os, a, some k => dwarf load os (a - k) none
  | .fragment k _ :: os, a, none => dwarf load os (a + k) none
  | _, _, _ => none

/-- An address in bytes. -/
def World.address (w : World) (x : Name) (os : List Op) (a : Int) : Prop :=
  dwarf w.load os (w.base x * 8) none = some (a * 8)

/-! ## Types -/

/-- Members with the name exist. -/
def Mems.names : Mems → List Name
  | .nil => []
  | .cons true x _ _ rest => x :: rest.names
  | .cons false _ _ _ rest => rest.names

/-- A number of elements of dimensions, `none` if it is not a constant. -/
def Dim.total (ds : List Dim) : Option Nat := flat.count ds

mutual

/-- Names of members differ, an array has dimensions and elements, numbers of elements in a row of an array
are less than 2^32. `known`: bounds of arrays are constants. -/
def Ty.ok (known : Bool) : Ty → Prop
  | .base _ => True
  | .ptr _ => True
  | .union _ => True
  | .struct _ ms => ms.names.Nodup ∧ ms.ok known
  | .array _ el dims =>
    el.ok known ∧ (∀ ds d, d :: ds <:+ dims → ∀ n, Dim.total ds = some n → 0 < n ∧ n < 2 ^ 32) ∧
      (known = true → ∃ n, Dim.total dims = some n ∧ ∀ d ∈ dims, d.lower ≠ none)

def Mems.ok (known : Bool) : Mems → Prop
  | .nil => True
  | .cons _ _ _ t rest => t.ok known ∧ rest.ok known

end

/-- Members of a structure: a member at the offset. -/
inductive Mems.Mem : Mems → Nat → Ty → Prop
  | here {x o t rest} : Mem (.cons true x o t rest) o t
  | there {m x o t rest o' t'} : Mem rest o' t' → Mem (.cons m x o t rest) o' t'

/-- An object of a scalar type (or a union) starts at the offset. -/
inductive Leaf : Ty → Nat → Ty → Prop
  | base (n) : Leaf (.base n) 0 (.base n)
  | ptr (t) : Leaf (.ptr t) 0 (.ptr t)
  | union (n) : Leaf (.union n) 0 (.union n)
  | struct {size ms o t k t'} : ms.Mem o t → Leaf t k t' → Leaf (.struct size ms) (o + k) t'
  | array {size el dims n i k t'} : Dim.total dims = some n → (∀ d ∈ dims, d.lower ≠ none) → dims ≠ [] → i < n →
      Leaf el k t' → Leaf (.array size el dims) (i * el.size + k) t'

mutual

/-- Layout of objects: members of a structure and elements of an array do not overlap, all of them are inside
of the object. -/
def Ty.laid : Ty → Prop
  | .base n => 0 < n
  | .ptr _ => True
  | .union n => 0 < n
  | .struct size ms => 0 < size ∧ ms.laid 0 size
  | .array size el dims => 0 < size ∧ el.laid ∧ ∀ n, Dim.total dims = some n → n * el.size ≤ size

/-- Members are placed in the ascending order between the bounds. -/
def Mems.laid : Mems → Nat → Nat → Prop
  | .nil, _, _ => True
  | .cons true _ o t rest, lo, size => lo ≤ o ∧ o + t.size ≤ size ∧ t.laid ∧ rest.laid (o + t.size) size
  | .cons false _ _ _ rest, lo, size => rest.laid lo size

end

/-- Objects which are dereferenced: a list consists of offsets (in bytes) which separate dereferences. All
dereferenced objects, except the last one, are pointers according to types, the last one is any object.
An offset from a pointer is an offset in the array of objects it refers to. -/
inductive Typed (env : Nat → Ty) : Ty → List Int → Prop
  | last (t : Ty) (o : Int) : Typed env t [o]
  | object {t t' : Ty} {o : Nat} (k : Int) : Leaf t o t' → Typed env t [(o : Int), k]
  | ptr {t : Ty} {o k i r : Nat} {rest : List Int} : Leaf t o (.ptr (some k)) → r < (env k).size →
      Typed env (env k) ((r : Int) :: rest) → Typed env t ((o : Int) :: ((i * (env k).size + r : Nat) : Int) :: rest)

/-- Bits between dereferences. -/
def segments : List Op → List Int
  | [] => [0]
  | .deref :: os => 0 :: segments os
  | .plusU k :: os => bump k (segments os)
  | .fragment k _ :: os => bump k (segments os)
  | .constu k :: .plus :: os => bump k (segments os)
  | .constu k :: .minus :: os => bump (-k) (segments os)
  | _ :: os => segments os
where
  bump (k : Int) : List Int → List Int
    | [] => []
    | o :: os => (o + k) :: os

/-- All offsets are whole bytes. -/
def aligned : Op → Prop
  | .constu k => k % 8 = 0
  | .plusU k => k % 8 = 0
  | .fragment k _ => k % 8 = 0
  | _ => True

end Tsar.Unparse
