import Mathlib.Data.Nat.Sqrt

/-!
# Prime numbers

Models `countPrimeNumbers()` (`lib/Support/SCEVUtils.cpp`): property C42.
-/

namespace Tsar
namespace Primes

/-- `CachedPrimes` (SCEVUtils.cpp:564-571). -/
def cached : List Nat :=
  [2, 3, 5, 7, 11, 13, 17, 19, 23, 29, 31, 37, 41, 43, 47, 53, 59, 61, 67, 71, 73, 79, 83, 89, 97, 101, 103, 107, 109, 113,
    127, 131, 137, 139, 149, 151, 157, 163, 167, 173, 179, 181, 191, 193, 197, 199, 211, 223, 227, 229, 233, 239, 241, 251,
    257, 263, 269, 271, 277, 281]

/-- Subtraction of `std::size_t` values. -/
def sub64 (a b : Nat) : Nat := (a + 2 ^ 64 - b % 2 ^ 64) % 2 ^ 64

/-- `IsPrime[N] = !IsPrime[N]` (SCEVUtils.cpp:596, 599, 602). There is no result if the index is out of range. -/
def flip (v : List Bool) (n : Nat) : Option (List Bool) :=
  match v[n]? with
  | some b => some (v.set n (!b))
  | none => none

/-- `IsPrime[N] = b` (SCEVUtils.cpp:583-585, 609). There is no result if the index is out of range. -/
def put (v : List Bool) (n : Nat) (b : Bool) : Option (List Bool) :=
  if n < v.length then some (v.set n b) else none

/-- A conditional change of a flag. -/
def flipIf (c : Prop) [Decidable c] (v : List Bool) (n : Nat) : Option (List Bool) := if c then flip v n else some v

/-- The body of the inner loop (SCEVUtils.cpp:592-602). -/
def body (bound i x2 j y2 : Nat) (v : List Bool) : Option (List Bool) :=
  let n1 := 4 * x2 + y2
  let n2 := sub64 n1 x2
  let n3 := sub64 n2 (2 * y2)
  (flipIf (n1 ≤ bound ∧ (n1 % 12 = 1 ∨ n1 % 12 = 5)) v n1).bind fun v1 =>
    (flipIf (n2 ≤ bound ∧ n2 % 12 = 7) v1 n2).bind fun v2 =>
      flipIf (i > j ∧ n3 ≤ bound ∧ n3 % 12 = 11) v2 n3

/-- The inner loop (SCEVUtils.cpp:591-603), the number of iterations is the first argument. Sums do not overflow because
of the restriction on the bound. -/
def inner (bound i x2 : Nat) : Nat → Nat → Nat → List Bool → Option (List Bool)
  | 0, _, _, v => some v
  | k + 1, j, y2, v => do
    let y2' := y2 + (2 * j - 1)
    let v' ← body bound i x2 j y2' v
    inner bound i x2 k (j + 1) y2' v'

/-- The outer loop (SCEVUtils.cpp:588-604), the number of iterations is the first argument. -/
def outer (bound s : Nat) : Nat → Nat → Nat → List Bool → Option (List Bool)
  | 0, _, _, v => some v
  | k + 1, i, x2, v => do
    let x2' := x2 + (2 * i - 1)
    let v' ← inner bound i x2' s 1 0 v
    outer bound s k (i + 1) x2' v'

/-- Removal of multiples (SCEVUtils.cpp:608-609). The first argument is a bound of the number of iterations, there is no
result if it is exceeded. -/
def multiples (bound n : Nat) : Nat → Nat → List Bool → Option (List Bool)
  | 0, _, _ => none
  | f + 1, j, v =>
    if j ≤ bound then do
      let v' ← put v j false
      multiples bound n f (j + n) v'
    else some v

/-- Removal of multiples of squares (SCEVUtils.cpp:605-611), the number of iterations is the first argument. -/
def squares (bound : Nat) : Nat → Nat → List Bool → Option (List Bool)
  | 0, _, v => some v
  | k + 1, i, v =>
    match v[i]? with
    | none => none
    | some true => do
      let v' ← multiples bound (i * i) (bound + 1) (i * i) v
      squares bound k (i + 1) v'
    | some false => squares bound k (i + 1) v

/-- The list of results (SCEVUtils.cpp:615-617), the number of iterations is the first argument. -/
def collect (v : List Bool) : Nat → Nat → Option (List Nat)
  | 0, _ => some []
  | k + 1, i =>
    match v[i]? with
    | none => none
    | some b => do
      let l ← collect v k (i + 1)
      if b && decide (i % 3 ≠ 0) && decide (i % 5 ≠ 0) then some (i :: l) else some l

/-- The sieve (SCEVUtils.cpp:581-618). `std::sqrt()` is exact for bounds less than 2^52. -/
def sieve (bound : Nat) : Option (List Nat) := do
  let v0 := List.replicate (bound + 1) false
  let v1 ← put v0 2 true
  let v2 ← put v1 3 true
  let s := Nat.sqrt bound
  let v3 ← outer bound s s 1 0 v2
  let v4 ← squares bound (s + 1 - 5) 5 v3
  let l ← collect v4 (bound + 1 - 6) 6
  some (2 :: 3 :: 5 :: l)

/-- `countPrimeNumbers()` (SCEVUtils.cpp:562-619). There is no result in case of an undefined behavior: the counter of
the loop which initializes the vector (SCEVUtils.cpp:582) is of the type `int`, so it overflows if the bound is not less than the
greatest value of the type. -/
def count (bound : Nat) : Option (List Nat) :=
  if bound ≤ 281 then some (cached.takeWhile fun p => decide (p ≤ bound))
  else if bound ≥ 2 ^ 31 - 1 then none
  else sieve bound

end Primes
end Tsar
