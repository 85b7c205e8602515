/-!
# Model of numeric casts (include/tsar/Support/NumericUtils.h)

An `llvm::APInt` is a bit vector of an arbitrary width. A target type is described by the number of bits
and a sign flag, `std::numeric_limits<IntT>::is_signed`.
-/

namespace Tsar
namespace Numeric

/-- `APInt::isSignedIntN(N)`: the value as a signed number fits in `N` bits. -/
def isSignedIntN {w : Nat} (c : BitVec w) (n : Nat) : Bool :=
  -(2 ^ (n - 1) : Int) ≤ c.toInt ∧ c.toInt < (2 ^ (n - 1) : Int)

/-- `APInt::isIntN(N)`: the value as an unsigned number fits in `N` bits. -/
def isIntN {w : Nat} (c : BitVec w) (n : Nat) : Bool := c.toNat < 2 ^ n

/-- `isOverflow<IntT>()` (NumericUtils.h:38-48). -/
def isOverflow {w : Nat} (bits : Nat) (sgn : Bool) (c : BitVec w) (isSigned : Bool) : Bool :=
  if sgn then
    if isSigned then !isSignedIntN c (bits - 1) else !isIntN c (bits - 1)
  else
    if isSigned then true else !isIntN c bits

/-- `castAPInt<IntT>()` (NumericUtils.h:53-62). `getSExtValue()` and `getZExtValue()` extend the value to
64 bits (an assertion fails if it does not fit), `static_cast` keeps the low bits. `none` is a failed assertion, `some none` is `false`. -/
def castAPInt {w : Nat} (bits : Nat) (sgn : Bool) (c : BitVec w) (isSigned : Bool) :
    Option (Option (BitVec bits)) :=
  if isOverflow bits sgn c isSigned then some none
  else if isSigned then
    if isSignedIntN c 64 then some (some (BitVec.ofInt bits c.toInt)) else none
  else
    if isIntN c 64 then some (some (BitVec.ofNat bits c.toNat)) else none

/-- The number represented by bits. -/
def value {w : Nat} (sgn : Bool) (c : BitVec w) : Int := if sgn then c.toInt else c.toNat

/-- `castSCEV<IntT>()` (NumericUtils.h:66-72): `none` as an argument is an expression which is not a
constant. -/
def castSCEV {w : Nat} (bits : Nat) (sgn : Bool) (c : Option (BitVec w)) (isSigned : Bool) :
    Option (Option (BitVec bits)) :=
  match c with
  | some c => castAPInt bits sgn c isSigned
  | none => some none

end Numeric
end Tsar
