import Verif.Numeric.Model

/-!
# Numeric casts: C31
-/

namespace Tsar
namespace Numeric

theorem pow_le {a b : Nat} (h : a ≤ b) : (2 ^ a : Int) ≤ 2 ^ b := by
  have := Nat.pow_le_pow_right (n := 2) (by omega) h
  exact_mod_cast this

theorem toInt_ofInt {n : Nat} (hn : 0 < n) (i : Int) (h1 : -(2 ^ (n - 1) : Int) ≤ i) (h2 : i < 2 ^ (n - 1)) :
    (BitVec.ofInt n i).toInt = i := by
  rw [BitVec.toInt_ofInt]
  have h : (2 ^ n : Int) = 2 * 2 ^ (n - 1) := by
    obtain ⟨m, rfl⟩ : ∃ m, n = m + 1 := ⟨n - 1, by omega⟩
    rw [Nat.add_sub_cancel, Int.pow_succ]; omega
  apply Int.bmod_eq_of_le
  · have : ((2 ^ n : Nat) : Int) = 2 ^ n := by simp
    omega
  · have : ((2 ^ n : Nat) : Int) = 2 ^ n := by simp
    omega

/-- **C31.** For each width of a source and each target type with at most 64 bits a cast returns without
a failed assertion. If it reports success the destination has exactly the mathematical value of the
source. -/
theorem cast_exact {w : Nat} (bits : Nat) (hb : 2 ≤ bits ∧ bits ≤ 64) (sgn : Bool) (c : BitVec w)
    (isSigned : Bool) :
    castAPInt bits sgn c isSigned = some none ∨
      ∃ out, castAPInt bits sgn c isSigned = some (some out) ∧ value sgn out = value isSigned c := by
  unfold castAPInt
  by_cases ho : isOverflow bits sgn c isSigned
  · left; simp [ho]
  · right
    rw [if_neg ho]
    unfold isOverflow at ho
    cases sgn <;> cases isSigned
    · simp only [Bool.false_eq_true, if_false, Bool.not_eq_true', Bool.not_eq_false] at ho ⊢
      have hn : c.toNat < 2 ^ bits := by simpa [isIntN] using ho
      have h64 : isIntN c 64 = true := by
        have := Nat.pow_le_pow_right (n := 2) (by omega) hb.2
        simp only [isIntN, decide_eq_true_eq]; omega
      refine ⟨_, by rw [if_pos h64], ?_⟩
      simp [value, Nat.mod_eq_of_lt hn]
    · simp at ho
    · simp only [Bool.false_eq_true, if_false, if_true, Bool.not_eq_true', Bool.not_eq_false] at ho ⊢
      have hn : c.toNat < 2 ^ (bits - 1) := by simpa [isIntN] using ho
      have h64 : isIntN c 64 = true := by
        have := Nat.pow_le_pow_right (n := 2) (by omega) (show bits - 1 ≤ 64 by omega)
        simp only [isIntN, decide_eq_true_eq]; omega
      refine ⟨_, by rw [if_pos h64], ?_⟩
      simp only [value, if_true, Bool.false_eq_true, if_false]
      rw [← BitVec.ofInt_natCast]
      refine toInt_ofInt (by omega) _ ?_ ?_
      · have : (0 : Int) ≤ 2 ^ (bits - 1) := Int.le_of_lt (Int.pow_pos (by omega))
        omega
      · exact_mod_cast hn
    · simp only [if_true, Bool.not_eq_true', Bool.not_eq_false] at ho ⊢
      have hn : -(2 ^ (bits - 1 - 1) : Int) ≤ c.toInt ∧ c.toInt < 2 ^ (bits - 1 - 1) := by
        simpa [isSignedIntN] using ho
      have h1 := pow_le (show bits - 1 - 1 ≤ 64 - 1 by omega)
      have h2 := pow_le (show bits - 1 - 1 ≤ bits - 1 by omega)
      have h64 : isSignedIntN c 64 = true := by
        simp only [isSignedIntN, decide_eq_true_eq]
        constructor <;> omega
      refine ⟨_, by rw [if_pos h64], ?_⟩
      simp only [value, if_true]
      exact toInt_ofInt (by omega) _ (by omega) (by omega)

/-- **C31.** A cast of a signed value to an unsigned type is always rejected as documented; a cast of an
unsigned value succeeds if and only if the value fits in the target type. -/
theorem cast_unsigned {w : Nat} (bits : Nat) (hb : 2 ≤ bits ∧ bits ≤ 64) (sgn : Bool) (c : BitVec w) :
    castAPInt bits false c true = some none ∧
    (castAPInt bits sgn c false ≠ some none ↔ ∃ out : BitVec bits, value sgn out = (c.toNat : Int)) := by
  refine ⟨by simp [castAPInt, isOverflow], ?_⟩
  constructor
  · intro h
    rcases cast_exact bits hb sgn c false with h' | ⟨out, -, hv⟩
    · exact absurd h' h
    · exact ⟨out, by simpa [value] using hv⟩
  · rintro ⟨out, hv⟩
    have key : isOverflow bits sgn c false = false := by
      unfold isOverflow isIntN
      cases sgn
      · have := out.isLt
        simp only [value, Bool.false_eq_true, if_false] at hv
        have hv : out.toNat = c.toNat := by exact_mod_cast hv
        simp; omega
      · simp only [value, if_true] at hv
        have h2 := BitVec.toInt_lt (x := out)
        have hp : (2 ^ (bits - 1) : Int) = ((2 ^ (bits - 1) : Nat) : Int) := by simp
        have h3 : c.toNat < 2 ^ (bits - 1) := by
          omega
        simpa using h3
    unfold castAPInt
    rw [key]
    simp only [Bool.false_eq_true, if_false]
    split <;> simp

/-- **C31.** The condition for signed values is stronger than needed: values which are outside of a half
of the range are rejected although the target type represents them. -/
theorem cast_complete_fails :
    ∃ c : BitVec 64, castAPInt 64 true c true = some none ∧ ∃ out : BitVec 64, value true out = value true c :=
  ⟨BitVec.ofNat 64 (2 ^ 62), by decide +kernel, BitVec.ofNat 64 (2 ^ 62), rfl⟩

/-- A cast of an expression succeeds only for a constant. -/
theorem castSCEV_exact {w : Nat} (bits : Nat) (hb : 2 ≤ bits ∧ bits ≤ 64) (sgn : Bool)
    (c : Option (BitVec w)) (isSigned : Bool) :
    castSCEV bits sgn c isSigned = some none ∨
      ∃ out k, castSCEV bits sgn c isSigned = some (some out) ∧ c = some k ∧
        value sgn out = value isSigned k := by
  cases c with
  | none => exact .inl rfl
  | some k =>
    rcases cast_exact bits hb sgn k isSigned with h | ⟨out, h, hv⟩
    · exact .inl h
    · exact .inr ⟨out, k, h, rfl, hv⟩

example : castAPInt 32 true (BitVec.ofInt 128 (-7)) true = some (some (BitVec.ofInt 32 (-7))) := by
  decide +kernel
example : castAPInt 32 true (BitVec.ofNat 128 (2 ^ 100 + 1)) true = some none := by decide +kernel
example : castAPInt 32 false (BitVec.ofNat 33 (2 ^ 32)) false = some none := by decide +kernel
example : castAPInt 32 true (BitVec.ofNat 33 (2 ^ 31)) false = some none := by decide +kernel

end Numeric
end Tsar
