/-!
# Specification: IEEE-754 binary64 values of bit patterns

`scaled u` is the real value of the float64 with bits `u`, multiplied by 2^1074 (an integer for
every finite float).  Infinities get the value the formula assigns to them, which is larger in
magnitude than every finite value.
-/
namespace Mondis.Spec.F64

/-- Biased exponent field, bits 62..52. -/
def expo (u : UInt64) : Nat := u.toNat / 2 ^ 52 % 2 ^ 11
/-- Fraction field, bits 51..0. -/
def frac (u : UInt64) : Nat := u.toNat % 2 ^ 52
/-- Sign bit. -/
def neg (u : UInt64) : Bool := u.toNat ≥ 2 ^ 63

/-- NaN: all-ones exponent and non-zero fraction. -/
def isNaN (u : UInt64) : Prop := expo u = 2047 ∧ frac u ≠ 0

/-- The bit pattern of minus zero. -/
def negZero : UInt64 := 0x8000000000000000

/-- |value| * 2^1074 : subnormals are `frac`, normals `(2^52 + frac) * 2^(expo-1)`. -/
def magnitude (u : UInt64) : Nat :=
  if expo u = 0 then frac u else (2 ^ 52 + frac u) * 2 ^ (expo u - 1)

/-- value * 2^1074 -/
def scaled (u : UInt64) : Int := if neg u then - (magnitude u : Int) else (magnitude u : Int)

end Mondis.Spec.F64
