import Mathlib.Algebra.Order.Field.Basic
import Mathlib.Data.Int.Log
import Mathlib.Data.Rat.Floor

/-!
# Rounding of numbers
-/

namespace Permaviss

/-- How numbers are rounded: `op` after an arithmetic operation, `store` when a number is written to an array with
the type of the cloud. -/
structure Rounding (K : Type) where
  op : K → K
  store : K → K

/-- No rounding. -/
def Rounding.exact (K : Type) : Rounding K := ⟨id, id⟩

/-- Both roundings keep the order of numbers; operations have relative error at most `u`, and a number that is
stored changes by at most `η`. -/
structure Rounding.Accurate {K : Type} [Field K] [LinearOrder K] (R : Rounding K) (u η : K) : Prop where
  mono_op : Monotone R.op
  mono_store : Monotone R.store
  op : ∀ x, |R.op x - x| ≤ u * |x|
  store : ∀ x, |R.store x - x| ≤ η

/-- The nearest integer, and the even one of two which are equally near. -/
def nearestEven (y : ℚ) : ℤ :=
  if y - ⌊y⌋ < 1 / 2 then ⌊y⌋ else if 1 / 2 < y - ⌊y⌋ then ⌊y⌋ + 1 else if ⌊y⌋ % 2 = 0 then ⌊y⌋ else ⌊y⌋ + 1

/-- The unit in the last place of a double: numbers with 53 significant bits. -/
def ulp (x : ℚ) : ℚ := 2 ^ (Int.log 2 |x| - 52)

/-- Rounding to a double, to nearest and ties to even.  The exponent is not bounded: numbers above `2 ^ 1024` would
become infinite and numbers below `2 ^ -1022` lose digits; this is left out. -/
def toDouble (x : ℚ) : ℚ := if x = 0 then 0 else nearestEven (x / ulp x) * ulp x

/-- What is left when the digits after the point are dropped. -/
def truncate (x : ℚ) : ℚ := if 0 ≤ x then (⌊x⌋ : ℚ) else (⌈x⌉ : ℚ)

/-- An array of doubles: the results of operations are doubles, and are stored as they are. -/
def Rounding.double : Rounding ℚ := ⟨toDouble, id⟩

/-- An array of integers: the results of operations with numbers that are not integers are doubles, and are converted
to integers when they are stored. -/
def Rounding.integer : Rounding ℚ := ⟨toDouble, truncate⟩

end Permaviss
