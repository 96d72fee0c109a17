import Mathlib.Algebra.Order.Group.Unbundled.Int
import Mathlib.Algebra.Order.Ring.Int

/-!
# Numbers of bounded precision

The arrays of the code hold machine integers or doubles.  Operations on such numbers are exact only as long as
the numbers involved are not too large.
-/

namespace Permaviss

/-- The operations of a machine on integers: `a + b`, `a * b`, `a % b` and `a // b`. -/
structure Ops where
  add : Int → Int → Int
  mul : Int → Int → Int
  mod : Int → Int → Int
  div : Int → Int → Int

/-- Exact arithmetic; `%` and `//` are Python's floored operations. -/
def Ops.exact : Ops := ⟨(· + ·), (· * ·), Int.fmod, Int.fdiv⟩

/-- The operations are exact when the arguments and the sum or product have absolute value at most `M`.
Nothing is said about other arguments. -/
structure Ops.ExactUpTo (o : Ops) (M : Int) : Prop where
  add : ∀ a b, |a| ≤ M → |b| ≤ M → |a + b| ≤ M → o.add a b = a + b
  mul : ∀ a b, |a| ≤ M → |b| ≤ M → |a * b| ≤ M → o.mul a b = a * b
  mod : ∀ a b, |a| ≤ M → |b| ≤ M → b ≠ 0 → o.mod a b = Int.fmod a b
  div : ∀ a b, |a| ≤ M → |b| ≤ M → b ≠ 0 → o.div a b = Int.fdiv a b

/-- Operations followed by a rounding.  Doubles have such operations, and their rounding does not change the
integers up to `2 ^ 53`. -/
def Ops.rounded (fl : Int → Int) : Ops :=
  ⟨fun a b => fl (a + b), fun a b => fl (a * b), fun a b => fl (Int.fmod a b), fun a b => fl (Int.fdiv a b)⟩

/-- Rounding to a double, to nearest and ties to even: the result is a multiple of `2 ^ k` with 53 significant bits.
Numbers above `2 ^ 1024` would become infinite; this is left out. -/
def roundDouble (x : Int) : Int :=
  let u : Int := 2 ^ (Nat.log2 x.natAbs - 52)
  let q := x / u
  let r := x % u
  (if 2 * r < u then q else if u < 2 * r then q + 1 else if q % 2 = 0 then q else q + 1) * u

/-- Doubles, restricted to integers. -/
def Ops.double : Ops := Ops.rounded roundDouble

/-- 64 bit integers, where the result is reduced to the range from `-2 ^ 63` to `2 ^ 63 - 1`. -/
def Ops.int64 : Ops := Ops.rounded fun x => Int.bmod x (2 ^ 64)

end Permaviss
