import Verif.Model.Py

/-!
# `gauss_mod_p/arithmetic_mod_p.py`
-/

namespace Permaviss

/-- `add_mod_c`, arithmetic_mod_p.py:10-27 : `(a + b) % c`, Python's floored `%`. -/
def addModC (a b c : Int) : Int := Int.fmod (a + b) c

/-- `add_arrays_mod_c`, arithmetic_mod_p.py:30-47 : `np.mod(A + B, c)`, entry by entry.  The modulus
is the prime `p > 0`, for which Python's `%` is `Int.emod`.  Both arrays have the same length in all
uses (numpy would otherwise broadcast or raise). -/
def addArraysModC (A B : List Int) (c : Nat) : List Int :=
  List.zipWith (fun a b => (a + b) % (c : Int)) A B

/-- The `while a != 0` loop of `inv_mod_p`, arithmetic_mod_p.py:74-80, on the variables `a`, `b`,
`x0`, `x1` (the variables `y0`, `y1` of the code never influence the result and are dropped).
`//` and `%` are the floored operations.  Returns the final `(b, x0)`; the loop is bounded by fuel. -/
def invLoop : Nat → Int → Int → Int → Int → Option (Int × Int)
  | 0, _, _, _, _ => none
  | fuel + 1, a, b, x0, x1 =>
    if a = 0 then some (b, x0)
    else invLoop fuel (Int.fmod b a) a x1 (x0 - Int.fdiv b a * x1)

/-- `inv_mod_p`, arithmetic_mod_p.py:50-88. -/
def invModP (a : Int) (p : Nat) : Except PyErr Int :=
  if Int.fmod a p = 0 then .error .valueError
  else
    match invLoop (a.natAbs + 1) a p 0 1 with
    | none => .error .outOfFuel
    | some (b, x0) =>
      if b ≠ 1 then .error .valueError
      else if x0 < 0 then .ok (x0 + p) else .ok x0

end Permaviss
