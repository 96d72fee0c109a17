import Verif.Model.Py
import Mathlib.Data.ZMod.Basic
import Mathlib.Algebra.BigOperators.Group.Finset.Basic

/-!
# Vectors and matrices mod `p`

How lists of integers are read as mathematical vectors over `ZMod p`.  A vector is a function
`ℕ → ZMod p` which is zero beyond the length of the list.
-/

namespace Permaviss

/-- The vector over `ZMod p` represented by a list of integers (zero beyond the end). -/
def zv (p : ℕ) (v : List Int) : ℕ → ZMod p := fun i => ((v.getD i 0 : Int) : ZMod p)

/-- The entry `A[i, j]` mod `p`. -/
def Mat.z (p : ℕ) (A : Mat) (i j : ℕ) : ZMod p := ((A.get i j : Int) : ZMod p)

/-- `i` is the pivot (last nonzero position) of the vector `f`. -/
def IsPiv {K : Type*} [Zero K] (f : ℕ → K) (i : ℕ) : Prop := f i ≠ 0 ∧ ∀ j, i < j → f j = 0

/-- `b` is the linear combination of the columns of `A` with coefficients `x`, mod `p`. -/
def IsSolution (p : ℕ) (A : Mat) (x b : ℕ → ZMod p) : Prop :=
  ∀ i < A.nrows, ∑ k ∈ Finset.range A.ncols, A.z p i k * x k = b i

end Permaviss
