/-!
# Python values that the model needs

Exceptions are values; numpy arrays are lists.
-/

namespace Permaviss

/-- The Python exceptions the modelled code can raise.  `outOfFuel` is not a Python exception: it
marks that a `while` loop or a recursion used more steps than the bound given to it by the model.
We prove that it never occurs (termination).
Raised at gauss_mod_p.py:167, functions.py:56, barcode_bases.py:119 and 164, image_kernel.py:120. -/
inductive PyErr where
  | valueError
  | runtimeError
  | indexError
  | unboundLocalError
  | typeError
  | recursionError
  | attributeError
  | zeroDivisionError
  | outOfFuel
  deriving DecidableEq, Repr

/-- `Except` values can be compared, which the replayed unit tests use. -/
instance instDecidableEqExcept {ε α : Type} [DecidableEq ε] [DecidableEq α] :
    DecidableEq (Except ε α)
  | .ok a, .ok b => if h : a = b then isTrue (by rw [h]) else isFalse (by intro h'; cases h'; exact h rfl)
  | .error a, .error b =>
      if h : a = b then isTrue (by rw [h]) else isFalse (by intro h'; cases h'; exact h rfl)
  | .ok _, .error _ => isFalse (by intro h; cases h)
  | .error _, .ok _ => isFalse (by intro h; cases h)

/-- A two dimensional integer numpy array, stored by columns: `cols[j][i]` is the entry in row `i`
and column `j`.  `nrows` is `np.size(A, 0)` and `cols.length` is `np.size(A, 1)`.  See gauss_mod_p.py:61-69. -/
structure Mat where
  nrows : Nat
  cols : List (List Int)
  deriving DecidableEq, Repr

namespace Mat

/-- Number of columns, `np.size(A, 1)`.  See gauss_mod_p.py:65. -/
def ncols (A : Mat) : Nat := A.cols.length

/-- The array has the shape it claims: every column has `nrows` entries.  See gauss_mod_p.py:61-69. -/
def WellShaped (A : Mat) : Prop := ∀ c ∈ A.cols, c.length = A.nrows

/-- Entry `A[i, j]` (0 outside of the array).  See gauss_mod_p.py:82. -/
def get (A : Mat) (i j : Nat) : Int := (A.cols.getD j []).getD i 0

/-- Every entry lies in `[0, p)`, i.e. the array is reduced mod `p`.  See gauss_mod_p.py:134. -/
def Reduced (p : Nat) (A : Mat) : Prop := ∀ c ∈ A.cols, ∀ x ∈ c, 0 ≤ x ∧ x < (p : Int)

/-- `np.array(rows)`; only used to write down concrete matrices by rows as in the test-suite.  Tests in /repo/test. -/
def ofRows (ncols : Nat) (rows : List (List Int)) : Mat :=
  { nrows := rows.length
    cols := (List.range ncols).map fun j => rows.map fun r => r.getD j 0 }

/-- `np.transpose(A)`.  See gauss_mod_p.py:68 and 95. -/
def transpose (A : Mat) : Mat :=
  { nrows := A.cols.length
    cols := (List.range A.nrows).map fun i => A.cols.map fun c => c.getD i 0 }

end Mat

/-- `np.identity(N)` by columns (or rows, it is symmetric).  See gauss_mod_p.py:69. -/
def identityCols (N : Nat) : List (List Int) :=
  (List.range N).map fun j => (List.range N).map fun i => if i = j then 1 else 0

end Permaviss
