import Verif.Model.Arith
import Mathlib.Order.Defs.LinearOrder

/-!
# `gauss_mod_p/gauss_mod_p.py` and `gauss_mod_p/functions.py`
-/

namespace Permaviss

/-- `np.nonzero(v)[0]`: the indices of the nonzero entries, in increasing order.  See gauss_mod_p.py:26. -/
def npNonzero (v : List Int) : List Nat :=
  (List.range v.length).filter fun i => v.getD i 0 ≠ 0

/-- `index_pivot`, gauss_mod_p.py:13-30.  The value `-1` of the code (no nonzero entry) is `none`. -/
def indexPivot (v : List Int) : Option Nat := (npNonzero v).getLast?

/-- `np.any(v)`.  See gauss_mod_p.py:86, 155 and 231. -/
def npAny (v : List Int) : Bool := v.any fun x => x ≠ 0

/-- `q * v` for a scalar `q`.  See gauss_mod_p.py:83-84 and 152-153. -/
def scale (q : Int) (v : List Int) : List Int := v.map fun x => q * x

/-- One left-to-right column operation on `(R[j], T[j])`, gauss_mod_p.py:82-84 (and 151-153):
subtract `q` times column `k`, where `q` cancels the entry in row `pivot`. -/
def cancelPivot (p : Nat) (pivot : Nat) (rtk rtj : List Int × List Int) :
    Except PyErr (List Int × List Int) := do
  let inv ← invModP (rtk.1.getD pivot 0) p
  let q := (rtj.1.getD pivot 0 * inv) % (p : Int)
  pure (addArraysModC rtj.1 (scale (-q) rtk.1) p, addArraysModC rtj.2 (scale (-q) rtk.2) p)

/-- The `while` loop of `gauss_col`, gauss_mod_p.py:72-93, for one column `j`.  `done` is the list of
pairs `(R[k], T[k])`, `k < j`, which the loop only reads; `rt` is the pair `(R[j], T[j])`, the only
one it writes.  The inner `for k … break` takes the first `k` with the same pivot.  The code leaves
the loop when the column has no pivot, when no `k` matches, or when the column just became zero (in
which case the next round of the model stops because there is no pivot). -/
def reduceCol (p : Nat) (done : List (List Int × List Int)) :
    Nat → List Int × List Int → Except PyErr (List Int × List Int)
  | 0, _ => .error .outOfFuel
  | fuel + 1, rt =>
    match indexPivot rt.1 with
    | none => .ok rt
    | some pivot =>
      match done.find? (fun k => indexPivot k.1 == some pivot) with
      | none => .ok rt
      | some rtk => do
        let rt' ← cancelPivot p pivot rtk rt
        reduceCol p done fuel rt'

/-- The loop `for j in range(N)` of `gauss_col`, gauss_mod_p.py:71-94, starting from the finished
columns `done`. -/
def gaussLoop (p : Nat) : List (List Int × List Int) → List (List Int × List Int) →
    Except PyErr (List (List Int × List Int))
  | done, [] => .ok done
  | done, rt :: todo => do
    let rt' ← reduceCol p done (rt.1.length + 1) rt
    gaussLoop p (done ++ [rt']) todo

/-- `gauss_col(A, p)`, gauss_mod_p.py:40-95.  Returns `(R, T)`.  For a matrix without rows the code
returns two empty one dimensional arrays, represented by the empty matrix. -/
def gaussCol (p : Nat) (A : Mat) : Except PyErr (Mat × Mat) :=
  if A.nrows = 0 then .ok (⟨0, []⟩, ⟨0, []⟩)
  else do
    let rts ← gaussLoop p [] (A.cols.zip (identityCols A.cols.length))
    pure (⟨A.nrows, rts.map Prod.fst⟩, ⟨A.cols.length, rts.map Prod.snd⟩)

/-- `multiply_mod_p(A, B, p)`, functions.py:15-19: `np.matmul(A, B) % p`, by columns of `B`. -/
def multiplyModP (p : Nat) (A B : Mat) : Mat :=
  { nrows := A.nrows
    cols := B.cols.map fun b =>
      (List.range A.nrows).map fun i =>
        ((List.range A.cols.length).map fun k => A.get i k * b.getD k 0).sum % (p : Int) }

/-- `-v % p`, entry by entry.  See gauss_mod_p.py:234, functions.py:59 and 97. -/
def negMod (p : Nat) (v : List Int) : List Int := v.map fun x => (-x) % (p : Int)

/-- `solve_mod_p(A, b, p)`, functions.py:26-59.  With no rows `gauss_col` returns a one dimensional
array and `R[:, -1]` raises `IndexError`. -/
def solveModP (p : Nat) (A : Mat) (b : List Int) : Except PyErr (List Int) :=
  if A.nrows = 0 then .error .indexError
  else do
    let RT ← gaussCol p ⟨A.nrows, A.cols ++ [b]⟩
    if npAny (RT.1.cols.getLastD []) then .error .valueError
    else .ok (negMod p (RT.2.cols.getLastD []).dropLast)

/-- `solve_matrix_mod_p(A, B, p)`, functions.py:66-97.  The matrix appended to `A` is `B.T`, whose
columns are the rows of `B`. -/
def solveMatrixModP (p : Nat) (A B : Mat) : Except PyErr Mat :=
  if A.nrows = 0 then .error .indexError
  else do
    let RT ← gaussCol p ⟨A.nrows, A.cols ++ B.transpose.cols⟩
    if (RT.1.cols.drop A.cols.length).any npAny then .error .valueError
    else .ok ⟨A.cols.length,
      (RT.2.cols.drop A.cols.length).map fun t => negMod p (t.take A.cols.length)⟩

section Radii
variable {α : Type} [LinearOrder α]

/-- The loop `for k in range(start_index)` of `gauss_col_rad`, gauss_mod_p.py:145-160, for the column
`j` with radius `rj` and current pivot `pivot`.  `done` lists `(R[k], (Red[k], T[k]))`. The `break`
happens only when the updated column is not zero. -/
def radScan (p : Nat) (rj : α) (pivot : Nat) :
    List (α × (List Int × List Int)) → List Int × List Int → Except PyErr (List Int × List Int)
  | [], rt => .ok rt
  | k :: ks, rt =>
    if k.1 ≤ rj ∧ indexPivot k.2.1 = some pivot then do
      let rt' ← cancelPivot p pivot k.2 rt
      if npAny rt'.1 then .ok rt' else radScan p rj pivot ks rt'
    else radScan p rj pivot ks rt

/-- The `while pivot > -1` loop of `gauss_col_rad`, gauss_mod_p.py:141-168: `RuntimeError` when a
scan leaves the pivot unchanged. -/
def radLoop (p : Nat) (rj : α) (done : List (α × (List Int × List Int))) :
    Nat → List Int × List Int → Except PyErr (List Int × List Int)
  | 0, _ => .error .outOfFuel
  | fuel + 1, rt =>
    match indexPivot rt.1 with
    | none => .ok rt
    | some pivot => do
      let rt' ← radScan p rj pivot done rt
      if indexPivot rt'.1 = some pivot then .error .runtimeError
      else radLoop p rj done fuel rt'

/-- The triples `(R[k], (Red[k], T[k]))` that `gauss_col_rad` starts from, gauss_mod_p.py:131-135:
columns reduced mod `p`, columns of the identity. -/
def radAll (p : Nat) (A : Mat) (R : List α) : List (α × (List Int × List Int)) :=
  R.zip ((A.cols.map fun c => c.map fun x => x % (p : Int)).zip (identityCols A.cols.length))

/-- `gauss_col_rad(A, R, start_index, p)`, gauss_mod_p.py:98-170.  The array is first reduced mod
`p`; columns before `start_index` are only read. `R` must have one radius per column
(`IndexError` otherwise, not modelled: `zip` truncates). -/
def gaussColRad (p : Nat) (A : Mat) (R : List α) (start : Nat) : Except PyErr (Mat × Mat) := do
  let done := (radAll p A R).take start
  let out ← ((radAll p A R).drop start).mapM fun c => radLoop p c.1 done (c.2.1.length + 1) c.2
  let rts := done.map Prod.snd ++ out
  pure (⟨A.nrows, rts.map Prod.fst⟩, ⟨A.cols.length, rts.map Prod.snd⟩)

/-- Indices `i` with `bar[i][0] <= r < bar[i][1]`, gauss_mod_p.py:218-224. -/
def aliveAt (bars : List (α × α)) (r : α) : List Nat :=
  (List.range bars.length).filter fun i =>
    match bars[i]? with
    | some b => b.1 ≤ r ∧ r < b.2
    | none => false

/-- `A[rows][:, cols]`.  See gauss_mod_p.py:229. -/
def subMat (A : Mat) (rows cols : List Nat) : Mat :=
  { nrows := rows.length
    cols := cols.map fun j => rows.map fun i => A.get i j }

/-- Entry `k` of the column written by `coefficients[active_columns[:-1], idx] = coef`,
gauss_mod_p.py:234: zero unless `k` is one of the active columns. -/
def scatter (cols : List Nat) (coef : List Int) (k : Nat) : Int :=
  match cols.idxOf? k with
  | some a => coef.getD a 0
  | none => 0

/-- One round of the loop of `gauss_barcodes`, gauss_mod_p.py:216-234, for the column `j`: the
`idx`-th column of `coefficients`. -/
def gaussBarcodesCol (p : Nat) (A : Mat) (rowBars colBars : List (α × α)) (start j : Nat) (bj : α) :
    Except PyErr (List Int) :=
  let rows := aliveAt rowBars bj
  let cols := aliveAt (colBars.take start) bj
  if rows = [] then .ok (List.replicate start 0)
  else do
    let RT ← gaussCol p (subMat A rows (cols ++ [j]))
    if npAny (RT.1.cols.getLastD []) then .error .runtimeError
    else .ok ((List.range start).map
      (scatter cols (negMod p (RT.2.cols.getLastD []).dropLast)))

/-- The body of the loop of `gauss_barcodes` looks up `col_barcode[j, 0]` first.  See gauss_mod_p.py:216-220. -/
def gaussBarcodesRound (p : Nat) (A : Mat) (rowBars colBars : List (α × α)) (start j : Nat) :
    Except PyErr (List Int) :=
  match colBars[j]? with
  | some b => gaussBarcodesCol p A rowBars colBars start j b.1
  | none => .error .indexError

/-- `gauss_barcodes`, gauss_mod_p.py:173-236.  Returns `coefficients`, by columns.  The barcodes have
one bar per row of `A` (numpy raises `IndexError` otherwise, not modelled). -/
def gaussBarcodes (p : Nat) (A : Mat) (rowBars colBars : List (α × α)) (start : Nat) :
    Except PyErr Mat := do
  let cs ← ((List.range A.cols.length).drop start).mapM
    (gaussBarcodesRound p A rowBars colBars start)
  pure ⟨start, cs⟩

end Radii

end Permaviss
