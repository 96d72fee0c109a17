import Verif.Model.Py
import Mathlib.Algebra.Order.Floor.Ring
import Mathlib.Algebra.Order.Field.Basic
import Mathlib.Analysis.SpecialFunctions.Trigonometric.Basic
import Mathlib.Analysis.SpecialFunctions.Sqrt

/-!
# `sample_point_clouds/examples.py`

Coordinates live in an ordered field, or in the real numbers where the code uses trigonometry or a
norm: floating point rounding is not modelled.  The successive values of `np.random.rand()` are a
sequence `rand : ℕ → ℝ`; see `Model/Generator` for the generator and its seeds.
-/

namespace Permaviss

section Sample

variable {K : Type} [Field K] [LinearOrder K] [FloorRing K]

/-- The position of a list of length `n` that Python's index `k` stands for, used at examples.py:36,
39 and 42. -/
def pyIdx (n : Nat) (k : Int) : Nat := if k < 0 then (k + n).toNat else k.toNat

/-- `dist.squareform(dist.pdist(point_cloud))` at `(i, j)`, examples.py:33.  `d` is the distance of
two points; the diagonal is filled with zeros, and the two halves with the same value. -/
def squareform (d : List K → List K → K) (cloud : List (List K)) (i j : Nat) : K :=
  if i = j then 0 else d (cloud.getD (min i j) []) (cloud.getD (max i j) [])

/-- `np.min` of a nonempty array, examples.py:39. -/
def npMin : List K → K
  | [] => 0
  | x :: xs => xs.foldr min x

/-- `np.max` of a nonempty array.  See examples.py:40. -/
def npMax : List K → K
  | [] => 0
  | x :: xs => xs.foldr max x

/-- `np.argmax`, examples.py:40: the first position of the largest entry. -/
def npArgmax (l : List K) : Nat := l.idxOf (npMax l)

/-- `not_selected`, examples.py:38.  Indices are compared as they are stored, so `-1` does not remove
the last point. -/
def notSelected (n : Nat) (sel : List Int) : List Nat :=
  (List.range n).filter fun i => decide ((i : Int) ∉ sel)

/-- One round of the loop, examples.py:38-42.  `np.argmax` of an empty array raises `ValueError`. -/
def takeStep (D : Nat → Nat → K) (n : Nat) (sel : List Int) : Except PyErr (List Int) :=
  if notSelected n sel = [] then .error .valueError
  else .ok (sel ++ [(((notSelected n sel).getD
    (npArgmax ((notSelected n sel).map fun i => npMin (sel.map fun s => D i (pyIdx n s)))) 0 : Nat) :
      Int)])

/-- `take_sample(point_cloud, no_samples)`, examples.py:6-44; `u` is the value of `np.random.rand()`
at line 34.  `int` of a nonnegative number is its floor.  For an empty cloud line 36 raises
`IndexError`. -/
def takeSample (d : List K → List K → K) (cloud : List (List K)) (noSamples : Int) (u : K) :
    Except PyErr (List (List K)) :=
  if cloud = [] then .error .indexError
  else do
    let sel ← (List.range (min (cloud.length : Int) noSamples - 1).toNat).foldlM
      (fun sel _ => takeStep (squareform d cloud) cloud.length sel)
      [⌊u * (cloud.length : K)⌋ - 1]
    pure (sel.map fun s => cloud.getD (pyIdx cloud.length s) [])

/-- `grid(hdiv, vdiv)`, examples.py:205-228. -/
def grid (hdiv vdiv : Nat) : List (List K) :=
  (List.range hdiv).flatMap fun i : ℕ => (List.range vdiv).map fun j : ℕ =>
    [(i : K) - ((hdiv : K) / 2 - 1 / 2), (j : K) - ((vdiv : K) / 2 - 1 / 2)]

/-- `grid_tridimensional(hdiv, vdiv, ddiv)`, examples.py:231-259. -/
def gridTridimensional (hdiv vdiv ddiv : Nat) : List (List K) :=
  (List.range hdiv).flatMap fun i : ℕ => (List.range vdiv).flatMap fun j : ℕ => (List.range ddiv).map fun k : ℕ =>
    [(i : K) - ((hdiv : K) / 2 - 1 / 2), (j : K) - ((vdiv : K) / 2 - 1 / 2),
      (k : K) - ((ddiv : K) / 2 - 1 / 2)]

end Sample

/-- `circle(no_points, radius)`, examples.py:47-70.  Line 65 divides by `no_points`. -/
noncomputable def circle (noPoints : Nat) (radius : ℝ) : Except PyErr (List (List ℝ)) :=
  if noPoints = 0 then .error .zeroDivisionError
  else .ok ((List.range noPoints).map fun n : ℕ =>
    [radius * Real.cos ((n : ℝ) * (2 * Real.pi / (noPoints : ℝ))),
      radius * Real.sin ((n : ℝ) * (2 * Real.pi / (noPoints : ℝ)))])

/-- `random_circle(no_points, radius, epsilon, center)`, examples.py:73-104.  Round `n` uses the draws
`2 n` and `2 n + 1`. -/
noncomputable def randomCircle (rand : ℕ → ℝ) (noPoints : Nat) (radius epsilon : ℝ) (center : ℝ × ℝ) :
    List (List ℝ) :=
  (List.range noPoints).map fun n : ℕ =>
    [center.1 + (radius * (1 + rand (2 * n + 1) * epsilon)) * Real.cos (rand (2 * n) * 2 * Real.pi),
      center.2 + (radius * (1 + rand (2 * n + 1) * epsilon)) * Real.sin (rand (2 * n) * 2 * Real.pi)]

/-- `np.linalg.norm` of a vector, examples.py:135 and 168. -/
noncomputable def npNorm (v : List ℝ) : ℝ := Real.sqrt ((v.map fun x => x ^ 2).sum)

/-- The coordinates drawn from position `pos` of the random sequence, examples.py:130-132 and
163-165. -/
noncomputable def drawPoint (rand : ℕ → ℝ) (pos dim : Nat) (radius : ℝ) : List ℝ :=
  (List.range dim).map fun d : ℕ => (rand (pos + d) - 1 / 2) * radius

open Classical in
/-- `while valid_point is False`, examples.py:129-137, with fuel.  Returns the point and the position
reached in the random sequence. -/
noncomputable def ballPoint (rand : ℕ → ℝ) (radius : ℝ) (dim : Nat) :
    Nat → Nat → Except PyErr (List ℝ × Nat)
  | 0, _ => .error .outOfFuel
  | fuel + 1, pos =>
      if npNorm (drawPoint rand pos dim radius) < radius then
        .ok (drawPoint rand pos dim radius, pos + dim)
      else ballPoint rand radius dim fuel (pos + dim)

/-- `for n in range(no_points)`, examples.py:127-137. -/
noncomputable def ballLoop (rand : ℕ → ℝ) (radius : ℝ) (dim fuel : Nat) :
    Nat → Nat → Except PyErr (List (List ℝ))
  | 0, _ => .ok []
  | k + 1, pos => do
      let x ← ballPoint rand radius dim fuel pos
      let rest ← ballLoop rand radius dim fuel k x.2
      pure (x.1 :: rest)

/-- `ball(no_points, radius, dim)`, examples.py:107-139. -/
noncomputable def ball (rand : ℕ → ℝ) (fuel noPoints : Nat) (radius : ℝ) (dim : Nat) :
    Except PyErr (List (List ℝ)) :=
  ballLoop rand radius dim fuel noPoints 0

/-- `random_sphere(no_points, radius, dim)`, examples.py:142-174.  When all draws of a point are
`1/2` the code divides zero by zero and returns NaN; the model returns zeros there, and no theorem
speaks about this case. -/
noncomputable def randomSphere (rand : ℕ → ℝ) (noPoints : Nat) (radius : ℝ) (dim : Nat) :
    List (List ℝ) :=
  (List.range noPoints).map fun n : ℕ =>
    (drawPoint rand (n * dim) dim radius).map fun x => x / npNorm (drawPoint rand (n * dim) dim radius)

/-- `random_cube(no_points, dim)`, examples.py:177-202. -/
noncomputable def randomCube (rand : ℕ → ℝ) (noPoints dim : Nat) : List (List ℝ) :=
  (List.range noPoints).map fun n : ℕ => (List.range dim).map fun d : ℕ => rand (n * dim + d) - 1 / 2

open Classical in
/-- `torus3D(no_points, min_rad, max_rad)`, examples.py:262-290.  Round `i` uses the draws `2 i` and
`2 i + 1`. -/
noncomputable def torus3D (rand : ℕ → ℝ) (noPoints : Nat) (minRad maxRad : ℝ) :
    Except PyErr (List (List ℝ)) :=
  if minRad > maxRad then .error .valueError
  else .ok ((List.range noPoints).map fun i : ℕ =>
    [(maxRad + minRad * Real.cos (rand (2 * i + 1) * 2 * Real.pi)) *
        Real.cos (rand (2 * i) * 2 * Real.pi),
      (maxRad + minRad * Real.cos (rand (2 * i + 1) * 2 * Real.pi)) *
        Real.sin (rand (2 * i) * 2 * Real.pi),
      minRad * Real.sin (rand (2 * i + 1) * 2 * Real.pi)])

end Permaviss
