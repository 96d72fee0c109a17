import Verif.Model.MV
import Verif.Spec.Rounding

/-!
# `generate_cover` on arrays of numbers of bounded precision

The definitions of `Model/Cover` compute with exact numbers.  Here every arithmetic operation on coordinates is
followed by a rounding `op`, and every number that is written to one of the arrays `lcor` and `ucor` is converted by
`store` to the type of the entries of the cloud: `np.copy(min_corner)` has the type of the cloud, so that for arrays
of integers `lcor[d] += side * pos[d]` drops the digits after the point.
-/

namespace Permaviss

section

variable {K : Type} [Field K] [LinearOrder K] [FloorRing K] (R : Rounding K)

/-- `max_corner[d] - min_corner[d]`, cubical_cover.py:121 and 127. -/
def widthR (cloud : List (List K)) (d : Nat) : K := R.op (maxCoord cloud d - minCoord cloud d)

/-- `np.amax(np.absolute(max_corner - min_corner))`, cubical_cover.py:121. -/
def maxLengthR (dim : Nat) (cloud : List (List K)) : K :=
  ((List.range dim).map fun d => |widthR R cloud d|).foldr max 0

/-- `side`, cubical_cover.py:122. -/
def sideR (maxDiv dim : Nat) (cloud : List (List K)) : K := R.op (maxLengthR R dim cloud / (maxDiv : K))

/-- `div`, cubical_cover.py:126-127. -/
def divR (maxDiv dim : Nat) (cloud : List (List K)) : List Nat :=
  (List.range dim).map fun d => (⌈R.op (widthR R cloud d / sideR R maxDiv dim cloud)⌉).toNat

/-- `side / 2.`, cubical_cover.py:142 and 153-154. -/
def halfR (side : K) : K := R.op (side / 2)

/-- `dist`, cubical_cover.py:142. -/
def distR (side overlap : K) : K := R.op (R.op (overlap / 2) + halfR R side)

/-- `lcor[d]` and `ucor[d]` after cubical_cover.py:150-151. -/
def baseR (lo side : K) (i : Nat) : K := R.store (R.op (lo + R.op (side * (i : K))))

/-- `lcor[d]`, cubical_cover.py:146-153. -/
def lcorR (lo side overlap : K) (i : Nat) : K :=
  R.store (R.op (baseR R lo side i - R.op (distR R side overlap - halfR R side)))

/-- `ucor[d]`, cubical_cover.py:147-154. -/
def ucorR (lo side overlap : K) (i : Nat) : K :=
  R.store (R.op (baseR R lo side i + R.op (distR R side overlap + halfR R side)))

/-- The test of cubical_cover.py:160-168. -/
def inHypercubeR (side overlap : K) (dim : Nat) (cloud : List (List K)) (pos : List Nat) (pt : List K) : Bool :=
  (List.range dim).all fun k =>
    !(decide (lcorR R (minCoord cloud k) side overlap (pos.getD k 0) > pt.getD k 0) ||
      decide (ucorR R (minCoord cloud k) side overlap (pos.getD k 0) < pt.getD k 0))

/-- `points_IN[i]`, cubical_cover.py:159-172. -/
def cubePointsR (side overlap : K) (dim : Nat) (cloud : List (List K)) (pos : List Nat) : List Nat :=
  (List.range cloud.length).filter fun i => inHypercubeR R side overlap dim cloud pos (cloud.getD i [])

/-- `generate_cover(max_div, overlap, point_cloud)`, cubical_cover.py:43-196.  A side which is zero raises an
exception (`ValueError` for a cloud whose points coincide, `OverflowError` if the side was rounded to zero); both
are `ValueError` here. -/
def generateCoverR (maxDiv : Nat) (overlap : K) (dim : Nat) (cloud : List (List K)) : Except PyErr (CoverOut K) :=
  if cloud = [] ∨ sideR R maxDiv dim cloud = 0 then .error .valueError
  else coverOf cloud (divR R maxDiv dim cloud) (cubePointsR R (sideR R maxDiv dim cloud) overlap dim cloud)

/-- `create_MV_ss(point_cloud, max_r, max_dim, max_div, overlap, p)`, MV_spectral_seq.py:27-280, with rounding in the
computation of the cover; see `createMVss`. -/
def createMVssR (pdist : List (List K) → List (List K)) (argsort : List K → List Nat) (rnd : K → K)
    (maxR : K) (maxDim maxDiv : Nat) (overlap : K) (dim : Nat) (cloud : List (List K)) (p : Nat) :
    Except PyErr (MVOut K) := do
  let cover ← generateCoverR R maxDiv overlap dim cloud
  let E ← envOf pdist argsort rnd maxR maxDim p cover
  let S ← allPages rnd E (E.spxNumber.length - 1)
  let ph ← persistentList rnd E S E.spxNumber.length
  pure { env := E, pages := S, persistentHomology := ph }

end

end Permaviss
