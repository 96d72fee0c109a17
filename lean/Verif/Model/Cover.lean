import Verif.Model.Complexes
import Mathlib.Algebra.Order.Floor.Ring
import Mathlib.Algebra.Order.Field.Basic

/-!
# `covers/cubical_cover.py`

Coordinates live in an ordered field with a ceiling function: floating point rounding is not modelled.
-/

namespace Permaviss

/-- The search of `next_hypercube` (cubical_cover.py:32-37) on the reversed lists: the first entry
which can be increased is, and the entries before it become zero; `none` when no entry can be
increased.  The lists have the same length. -/
def nextRev : List Nat → List Nat → Option (List Nat)
  | p :: ps, d :: ds =>
      if p + 1 < d then some ((p + 1) :: ps) else (nextRev ps ds).map (0 :: ·)
  | _, _ => none

/-- `next_hypercube(pos, div)`, cubical_cover.py:10-37; returns the new `pos`. -/
def nextHypercube (pos div : List Nat) : List Nat :=
  ((nextRev pos.reverse div.reverse).map List.reverse).getD pos

/-- `pos` at the start of each round of `for i in range(number_hypercubes)`, cubical_cover.py:144-177
and 301-336. -/
def positions (div : List Nat) : List (List Nat) :=
  (List.range div.prod).map fun k => (fun pos => nextHypercube pos div)^[k] (div.map fun _ => 0)

section Cover

variable {K : Type} [Field K] [LinearOrder K] [FloorRing K]

/-- `np.amin(point_cloud, axis=0)` on column `d`, cubical_cover.py:233. -/
def minCoord (cloud : List (List K)) (d : Nat) : K :=
  (cloud.map fun x => x.getD d 0).foldr min ((cloud.headD []).getD d 0)

/-- `np.amax(point_cloud, axis=0)` on column `d`, cubical_cover.py:234. -/
def maxCoord (cloud : List (List K)) (d : Nat) : K :=
  (cloud.map fun x => x.getD d 0).foldr max ((cloud.headD []).getD d 0)

/-- `np.amax(np.absolute(max_corner - min_corner))`, cubical_cover.py:121. -/
def maxLength (dim : Nat) (cloud : List (List K)) : K :=
  ((List.range dim).map fun d => |maxCoord cloud d - minCoord cloud d|).foldr max 0

/-- `side`, cubical_cover.py:122. -/
def coverSide (maxDiv : Nat) (dim : Nat) (cloud : List (List K)) : K :=
  maxLength dim cloud / (maxDiv : K)

/-- `div`, cubical_cover.py:126-127.  The ceiling of a nonnegative number is read as a natural
number. -/
def coverDiv (maxDiv : Nat) (dim : Nat) (cloud : List (List K)) : List Nat :=
  (List.range dim).map fun d =>
    (⌈(maxCoord cloud d - minCoord cloud d) / coverSide maxDiv dim cloud⌉).toNat

/-- The test of cubical_cover.py:160-168 with the corners of cubical_cover.py:146-154. -/
def inHypercube (side overlap : K) (dim : Nat) (cloud : List (List K)) (pos : List Nat) (pt : List K) :
    Bool :=
  (List.range dim).all fun k =>
    !(decide (minCoord cloud k + side * (pos.getD k 0 : K) - ((overlap / 2 + side / 2) - side / 2) >
        pt.getD k 0) ||
      decide (minCoord cloud k + side * (pos.getD k 0 : K) + ((overlap / 2 + side / 2) + side / 2) <
        pt.getD k 0))

/-- `points_IN[i]`, cubical_cover.py:159-172. -/
def cubePoints (side overlap : K) (dim : Nat) (cloud : List (List K)) (pos : List Nat) : List Nat :=
  (List.range cloud.length).filter fun i =>
    inHypercube side overlap dim cloud pos (cloud.getD i [])

/-- `intersection_covers(points_IN, simplex)`, cubical_cover.py:344-375, for a nonempty simplex; an
index out of range raises `IndexError`. -/
def intersectionCovers (pointsIN : List (List Nat)) (simplex : List Nat) : Except PyErr (List Nat) :=
  match simplex with
  | [] => .error .indexError
  | s :: rest =>
    match pointsIN[s]? with
    | none => .error .indexError
    | some first =>
      rest.foldlM (fun acc k =>
        match pointsIN[k]? with
        | none => if acc = [] then .ok [] else .error .indexError
        | some l => .ok (acc.filter fun i => decide (i ∈ l))) first

end Cover

/-! ## The nerve -/

/-- The advance of `neighbour_step` on the reversed list, cubical_cover.py:329-334. -/
def stepRev : List Int → Option (List Int)
  | [] => none
  | s :: ss => if s < 1 then some ((s + 1) :: ss) else (stepRev ss).map ((-1) :: ·)

/-- The values of `neighbour_step` in the loop `while np.any(neighbour_step < 0)`,
cubical_cover.py:303-334, most significant entry last; bounded by fuel. -/
def stepLoop : Nat → List Int → Except PyErr (List (List Int))
  | 0, _ => .error .outOfFuel
  | fuel + 1, s =>
    if s.any (fun x => decide (x < 0)) then
      match stepLoop fuel ((stepRev s).getD s) with
      | .error e => .error e
      | .ok l => .ok (s :: l)
    else .ok []

/-- `neighbour_step` over the whole loop, in the order of the coordinates.  See cubical_cover.py:303-334. -/
def neighbourSteps (dim : Nat) : Except PyErr (List (List Int)) :=
  match stepLoop (3 ^ dim) (List.replicate dim (-1)) with
  | .error e => .error e
  | .ok l => .ok (l.map List.reverse)

/-- The sum of cubical_cover.py:317-318 over the reversed lists: `Σ step[-i-1] * Π_{j<i} div[-j-1]`. -/
def offsetRev : List Int → List Nat → Int
  | s :: ss, d :: ds => s + (d : Int) * offsetRev ss ds
  | _, _ => 0

/-- `neighbour_index`, cubical_cover.py:306-318.  The loop stops with `-1` at the first coordinate in
which the neighbour would leave the grid. -/
def neighbourIndex (div pos : List Nat) (current : Nat) (step : List Int) : Int :=
  if (List.range div.length).any (fun i =>
      (pos.getD i 0 == 0 && step.getD i 0 == -1) ||
      ((pos.getD i 0 : Int) == (div.getD i 0 : Int) - 1 && step.getD i 0 == 1)) then -1
  else (current : Int) + offsetRev step.reverse div.reverse

/-- `sorted([a, b])`.  See cubical_cover.py:320-326. -/
def sortedPair (a b : Nat) : List Nat := if a ≤ b then [a, b] else [b, a]

/-- Adding the edges of one hypercube, cubical_cover.py:305-326. -/
def addEdges (div pos : List Nat) (current : Nat) (steps : List (List Int))
    (graph : List (List Nat)) : List (List Nat) :=
  steps.foldl (fun graph step =>
    if 0 ≤ neighbourIndex div pos current step ∧
        sortedPair (neighbourIndex div pos current step).toNat current ∉ graph then
      graph ++ [sortedPair (neighbourIndex div pos current step).toNat current]
    else graph) graph

/-- `nerve_graph`, cubical_cover.py:300-336. -/
def nerveGraph (div : List Nat) : Except PyErr (List (List Nat)) :=
  match neighbourSteps div.length with
  | .error e => .error e
  | .ok steps => .ok
      (((positions div).zip (List.range div.prod)).foldl
        (fun graph x => addEdges div x.1 x.2 steps graph) [])

/-- `nerve_hypercube_cover(div)`, cubical_cover.py:242-338. -/
def nerveHypercubeCover (div : List Nat) : Except PyErr (Nat × List (List (List Nat))) :=
  match nerveGraph div with
  | .error e => .error e
  | .ok G => flagComplex G div.prod ((2 ^ div.length : Nat) : Int)

section Cover

variable {K : Type} [Field K] [LinearOrder K] [FloorRing K]

/-- The result of `generate_cover`: point clouds, identification numbers and nerve.  See cubical_cover.py:196. -/
structure CoverOut (K : Type) where
  clouds : List (List (List (List K)))
  pointsIN : List (List (List Nat))
  nerve : Nat × List (List (List Nat))

/-- The nerve and the intersections, cubical_cover.py:177-196, when the cube at position `pos` has the points
`pts pos`. -/
def coverOf (cloud : List (List K)) (div : List Nat) (pts : List Nat → List Nat) : Except PyErr (CoverOut K) :=
  match nerveHypercubeCover div with
  | .error e => .error e
  | .ok nerve =>
    match nerve.2.mapM fun simplices => simplices.mapM (intersectionCovers ((positions div).map pts)) with
    | .error e => .error e
    | .ok inter =>
      .ok {
        pointsIN := (positions div).map pts :: inter
        clouds := ((positions div).map pts :: inter).map fun l =>
            l.map fun idx => idx.map fun i => cloud.getD i []
        nerve := nerve }

/-- `generate_cover(max_div, overlap, point_cloud)`, cubical_cover.py:43-196, for a two dimensional
array with `dim` columns.  An empty array, and a cloud whose points all coincide (`0 / 0` is NaN and
`math.ceil(nan)` raises) give `ValueError`.  `max_div = 0` is not modelled (infinite sides). -/
def generateCover (maxDiv : Nat) (overlap : K) (dim : Nat) (cloud : List (List K)) :
    Except PyErr (CoverOut K) :=
  if cloud = [] ∨ coverSide maxDiv dim cloud = 0 then .error .valueError
  else coverOf cloud (coverDiv maxDiv dim cloud) (cubePoints (coverSide maxDiv dim cloud) overlap dim cloud)

end Cover

end Permaviss
