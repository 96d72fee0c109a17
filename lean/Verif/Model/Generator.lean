import Verif.Model.Samples

/-!
# `sample_point_clouds/examples.py` with the random number generator

`np.random` has one generator for the whole process.  A state of it gives the next number and the next state; a seed
gives a state.  The functions are written again, as they draw one number after the other.
-/

namespace Permaviss

/-- The generator behind `np.random.rand()` and `np.random.seed(seed)`, examples.py:29-34, 95-100. -/
structure Generator (σ : Type) where
  next : σ → ℝ × σ
  seeded : Int → σ

variable {σ : Type} (G : Generator σ)

/-- `if seed != None: np.random.seed(seed)`, examples.py:29-30 and 95-96. -/
def Generator.start (seed : Option Int) (s : σ) : σ :=
  match seed with
  | none => s
  | some k => G.seeded k

/-- `for d in range(dim)` with one draw in each round, examples.py:131-132, 164-165 and 197-198. -/
def Generator.drawList : Nat → σ → List ℝ × σ
  | 0, s => ([], s)
  | n + 1, s =>
    let x := G.next s
    let l := Generator.drawList n x.2
    (x.1 :: l.1, l.2)

/-- `for n in range(no_points)` with one point in each round, examples.py:98-102, 162-172, 195-200 and 283-289. -/
def genPoints (f : σ → List ℝ × σ) : Nat → σ → List (List ℝ) × σ
  | 0, s => ([], s)
  | n + 1, s =>
    let x := f s
    let l := genPoints f n x.2
    (x.1 :: l.1, l.2)

/-- `take_sample(point_cloud, no_samples, seed)`, examples.py:6-44: one draw, at line 34. -/
noncomputable def takeSampleGen (d : List ℝ → List ℝ → ℝ) (cloud : List (List ℝ)) (noSamples : Int) (seed : Option Int)
    (s : σ) : Except PyErr (List (List ℝ)) × σ :=
  let x := G.next (G.start seed s)
  (takeSample d cloud noSamples x.1, x.2)

/-- A point of `random_circle`, examples.py:99-102: the angle is drawn first. -/
noncomputable def circlePointGen (radius epsilon : ℝ) (center : ℝ × ℝ) (s : σ) : List ℝ × σ :=
  let a := G.next s
  let b := G.next a.2
  let angle := a.1 * 2 * Real.pi
  let rad := radius * (1 + b.1 * epsilon)
  ([center.1 + rad * Real.cos angle, center.2 + rad * Real.sin angle], b.2)

/-- `random_circle(no_points, radius, epsilon, center, seed)`, examples.py:73-104. -/
noncomputable def randomCircleGen (noPoints : Nat) (radius epsilon : ℝ) (center : ℝ × ℝ) (seed : Option Int) (s : σ) :
    List (List ℝ) × σ :=
  genPoints (circlePointGen G radius epsilon center) noPoints (G.start seed s)

open Classical in
/-- `while valid_point is False`, examples.py:129-137, with fuel. -/
noncomputable def ballPointGen (radius : ℝ) (dim : Nat) : Nat → σ → Except PyErr (List ℝ) × σ
  | 0, s => (.error .outOfFuel, s)
  | fuel + 1, s =>
    let x := G.drawList dim s
    let point := x.1.map fun t => (t - 1 / 2) * radius
    if npNorm point < radius then (.ok point, x.2) else ballPointGen radius dim fuel x.2

/-- `ball(no_points, radius, dim)`, examples.py:107-139. -/
noncomputable def ballGen (fuel : Nat) (radius : ℝ) (dim : Nat) : Nat → σ → Except PyErr (List (List ℝ)) × σ
  | 0, s => (.ok [], s)
  | n + 1, s =>
    match ballPointGen G radius dim fuel s with
    | (.error e, s) => (.error e, s)
    | (.ok x, s) =>
      match ballGen fuel radius dim n s with
      | (.error e, s) => (.error e, s)
      | (.ok l, s) => (.ok (x :: l), s)

/-- A point of `random_sphere`, examples.py:163-172. -/
noncomputable def spherePointGen (radius : ℝ) (dim : Nat) (s : σ) : List ℝ × σ :=
  let x := G.drawList dim s
  let point := x.1.map fun t => (t - 1 / 2) * radius
  (point.map fun t => t / npNorm point, x.2)

/-- `random_sphere(no_points, radius, dim)`, examples.py:142-174; see `randomSphere` for a division by zero. -/
noncomputable def randomSphereGen (noPoints : Nat) (radius : ℝ) (dim : Nat) (s : σ) : List (List ℝ) × σ :=
  genPoints (spherePointGen G radius dim) noPoints s

/-- A point of `random_cube`, examples.py:196-200. -/
noncomputable def cubePointGen (dim : Nat) (s : σ) : List ℝ × σ :=
  let x := G.drawList dim s
  (x.1.map fun t => t - 1 / 2, x.2)

/-- `random_cube(no_points, dim)`, examples.py:177-202. -/
noncomputable def randomCubeGen (noPoints dim : Nat) (s : σ) : List (List ℝ) × σ :=
  genPoints (cubePointGen G dim) noPoints s

/-- A point of `torus3D`, examples.py:284-289: `theta` is drawn first. -/
noncomputable def torusPointGen (minRad maxRad : ℝ) (s : σ) : List ℝ × σ :=
  let t := G.next s
  let a := G.next t.2
  let theta := t.1 * 2 * Real.pi
  let alpha := a.1 * 2 * Real.pi
  ([(maxRad + minRad * Real.cos alpha) * Real.cos theta, (maxRad + minRad * Real.cos alpha) * Real.sin theta,
    minRad * Real.sin alpha], a.2)

open Classical in
/-- `torus3D(no_points, min_rad, max_rad)`, examples.py:262-290: nothing is drawn if it raises. -/
noncomputable def torus3DGen (noPoints : Nat) (minRad maxRad : ℝ) (s : σ) : Except PyErr (List (List ℝ)) × σ :=
  if minRad > maxRad then (.error .valueError, s)
  else
    let l := genPoints (torusPointGen G minRad maxRad) noPoints s
    (.ok l.1, l.2)

/-- A call of one of the functions that draw numbers, of a program that uses the library.
See examples.py:6, 73, 107, 142, 177 and 262. -/
inductive SampleCall where
  | takeSample (cloud : List (List ℝ)) (noSamples : Int) (seed : Option Int)
  | randomCircle (noPoints : Nat) (radius epsilon : ℝ) (center : ℝ × ℝ) (seed : Option Int)
  | ball (noPoints : Nat) (radius : ℝ) (dim : Nat)
  | randomSphere (noPoints : Nat) (radius : ℝ) (dim : Nat)
  | randomCube (noPoints dim : Nat)
  | torus3D (noPoints : Nat) (minRad maxRad : ℝ)

/-- What a call returns, and the generator after it.  See examples.py:6-290. -/
noncomputable def SampleCall.run (d : List ℝ → List ℝ → ℝ) (fuel : Nat) :
    SampleCall → σ → Except PyErr (List (List ℝ)) × σ
  | .takeSample cloud k seed, s => takeSampleGen G d cloud k seed s
  | .randomCircle n r e c seed, s => let x := randomCircleGen G n r e c seed s; (.ok x.1, x.2)
  | .ball n r dim, s => ballGen G fuel r dim n s
  | .randomSphere n r dim, s => let x := randomSphereGen G n r dim s; (.ok x.1, x.2)
  | .randomCube n dim, s => let x := randomCubeGen G n dim s; (.ok x.1, x.2)
  | .torus3D n r R, s => torus3DGen G n r R s

/-- Calls one after the other; an exception is caught by the program.
See examples.py:6-290; the calls themselves are not in the library. -/
noncomputable def runCalls (d : List ℝ → List ℝ → ℝ) (fuel : Nat) :
    List SampleCall → σ → List (Except PyErr (List (List ℝ))) × σ
  | [], s => ([], s)
  | c :: l, s =>
    let x := c.run G d fuel s
    let y := runCalls d fuel l x.2
    (x.1 :: y.1, y.2)

end Permaviss
