import Mathlib.Data.List.Sort
import Mathlib.Data.List.Dedup
import Mathlib.Order.Nat
import Mathlib.Order.Lattice
import Verif.Model.Py

/-!
# Flag complexes, Vietoris-Rips complexes and their differentials

Models of `simplicial_complexes/flag_complex.py`, `vietoris_rips.py` and `differentials.py`.

A simplex is the list of its vertices, as the row of the numpy array that stores it.  A complex is
`C[0]`, the number of vertices, together with the list `C[1], C[2], ...`.
-/

namespace Permaviss

/-- `np.unique(l)`: the distinct values in increasing order.  Used in flag_complex.py:32 and
barcode_bases.py:259. -/
def npUnique {α : Type} [LinearOrder α] (l : List α) : List α := (l.dedup).insertionSort (· ≤ ·)

/-- `np.intersect1d(a, b)`: the sorted common values.  Used in flag_complex.py:78,
differentials.py:46. -/
def npIntersect1d (a b : List Nat) : List Nat := npUnique (a.filter fun x => decide (x ∈ b))

/-- `np.setdiff1d(a, b)`: the sorted values of `a` not in `b`.  Used in differentials.py:47. -/
def npSetdiff1d (a b : List Nat) : List Nat := npUnique (a.filter fun x => decide (x ∉ b))

/-- `np.searchsorted(s, v)` on a sorted array: the number of entries smaller than `v`.  Used in
differentials.py:49. -/
def npSearchsorted (s : List Nat) (v : Nat) : Nat := (s.filter fun x => decide (x < v)).length

/-! ## flag_complex.py -/

/-- `max(e)` for a row of the edge matrix (flag_complex.py:29). -/
def rowMax (e : List Nat) : Nat := e.foldl max 0

/-- `min(e)` for a row of the edge matrix (flag_complex.py:30). -/
def rowMin : List Nat → Nat
  | [] => 0
  | x :: xs => xs.foldl min x

/-- `_lower_neighbours(G, u)`, flag_complex.py:10-32. -/
def flagLower (G : List (List Nat)) (u : Nat) : List Nat :=
  npUnique ((G.filter fun e => decide (rowMax e = u)).map rowMin)

/-- The vertices `N` that extend a simplex, flag_complex.py:76-78.  The empty simplex, on which
Python would raise `IndexError`, never occurs: edges are rows of two entries. -/
def flagCommon (G : List (List Nat)) : List Nat → List Nat
  | [] => []
  | u :: rest => rest.foldl (fun N v => npIntersect1d N (flagLower G v)) (flagLower G u)

/-- One step `d → d + 1` of the loop, flag_complex.py:75-88: for every simplex in order, one row
`[n] + simplex` for every `n` in `N`. -/
def flagNext (G : List (List Nat)) (S : List (List Nat)) : List (List Nat) :=
  S.flatMap fun s => (flagCommon G s).map fun n => n :: s

/-- `fl_cpx[d + 1]`, flag_complex.py:71-88. -/
def flagLevel (G : List (List Nat)) : Nat → List (List Nat)
  | 0 => G
  | d + 1 => flagNext G (flagLevel G d)

/-- `flag_complex(G, no_vertices, max_dim)`, flag_complex.py:38-90.  The pair is `fl_cpx[0]` and
`fl_cpx[1:]`. -/
def flagComplex (G : List (List Nat)) (noVertices : Nat) (maxDim : Int) :
    Except PyErr (Nat × List (List (List Nat))) :=
  if maxDim < 0 then .error .valueError
  else .ok (noVertices, (List.range maxDim.toNat).map (flagLevel G))

/-! ## vietoris_rips.py -/

section VR

variable {α : Type} [LinearOrder α] [Zero α]

/-- `Dist[i][j]`.  See vietoris_rips.py:74-76 and 98-99. -/
def distAt (Dist : List (List α)) (i j : Nat) : α := (Dist.getD i []).getD j 0

/-- The edges with their radii in order of discovery, vietoris_rips.py:72-76. -/
def vrEdges (Dist : List (List α)) (maxR : α) : List (List Nat × α) :=
  (List.range Dist.length).flatMap fun i =>
    ((List.range i).filter fun j => decide (distAt Dist i j < maxR)).map fun j =>
      ([j, i], distAt Dist i j)

/-- Sorting by radius, vietoris_rips.py:79-82 and 105-108: `sort_R = np.argsort(R)`, then `R[sort_R]`
and `C[sort_R]`.  `argsort` is a parameter: numpy's default sort is not stable, so nothing is
assumed of the order among equal radii. -/
def vrSort (argsort : List α → List Nat) (l : List (List Nat × α)) : List (List Nat × α) :=
  (argsort (l.map Prod.snd)).filterMap fun i => l[i]?

/-- `_lower_neighbours(G, u)`, vietoris_rips.py:8-31. -/
def vrLower (E : List (List Nat)) (u : Nat) : List Nat :=
  ((E.filter fun e => decide (e.getD 1 0 = u)).map fun e => e.getD 0 0).insertionSort (· ≤ ·)

/-- `low_n`, vietoris_rips.py:90-93.  The empty simplex never occurs. -/
def vrCommon (E : List (List Nat)) : List Nat → List Nat
  | [] => []
  | u :: rest =>
      rest.foldl (fun N v => N.filter fun n => decide (n ∈ vrLower E v)) (vrLower E u)

/-- `simplex_rad`, vietoris_rips.py:96-99. -/
def vrRad (Dist : List (List α)) (n : Nat) (s : List Nat) (r : α) : α :=
  s.foldl (fun acc v => if distAt Dist v n > acc then distAt Dist v n else acc) r

/-- One step `d → d + 1` before sorting, vietoris_rips.py:87-102. -/
def vrNext (Dist : List (List α)) (E : List (List Nat)) (L : List (List Nat × α)) :
    List (List Nat × α) :=
  L.flatMap fun sr => (vrCommon E sr.1).map fun n => (n :: sr.1, vrRad Dist n sr.1 sr.2)

/-- `C[d + 1]` zipped with `R[d + 1]`, vietoris_rips.py:72-108. -/
def vrLevel (argsort : List α → List Nat) (Dist : List (List α)) (maxR : α) :
    Nat → List (List Nat × α)
  | 0 => vrSort argsort (vrEdges Dist maxR)
  | d + 1 =>
      vrSort argsort
        (vrNext Dist ((vrSort argsort (vrEdges Dist maxR)).map Prod.fst)
          (vrLevel argsort Dist maxR d))

/-- The output of `vietoris_rips`: `C[0]`, `C[1:]`, `R[0]`, `R[1:]`.  See vietoris_rips.py:114. -/
structure VRComplex (α : Type) where
  verts : Nat
  simplices : List (List (List Nat))
  rad0 : List α
  rads : List (List α)
  deriving DecidableEq

/-- `vietoris_rips(Dist, max_r, max_dim)`, vietoris_rips.py:34-114. -/
def vietorisRips (argsort : List α → List Nat) (Dist : List (List α)) (maxR : α) (maxDim : Int) :
    VRComplex α :=
  let m : Nat := if maxDim < 1 then 1 else maxDim.toNat
  { verts := Dist.length
    simplices := (List.range m).map fun d => (vrLevel argsort Dist maxR d).map Prod.fst
    rad0 := List.replicate Dist.length 0
    rads := (List.range m).map fun d => (vrLevel argsort Dist maxR d).map Prod.snd }

/-- A stable argsort, one of the sorts that satisfy what is assumed of `np.argsort`; used for
examples and replayed tests.  See vietoris_rips.py:79 and 105. -/
def stableArgsort (l : List α) : List Nat :=
  ((l.zip (List.range l.length)).insertionSort fun a b => a.1 ≤ b.1).map Prod.snd

end VR

/-! ## differentials.py -/

/-- One column of `D[1]`, differentials.py:30-33: the second assignment wins. -/
def diffEdge (p : Nat) (n : Nat) (c : List Nat) : List Int :=
  (List.range n).map fun i =>
    if i = c.getD 1 0 then (p : Int) - 1 else if i = c.getD 0 0 then 1 else 0

/-- The entry of `D[d]` for the face `c` and the simplex `s`, differentials.py:46-52. -/
def diffEntry (p : Nat) (d : Nat) (c s : List Nat) : Int :=
  if (npIntersect1d c s).length = d then
    ((-1 : Int) ^ npSearchsorted s ((npSetdiff1d s c).getD 0 0)).fmod p
  else 0

/-- `D[1]`, differentials.py:30-33. -/
def diffOne (p n : Nat) (E : List (List Nat)) : Mat := { nrows := n, cols := E.map (diffEdge p n) }

/-- `D[d]` for `d ≥ 2`, differentials.py:41-52. -/
def diffHigher (p d : Nat) (Cprev Cd : List (List Nat)) : Mat :=
  { nrows := Cprev.length, cols := Cd.map fun s => Cprev.map fun c => diffEntry p d c s }

/-- `D[d], D[d+1], ...` from `C[d-1]` and `C[d:]`.  See differentials.py:36-52. -/
def diffTail (p : Nat) : Nat → List (List Nat) → List (List (List Nat)) → List Mat
  | _, _, [] => []
  | d, Cprev, Cd :: rest => diffHigher p d Cprev Cd :: diffTail p (d + 1) Cd rest

/-- `complex_differentials(C, p)`, differentials.py:8-54.  The result is `D[0]` and `D[1:]`.  When
`C` has a single entry the access `C[1]` raises `IndexError`, and so does an edge with a vertex that
is not below `C[0]` (differentials.py:32-33). -/
def complexDifferentials (C0 : Nat) (C : List (List (List Nat))) (p : Nat) :
    Except PyErr (Nat × List Mat) :=
  match C with
  | [] => .error .indexError
  | E :: rest =>
      if E.all (fun c => decide (c.getD 0 0 < C0 ∧ c.getD 1 0 < C0)) then
        .ok (C0, diffOne p C0 E :: diffTail p 2 E rest)
      else .error .indexError

end Permaviss
