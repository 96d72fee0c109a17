import Verif.Model.Gauss
import Verif.Model.Barcode

/-!
# `persistence_algebra/PH_classic.py`

`persistent_homology(D, R, max_rad, p)`.  The arrays preallocated by the code (lines 160-163,
178-182) and their counters are simplified to lists that grow; `C26` bounds the number of bars by
the number of simplices, which is what the preallocated arrays have room for.
-/

namespace Permaviss

variable {α : Type} [LinearOrder α] [Zero α]

/-- A bar together with its coordinates.  See PH_classic.py:146-149. -/
abbrev BarCol (α : Type) := (α × α) × List Int

/-- What one round of the main loop produces.  See PH_classic.py:190-215. -/
structure PHStep (α : Type) where
  /-- `pivots` for the next round -/
  pivots : List Nat
  /-- finite bars of degree `d - 1` -/
  finite : List (BarCol α)
  /-- bars of the image in degree `d - 1`, each with its column of `PreIm[d]` -/
  im : List (BarCol α × List Int)
  /-- infinite bars of degree `d` -/
  infinite : List (BarCol α)
  deriving DecidableEq

/-- `Daux`, PH_classic.py:171-173: the columns in `pivots` are set to zero. -/
def clearCols (D : Mat) (pivots : List Nat) : Mat :=
  { nrows := D.nrows
    cols := (List.range D.ncols).map fun j =>
      if j ∈ pivots then List.replicate D.nrows 0 else D.cols.getD j [] }

/-- `np.setdiff1d(range(n), pivots)`, PH_classic.py:175 and 228. -/
def nonPivots (n : Nat) (pivots : List Nat) : List Nat :=
  (List.range n).filter fun k => decide (k ∉ pivots)

/-- The finite bar that column `k` contributes, PH_classic.py:191-201. -/
def phFinite (Rp Rd : List α) (Im : Mat) (k : Nat) : Option (BarCol α) :=
  let col := Im.cols.getD k []
  match indexPivot col with
  | none => none
  | some i =>
      if Rp.getD i 0 < Rd.getD k 0 then some ((Rp.getD i 0, Rd.getD k 0), col) else none

/-- The bar of the image that column `k` contributes, PH_classic.py:203-206. -/
def phIm (maxRad : α) (Rd : List α) (Im T : Mat) (k : Nat) : Option (BarCol α × List Int) :=
  let col := Im.cols.getD k []
  if npAny col then some (((Rd.getD k 0, maxRad), col), T.cols.getD k []) else none

/-- The infinite bar that column `k` contributes, PH_classic.py:209-214. -/
def phInfinite (maxRad : α) (Rd : List α) (Im T : Mat) (k : Nat) : Option (BarCol α) :=
  if npAny (Im.cols.getD k []) then none else some ((Rd.getD k 0, maxRad), T.cols.getD k [])

/-- One round of the main loop, PH_classic.py:167-223.  Each column contributes at most one entry to
each list, in the order of `non_pivots`.  Simplification: `R[d-1][i]` and `R[d][k]` are read with
default `0`; the lists have the lengths that make all accesses legal in all uses we consider.  When
`D[d]` has no rows `gauss_col` returns one dimensional arrays and `Im_aux[:, k]` raises
`IndexError`. -/
def phStep (p : Nat) (maxRad : α) (D : Mat) (Rp Rd : List α) (pivots : List Nat) :
    Except PyErr (PHStep α) :=
  let ks := nonPivots D.ncols pivots
  match gaussCol p (clearCols D pivots) with
  | .error e => .error e
  | .ok (Im, T) =>
    if D.nrows = 0 ∧ ks ≠ [] then .error .indexError
    else
      .ok { pivots := ks.filterMap fun k => indexPivot (Im.cols.getD k [])
            finite := ks.filterMap (phFinite Rp Rd Im)
            im := ks.filterMap (phIm maxRad Rd Im T)
            infinite := ks.filterMap (phInfinite maxRad Rd Im T) }

/-- Collected results for degree `d ≥ 1`: `Hom` bars of degree `d`, and `Im` bars of degree `d - 1`
with the columns of `PreIm[d]`.  See PH_classic.py:218-223. -/
structure PHLevel (α : Type) where
  hom : List (BarCol α)
  im : List (BarCol α × List Int)
  deriving DecidableEq

/-- The main loop, PH_classic.py:160-224, from the top degree downwards.  Returns the pivots and the
finite bars found for the degree below the first differential of the list, and the results for the
degrees of the list. -/
def phLoop (p : Nat) (maxRad : α) : List Mat → List α → List (List α) →
    Except PyErr (List Nat × List (BarCol α) × List (PHLevel α))
  | [], _, _ => .ok ([], [], [])
  | D :: Ds, Rp, Rs =>
    match phLoop p maxRad Ds (Rs.getD 0 []) Rs.tail with
    | .error e => .error e
    | .ok (piv, fin, levels) =>
      match phStep p maxRad D Rp (Rs.getD 0 []) piv with
      | .error e => .error e
      | .ok out => .ok (out.pivots, out.finite, ⟨fin ++ out.infinite, out.im⟩ :: levels)

/-- The coordinate vector with a one in position `k`, PH_classic.py:231. -/
def unitVec (n k : Nat) : List Int := (List.range n).map fun i => if i = k then 1 else 0

/-- The bars of degree `0`, PH_classic.py:226-237. -/
def phZero (maxRad : α) (n : Nat) (piv : List Nat) (fin : List (BarCol α)) : List (BarCol α) :=
  fin ++ (nonPivots n piv).map fun k => ((0, maxRad), unitVec n k)

/-- A list of bars with coordinates stored as a barcode basis and sorted, PH_classic.py:252-257.
`basisDim` is `basis.dim`, `n` the number of rows of the coordinates. -/
def storeHom (rnd : α → α) (n basisDim : Nat) (bars : List (BarCol α)) : Except PyErr (Basis α) :=
  if bars = [] then Basis.init [] true none ⟨1, []⟩ false false none
  else
    match Basis.init (bars.map Prod.fst) false (some basisDim) ⟨n, bars.map Prod.snd⟩ false false
        none with
    | .error e => .error e
    | .ok B => (B.sort rnd).map Prod.fst

/-- PH_classic.py:258-267: the basis of the image, and `PreIm[d + 1]` in the same order.  `n'` is the
number of rows of `PreIm[d + 1]`. -/
def storeIm (rnd : α → α) (n n' basisDim : Nat) (bars : List (BarCol α × List Int)) :
    Except PyErr (Basis α × Mat) :=
  if bars = [] then (Basis.init [] true none ⟨1, []⟩ false false none).map fun B => (B, ⟨n', []⟩)
  else
    match Basis.init (bars.map fun x => x.1.1) false (some basisDim) ⟨n, bars.map fun x => x.1.2⟩
        true false none with
    | .error e => .error e
    | .ok B =>
      match B.sort rnd with
      | .error e => .error e
      | .ok (B', order) =>
        .ok (B', ⟨n', gather (maskBy (B.wellDefined.getD []) (bars.map fun x => x.2)) order⟩)

/-- `basis.dim`, PH_classic.py:246-251, for a positive degree: bars `[r, max_rad]` with
`r ≥ max_rad` are dropped by the constructor. -/
def basisDim (maxRad : α) (Rd : List α) : Nat := (Rd.filter fun r => decide (r < maxRad)).length

/-- The output of `persistent_homology`.  `PreIm[0]` is `[]`.  See PH_classic.py:270-271. -/
structure PHOut (α : Type) where
  hom : List (Basis α)
  im : List (Basis α)
  preIm : List Mat
  deriving DecidableEq

/-- The `Hom` entries of positive degree, PH_classic.py:245-257. -/
def storeHoms (rnd : α → α) (maxRad : α) : List (PHLevel α) → List (List α) →
    Except PyErr (List (Basis α))
  | [], _ => .ok []
  | L :: Ls, Rs =>
    match storeHom rnd (Rs.getD 0 []).length (basisDim maxRad (Rs.getD 0 [])) L.hom with
    | .error e => .error e
    | .ok B =>
      match storeHoms rnd maxRad Ls Rs.tail with
      | .error e => .error e
      | .ok Bs => .ok (B :: Bs)

/-- The `Im` entries, PH_classic.py:258-267, for the degrees below the top one.  `bd` is `basis.dim`
in the current degree. -/
def storeIms (rnd : α → α) (maxRad : α) : List (PHLevel α) → Nat → Nat → List (List α) →
    Except PyErr (List (Basis α × Mat))
  | [], _, _, _ => .ok []
  | L :: Ls, n, bd, Rs =>
    match storeIm rnd n (Rs.getD 0 []).length bd L.im with
    | .error e => .error e
    | .ok B =>
      match storeIms rnd maxRad Ls (Rs.getD 0 []).length (basisDim maxRad (Rs.getD 0 [])) Rs.tail with
      | .error e => .error e
      | .ok Bs => .ok (B :: Bs)

/-- `persistent_homology(D, R, max_rad, p)`, PH_classic.py:18-271.  `D0` is `D[0]`, the number of
vertices, `D` is `D[1:]`.  With `len(D) = 1` the access `np.size(D[0], 1)` raises `IndexError`.  In
the top degree `Im` is empty.  Simplification: in the code the entries `Hom[d]` and `Im[d]` are built
alternately; if several of them raise, all raise the same `ValueError`. -/
def persistentHomology (rnd : α → α) (p : Nat) (D0 : Nat) (D : List Mat) (R : List (List α))
    (maxRad : α) : Except PyErr (PHOut α) :=
  if D = [] then .error .indexError
  else
    match phLoop p maxRad D (R.getD 0 []) R.tail with
    | .error e => .error e
    | .ok (piv, fin, levels) =>
      match storeHom rnd D0 D0 (phZero maxRad D0 piv fin) with
      | .error e => .error e
      | .ok H0 =>
        match storeHoms rnd maxRad levels R.tail with
        | .error e => .error e
        | .ok Hs =>
          match storeIms rnd maxRad levels D0 D0 R.tail with
          | .error e => .error e
          | .ok Is =>
            match Basis.init [] true none ⟨1, []⟩ false false none with
            | .error e => .error e
            | .ok top =>
              .ok { hom := H0 :: Hs
                    im := Is.map Prod.fst ++ [top]
                    preIm := ⟨0, []⟩ :: Is.map Prod.snd }

end Permaviss
