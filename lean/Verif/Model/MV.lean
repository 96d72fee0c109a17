import Verif.Model.Spectral
import Verif.Model.Cover

/-!
# `spectral_sequence/MV_spectral_seq.py`
-/

namespace Permaviss

section Pages

variable {α : Type} [LinearOrder α] [Zero α]

/-- One row of the first page, MV_spectral_seq.py:138-152. -/
def pageOneRow (rnd : α → α) (E : SSEnv α) (nerveDim : Nat) (S : SSt α) (deg : Nat) :
    Except PyErr (SSt α) := do
  let base ← (List.range nerveDim).mapM fun n => basisOfBars (E.firstBars deg n)
  let diffs ← (List.range (nerveDim - 1)).mapM fun n => firstDifferential E n deg
  let out ← modulePersistenceHomology rnd E.p (⟨0, []⟩ :: diffs) base
  let S ← addOutputHigher S out (base.map fun b => ⟨b, none⟩)
    ((List.range nerveDim).map fun n => (n, deg)) 1
  (List.range nerveDim).foldlM (fun S n => computeTwoPage E S n deg) S

/-- One sequence of differentials on page `cp`, MV_spectral_seq.py:168-199. -/
def pageSequence (rnd : α → α) (E : SSEnv α) (nerveDim cp : Nat) (S : SSt α) (start : Nat × Nat) :
    Except PyErr (SSt α) := do
  let positions := sweep cp nerveDim nerveDim start.1 start.2
  let base := positions.map fun x => S.hom (cp - 1) x.1 x.2
  let diffs ← positions.tail.mapM fun x => highDifferential rnd E S (x.1 - cp) x.2 cp
  let out ← modulePersistenceHomology rnd E.p (⟨0, []⟩ :: diffs) (base.map HomEntry.basis)
  let S ← addOutputHigher S out base positions cp
  positions.foldlM (fun S x => computeHigher rnd E S x.1 x.2 cp) S

/-- The starting points of the sequences of page `cp`, MV_spectral_seq.py:166-167, in order. -/
def pageStarts (rows cp : Nat) : List (Nat × Nat) :=
  (List.range cp).flatMap fun n => (List.range rows).map fun deg => (n, deg)

/-- Page `cp ≥ 2`, MV_spectral_seq.py:157-202. -/
def pageHigher (rnd : α → α) (E : SSEnv α) (nerveDim : Nat) (S : SSt α) (cp : Nat) :
    Except PyErr (SSt α) :=
  (pageStarts E.rows cp).foldlM (pageSequence rnd E nerveDim cp) S

/-- All pages, MV_spectral_seq.py:138-202. -/
def allPages (rnd : α → α) (E : SSEnv α) (nerveDim : Nat) : Except PyErr (SSt α) := do
  let S ← (List.range E.rows).foldlM (pageOneRow rnd E nerveDim) SSt.init
  ((List.range (E.noPages - 2)).map (· + 2)).foldlM (pageHigher rnd E nerveDim) S

/-- The columns of `ext_mat` for the position `n` of the diagonal `deg`, MV_spectral_seq.py:222-236.
`dims` are the dimensions along the diagonal. -/
def extColumns (rnd : α → α) (E : SSEnv α) (S : SSt α) (deg : Nat) (dims : List Nat) (n : Nat) :
    Except PyErr (List (List Int)) :=
  if n = 0 ∨ S.pageDim E (E.noPages - 1) (deg - n) n = 0 then
    .ok (List.replicate (dims.getD n 0) (List.replicate dims.sum 0))
  else do
    let exts ← extension rnd E S n (deg - n)
    if ((List.range exts.length).zip exts).all (fun x => x.2.nrows == 0 ||
        (x.2.nrows == dims.getD (n - x.1) 0 && x.2.ncols == dims.getD n 0 && decide (x.1 ≤ n))) then
      pure ((List.range (dims.getD n 0)).map fun j =>
        (List.range dims.length).flatMap fun m =>
          match exts[n - m]? with
          | some blk => if m ≤ n ∧ 0 < blk.nrows then blk.cols.getD j []
              else List.replicate (dims.getD m 0) 0
          | none => List.replicate (dims.getD m 0) 0)
    else .error .valueError

/-- Solving the extension problem, MV_spectral_seq.py:256-275: `bars` are the bars along a diagonal and
`ext` the matrix `ext_mat` of extensions. -/
def glueBars (rnd : α → α) (p : Nat) (maxR : α) (bars : List (α × α)) (ext : Mat) :
    Except PyErr (Basis α) := do
  let diag ← Basis.init bars false none ⟨1, []⟩ false false none
  let sum ← Basis.init bars false none ⟨1, []⟩ false true (some ext)
  let (diag, orderA) ← diag.sort rnd
  let (sum, order) ← sum.sort rnd
  let F : Mat := ⟨order.length,
    (gather (identityCols bars.length) orderA).map fun c => gather c order⟩
  let out ← imageKernel rnd p { diag with barcode := diag.barcode.map fun b => (b.1, maxR) } sum F 0
  pure out.im

/-- The entry of `persistent_homology` for the diagonal `deg`, MV_spectral_seq.py:210-276; `none` when
the diagonal is zero and nothing is appended. -/
def diagonal (rnd : α → α) (E : SSEnv α) (S : SSt α) (noColumns deg : Nat) :
    Except PyErr (Option (Basis α)) := do
  let idx := List.range (min (deg + 1) noColumns)
  let dims := idx.map fun n => S.pageDim E E.noPages (deg - n) n
  if dims.sum = 0 then pure none
  else do
    let cols ← idx.mapM (extColumns rnd E S deg dims)
    let bars := idx.flatMap fun n => (S.hom (E.noPages - 1) n (deg - n)).basis.barcode
    let im ← glueBars rnd E.p E.maxR bars ⟨dims.sum, cols.flatten⟩
    pure (some im)

/-- `MV_ss.persistent_homology`, MV_spectral_seq.py:204-278. -/
def persistentList (rnd : α → α) (E : SSEnv α) (S : SSt α) (noColumns : Nat) :
    Except PyErr (List (Basis α)) :=
  if E.rows = 0 then .error .indexError
  else do
    let rest ← ((List.range (E.rows - 1)).map (· + 1)).mapM (diagonal rnd E S noColumns)
    pure ((S.hom (E.noPages - 1) 0 0).basis :: rest.filterMap id)

end Pages

section Create

variable {K : Type} [Field K] [LinearOrder K] [FloorRing K]

/-- The attributes of the result that are modelled.  See MV_spectral_seq.py:280. -/
structure MVOut (K : Type) where
  env : SSEnv K
  pages : SSt K
  persistentHomology : List (Basis K)

/-- Page `0`, MV_spectral_seq.py:113-128: the local persistent homology of every piece of column
`n`. -/
def pageZeroColumn (pdist : List (List K) → List (List K)) (argsort : List K → List Nat) (rnd : K → K)
    (cover : CoverOut K) (maxR : K) (maxDim p n number : Nat) : Except PyErr (Column K) := do
  let clouds ← atE cover.clouds n
  let outs ← (List.range number).mapM fun k => do
    let c ← atE clouds k
    localPersistentHomology pdist argsort rnd c maxR maxDim p
  addOutputFirst maxDim number outs

/-- The environment after page `0`, MV_spectral_seq.py:101-128, for a given cover. -/
def envOf (pdist : List (List K) → List (List K)) (argsort : List K → List Nat) (rnd : K → K)
    (maxR : K) (maxDim p : Nat) (cover : CoverOut K) : Except PyErr (SSEnv K) := do
  let D ← complexDifferentials cover.nerve.1 cover.nerve.2 p
  let spxNumber := cover.nerve.1 :: cover.nerve.2.map List.length
  let columns ← (List.range cover.nerve.2.length).mapM fun n =>
    pageZeroColumn pdist argsort rnd cover maxR maxDim p n (spxNumber.getD n 0)
  pure { p := p, maxR := maxR, rows := maxDim, noPages := min (maxDim + 2) cover.nerve.2.length
         spxNumber := spxNumber, nerveDiff := D.2, pointsIN := cover.pointsIN, columns := columns }

/-- The environment after page `0`, MV_spectral_seq.py:95-128. -/
def createEnv (pdist : List (List K) → List (List K)) (argsort : List K → List Nat) (rnd : K → K)
    (maxR : K) (maxDim maxDiv : Nat) (overlap : K) (dim : Nat) (cloud : List (List K)) (p : Nat) :
    Except PyErr (SSEnv K) := do
  let cover ← generateCover maxDiv overlap dim cloud
  envOf pdist argsort rnd maxR maxDim p cover

/-- `create_MV_ss(point_cloud, max_r, max_dim, max_div, overlap, p)`, MV_spectral_seq.py:27-280, for a
point cloud with `dim` columns.  `pdist` stands for `dist.squareform(dist.pdist(·))`, `argsort` for
`np.argsort` and `rnd` for `np.around(·, decimals=7)`.  Printing and timing are left out. -/
def createMVss (pdist : List (List K) → List (List K)) (argsort : List K → List Nat) (rnd : K → K)
    (maxR : K) (maxDim maxDiv : Nat) (overlap : K) (dim : Nat) (cloud : List (List K)) (p : Nat) :
    Except PyErr (MVOut K) := do
  let E ← createEnv pdist argsort rnd maxR maxDim maxDiv overlap dim cloud p
  let S ← allPages rnd E (E.spxNumber.length - 1)
  let ph ← persistentList rnd E S E.spxNumber.length
  pure { env := E, pages := S, persistentHomology := ph }

end Create

end Permaviss
