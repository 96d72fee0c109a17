import Verif.Model.Chains
import Verif.Model.LocalPH
import Verif.Model.ModuleHomology

/-!
# `spectral_sequence/spectral_sequence_class.py`

`α` is the type of radii.  The functions run in parallel by `Pool.map` are mapped here in order; see
`Verif/Model/Pool.lean` for other schedules.  Integer arithmetic is exact (the code uses floats that
hold integers).
-/

namespace Permaviss

variable {α : Type} [LinearOrder α] [Zero α]

/-- `np.matmul(M, v)` for a vector of length `np.size(M, 1)`, without reduction mod `p`.
See spectral_sequence_class.py:553, 622, 832, 920, 990 and 1128. -/
def mulVec (M : Mat) (v : List Int) : List Int :=
  (List.range M.nrows).map fun i =>
    ((List.range M.ncols).map fun k => M.get i k * v.getD k 0).sum

/-- Rows `prev:next` of a column.  See spectral_sequence_class.py:921, 1001 and 1143. -/
def slice (v : List Int) (prev next : Nat) : List Int := (v.drop prev).take (next - prev)

/-- `l[idx]` with `IndexError` when an index is out of range.  See spectral_sequence_class.py:681-686. -/
def gatherE {β : Type} (l : List β) (idx : List Nat) : Except PyErr (List β) :=
  if idx.all (fun i => decide (i < l.length)) then .ok (gather l idx) else .error .indexError

/-- `l[i]` with `IndexError`.  See spectral_sequence_class.py:229-263 and wherever a list is read. -/
def atE {β : Type} (l : List β) (i : Nat) : Except PyErr β :=
  match l[i]? with
  | some x => .ok x
  | none => .error .indexError

/-- `np.any(M)` for a list of rows.  See spectral_sequence_class.py:932, 994, 1026, 1088, 1123, 1126 and 1166. -/
def anyRows (M : List (List Int)) : Bool := M.any npAny

/-! ## Page 0 -/

/-- The data of one column `n_dim` of page `0`, as stored by `add_output_first`.
See spectral_sequence_class.py:229-263. -/
structure Column (α : Type) where
  /-- `subcomplexes`, `zero_diff`, `Hom[0]`, `Im[0]`, `PreIm[0]` of each piece. -/
  outs : List (LocalOut α)
  /-- `cycle_dimensions[n_dim]` by degree. -/
  cycleDims : List (List Nat)
  /-- `page_dim_matrix[1, :, n_dim]`. -/
  dims : List Nat
  /-- `first_page_barcodes[n_dim]`. -/
  bars : List (List (α × α))

/-- `0, d0, d0 + d1, …` without the first entry: the running sums written in
`cycle_dimensions[n_dim][deg][k]`, spectral_sequence_class.py:242-246. -/
def runningSums : Nat → List Nat → List Nat
  | _, [] => []
  | acc, d :: ds => (acc + d) :: runningSums (acc + d) ds

/-- The bases `Hom[0][n_dim][k][deg]` for the `number` pieces `k`.  See spectral_sequence_class.py:244. -/
def homsOfDegree (outs : List (LocalOut α)) (number deg : Nat) : Except PyErr (List (Basis α)) :=
  (List.range number).mapM fun k => do
    let o ← atE outs k
    atE o.ph.hom deg

/-- `add_output_first(output, n_dim)`, spectral_sequence_class.py:216-263.  `number` is
`nerve_spx_number[n_dim]`.  Slices of `first_page_barcodes` are written one after the other, that is
the barcodes are concatenated. -/
def addOutputFirst (rows number : Nat) (outs : List (LocalOut α)) : Except PyErr (Column α) :=
  if outs = [] then
    .ok ⟨[], [], List.replicate rows 0, List.replicate rows []⟩
  else do
    let hs ← (List.range rows).mapM (homsOfDegree outs number)
    pure { outs := outs
           cycleDims := hs.map fun l => runningSums 0 (l.map Basis.dim) ++ [0]
           dims := hs.map fun l => (l.map Basis.dim).sum
           bars := hs.map fun l => l.flatMap Basis.barcode }

/-- What the methods below read and never write: the attributes set by the constructor
(spectral_sequence_class.py:127-211) and page `0`. -/
structure SSEnv (α : Type) where
  p : Nat
  maxR : α
  rows : Nat
  noPages : Nat
  /-- `nerve_spx_number`. -/
  spxNumber : List Nat
  /-- `nerve_differentials[1:]`. -/
  nerveDiff : List Mat
  pointsIN : List (List (List Nat))
  columns : List (Column α)

/-- `nerve_spx_number[n]`.  See spectral_sequence_class.py:145-148. -/
def SSEnv.spx (E : SSEnv α) (n : Nat) : Nat := E.spxNumber.getD n 0

/-- The local data of piece `k` of column `n`.  See spectral_sequence_class.py:229-233. -/
def SSEnv.piece (E : SSEnv α) (n k : Nat) : Except PyErr (LocalOut α) := do
  let c ← atE E.columns n
  atE c.outs k

/-- `cycle_dimensions[n][deg]`.  See spectral_sequence_class.py:240-246. -/
def SSEnv.cyc (E : SSEnv α) (n deg : Nat) : Except PyErr (List Nat) := do
  let c ← atE E.columns n
  atE c.cycleDims deg

/-- `page_dim_matrix[1, deg, n]`; zero in the columns that are never filled.
See spectral_sequence_class.py:206-207 and 248. -/
def SSEnv.pageOne (E : SSEnv α) (deg n : Nat) : Nat :=
  match E.columns[n]? with
  | some c => c.dims.getD deg 0
  | none => 0

/-- `first_page_barcodes[n][deg]`.  See spectral_sequence_class.py:250-263. -/
def SSEnv.firstBars (E : SSEnv α) (deg n : Nat) : List (α × α) :=
  match E.columns[n]? with
  | some c => c.bars.getD deg []
  | none => []

/-- `Hom[0][n][k][deg]`.  See spectral_sequence_class.py:231. -/
def SSEnv.hom0 (E : SSEnv α) (n k deg : Nat) : Except PyErr (Basis α) := do
  let o ← E.piece n k
  atE o.ph.hom deg

/-- `Im[0][n][k][deg]`.  See spectral_sequence_class.py:232. -/
def SSEnv.im0 (E : SSEnv α) (n k deg : Nat) : Except PyErr (Basis α) := do
  let o ← E.piece n k
  atE o.ph.im deg

/-- `PreIm[0][n][k][deg]`.  See spectral_sequence_class.py:233. -/
def SSEnv.preIm0 (E : SSEnv α) (n k deg : Nat) : Except PyErr Mat := do
  let o ← E.piece n k
  atE o.ph.preIm deg

/-- `points_IN[n][k]`.  See spectral_sequence_class.py:141. -/
def SSEnv.pts (E : SSEnv α) (n k : Nat) : Except PyErr (List Nat) := do
  let l ← atE E.pointsIN n
  atE l k

/-- The loop `prev = 0; for k, next in enumerate(cycle_dimensions[n][deg][:-1]): …; prev = next`:
the triples `(k, prev, next)`.  Used in spectral_sequence_class.py:295-305, 461-471, 819-836,
913-925, 995-1011 and 1136-1148. -/
def spans (cyc : List Nat) : List (Nat × Nat × Nat) :=
  (List.range cyc.dropLast.length).zip ((0 :: cyc.dropLast).zip cyc.dropLast)

/-! ## The Čech differential -/

/-- `subcomplexes[n][k][deg]` for `deg ≥ 1`.  See spectral_sequence_class.py:229. -/
def LocalOut.simplices (o : LocalOut α) (deg : Nat) : Except PyErr (List (List Nat)) :=
  atE o.cpx.simplices (deg - 1)

/-- The number of simplices of dimension `deg`, spectral_sequence_class.py:604-607. -/
def LocalOut.size (o : LocalOut α) (deg : Nat) : Except PyErr Nat :=
  if deg = 0 then .ok o.cpx.verts
  else do
    let s ← o.simplices deg
    pure s.length

/-- A column of length `n` with the entry `x` in row `i`, or a zero column.
See spectral_sequence_class.py:659-675. -/
def spike (n : Nat) (i : Option Nat) (x : Int) : List Int :=
  (List.range n).map fun j => if i = some j then x else 0

/-- `np.argmax(points == pt)`: the first position of `pt`, or `0` when it does not occur.
See spectral_sequence_class.py:665-667. -/
def argmaxEq (points : List Nat) (pt : Nat) : Nat :=
  (points.findIdx? (fun q => q == pt)).getD 0

/-- The search of spectral_sequence_class.py:682-694: the first simplex of the face with `deg + 1`
vertices in common with the given ones. -/
def matchSimplex (deg : Nat) (facePts : List Nat) (faceSpx : List (List Nat)) (vertices : List Nat) :
    Option Nat :=
  faceSpx.findIdx? fun s => (npIntersect1d vertices (gather facePts s)).length == deg + 1

/-- `local_cech_matrix(n_dim, deg, nerve_spx_index, nerve_face_index, nerve_coeff)`,
spectral_sequence_class.py:632-698, for `n_dim = n + 1`.  `np.argmax` of an empty array raises
`ValueError`. -/
def localCechMatrix (E : SSEnv α) (n deg spxIdx faceIdx : Nat) (coeff : Int) : Except PyErr Mat := do
  let face ← E.piece n faceIdx
  let spx ← E.piece (n + 1) spxIdx
  let facePts ← E.pts n faceIdx
  let spxPts ← E.pts (n + 1) spxIdx
  if deg = 0 then
    if face.cpx.verts = 0 ∧ 0 < spx.cpx.verts then .error .valueError
    else do
      let pts ← (List.range spx.cpx.verts).mapM (atE spxPts)
      pure ⟨face.cpx.verts, pts.map fun pt =>
        spike face.cpx.verts (some (argmaxEq facePts pt)) ((coeff * (-1) ^ deg) % (E.p : Int))⟩
  else do
    let faceSpx ← face.simplices deg
    let spxs ← spx.simplices deg
    let vertices ← spxs.mapM (gatherE spxPts)
    pure ⟨faceSpx.length, vertices.map fun v =>
      spike faceSpx.length (matchSimplex deg facePts faceSpx v) ((coeff * (-1) ^ deg) % (E.p : Int))⟩

/-- One coface of `cech_diff_local`, spectral_sequence_class.py:611-625: `acc` are the rows of
`local_image_coord.T`, one for each reference in `refs`. -/
def cechAddCoface (E : SSEnv α) (C : LChains) (n deg idx : Nat) (refs : List Nat)
    (acc : List (List Int)) (coface : Nat × Int) : Except PyErr (List (List Int)) := do
  let e ← atE C coface.1
  if e.ref.length = 0 then pure acc
  else do
    let M ← localCechMatrix E n deg coface.1 idx coface.2
    if e.coord.all (fun r => r.length == M.ncols) && scatterOk e.ref refs e.coord then
      pure (scatterRows e.ref refs acc (e.coord.map (mulVec M)))
    else .error .valueError

/-- `cech_diff_local(start_chains, n_dim, deg, nerve_spx_index)`,
spectral_sequence_class.py:570-628: the entry at piece `idx` of column `n` of the Čech differential
of a chain on column `n + 1`.  Without cofaces `cofaces[0]` raises `IndexError`. -/
def cechDiffLocal (E : SSEnv α) (C : LChains) (n deg idx : Nat) : Except PyErr LEntry := do
  let D ← atE E.nerveDiff n
  if D.nrows ≤ idx then .error .indexError
  else
    let cofaces := (List.range D.ncols).filter fun j => D.get idx j ≠ 0
    if cofaces = [] then .error .indexError
    else do
      let es ← cofaces.mapM (atE C)
      let refs := npUnique (es.flatMap LEntry.ref)
      if refs = [] then pure LEntry.empty
      else do
        let o ← E.piece n idx
        let size ← o.size deg
        let acc ← (cofaces.map fun j => (j, D.get idx j)).foldlM (cechAddCoface E C n deg idx refs)
          (List.replicate refs.length (List.replicate size 0))
        pure ⟨refs, acc.map fun r => r.map fun x => x % (E.p : Int)⟩

/-- `cech_diff(n_dim, deg, start_chains)`, spectral_sequence_class.py:478-502. -/
def cechDiff (E : SSEnv α) (n deg : Nat) (C : LChains) : Except PyErr LChains :=
  (List.range (E.spx n)).mapM (cechDiffLocal E C n deg)

/-! ## Lifts to the first page -/

/-- `first_page_local_lift(n_dim, deg, local_coord, lift_radii, nerve_spx_index)`,
spectral_sequence_class.py:704-774; `none` is `[], []`.  Returns `gammas` and `betas`. -/
def firstPageLocalLift (E : SSEnv α) (n deg : Nat) (coord : List (List Int)) (radii : List α)
    (idx : Nat) : Except PyErr (Option (Mat × Mat)) :=
  if radii = [] then .ok none
  else do
    let im ← E.im0 n idx deg
    let hom ← E.hom0 n idx deg
    if im.dim = 0 ∧ hom.dim = 0 then pure none
    else do
      let imCols := if 0 < im.dim then im.coords.cols else []
      let homCols := if 0 < hom.dim then hom.coords.cols else []
      let imRad := if 0 < im.dim then im.barcode.map Prod.fst else []
      let homRad := if 0 < hom.dim then hom.barcode.map Prod.fst else []
      let nrows := if 0 < hom.dim then hom.coords.nrows else im.coords.nrows
      if coord.all (fun r => r.length == nrows) then
        let (_, T) ← gaussColRad E.p ⟨nrows, imCols ++ homCols ++ coord⟩
          (imRad ++ homRad ++ radii) (imCols ++ homCols).length
        let ts := (T.cols.drop (imCols ++ homCols).length).map (negMod E.p)
        pure (some (⟨im.dim, ts.map fun t => t.take im.dim⟩,
          ⟨(imCols ++ homCols).length - im.dim,
            ts.map fun t => (t.take (imCols ++ homCols).length).drop im.dim⟩))
      else .error .valueError

/-- `betas_1_page[generators] = betas.T` for `total` expressions, spectral_sequence_class.py:550-551
and 825-826. -/
def scatterBetas (total width : Nat) (gens : List Nat) (cols : List (List Int)) : List (List Int) :=
  (List.range total).map fun i =>
    match gens.idxOf? i with
    | some a => cols.getD a []
    | none => List.replicate width 0

/-- `cech_diff_and_lift_local(R, start_chains, n_dim, deg, nerve_spx_index)`,
spectral_sequence_class.py:507-564; `none` is a bare `return`.  Returns the rows of `betas_1_page` and
the lift. -/
def cechDiffAndLiftLocal (E : SSEnv α) (R : List α) (C : LChains) (n deg idx : Nat) :
    Except PyErr (Option (List (List Int) × LEntry)) := do
  let cyc ← E.cyc n deg
  let prev ← if idx = 0 then atE cyc (cyc.length - 1) else atE cyc (idx - 1)
  let next ← atE cyc idx
  if prev = next then pure none
  else do
    let e ← cechDiffLocal E C n deg idx
    if e.ref.length = 0 then pure none
    else do
      let radii ← gatherE R e.ref
      match ← firstPageLocalLift E n deg e.coord radii idx with
      | none => .error .valueError
      | some (gammas, betas) => do
        let P ← E.preIm0 n idx (deg + 1)
        if P.ncols = gammas.nrows then
          let nz := (List.range gammas.ncols).filter fun a => npAny (gammas.cols.getD a [])
          pure (some (scatterBetas R.length (next - prev) e.ref betas.cols,
            ⟨gather e.ref nz, nz.map fun a => negMod E.p (mulVec P (gammas.cols.getD a []))⟩))
        else .error .valueError

/-- The row of expression `i` in `Betas_1_page`, spectral_sequence_class.py:463-470 and 820-827: the
blocks of the pieces one after the other, zero where there is no output. -/
def betaRow (outs : List (Option (List (List Int)))) (cyc : List Nat) (i : Nat) : List Int :=
  (spans cyc).flatMap fun s =>
    match outs.getD s.1 none with
    | some b => b.getD i []
    | none => List.replicate (s.2.2 - s.2.1) 0

/-- `cech_diff_and_lift(n_dim, deg, start_chains, R)`, spectral_sequence_class.py:418-472, for
`n_dim = n + 1`.  Returns the rows of `Betas_1_page` and `lift_chains`. -/
def cechDiffAndLift (E : SSEnv α) (n deg : Nat) (C : LChains) (R : List α) :
    Except PyErr (List (List Int) × LChains) :=
  if R = [] then .ok ([], LChains.zeros (E.spx n))
  else do
    let outs ← (List.range (E.spx n)).mapM (cechDiffAndLiftLocal E R C n deg)
    let cyc ← E.cyc n deg
    let lift ← (spans cyc).foldlM (fun (acc : LChains) s =>
      match outs.getD s.1 none with
      | some o => acc.addEntry s.1 o.2.ref o.2.coord
      | none => .ok acc) (LChains.zeros (E.spx n))
    pure ((List.range R.length).map (betaRow (outs.map fun o => o.map Prod.fst) cyc), lift)

/-- The chains of `first_differential`, spectral_sequence_class.py:291-305: the generators of the
first page, numbered one piece after the other. -/
def generatorChains (E : SSEnv α) (n deg : Nat) : Except PyErr LChains := do
  let cyc ← E.cyc n deg
  (spans cyc).foldlM (fun (acc : LChains) s =>
    if s.2.1 < s.2.2 then do
      let h ← E.hom0 n s.1 deg
      acc.addEntry s.1 ((List.range (s.2.2 - s.2.1)).map (· + s.2.1)) h.coords.cols
    else .ok acc) (LChains.zeros (E.spx n))

/-- `first_differential(n_dim, deg).T`, spectral_sequence_class.py:272-308, for `n_dim = n + 1`. -/
def firstDifferential (E : SSEnv α) (n deg : Nat) : Except PyErr Mat :=
  if E.pageOne deg (n + 1) = 0 then .ok ⟨0, []⟩
  else do
    let C ← generatorChains E (n + 1) deg
    let out ← cechDiffAndLift E n deg C ((E.firstBars deg (n + 1)).map Prod.fst)
    pure ⟨E.pageOne deg n, out.1⟩

/-- `first_page_lift(n_dim, deg, start_chains, R)`, spectral_sequence_class.py:780-837. -/
def firstPageLift (E : SSEnv α) (n deg : Nat) (C : LChains) (R : List α) :
    Except PyErr (List (List Int) × LChains) :=
  if R = [] then .ok ([], LChains.zeros (E.spx n))
  else do
    let outs ← (List.range (E.spx n)).mapM fun idx => do
      let e ← atE C idx
      if e.ref.length = 0 then pure none
      else do
        let radii ← gatherE R e.ref
        firstPageLocalLift E n deg e.coord radii idx
    let cyc ← E.cyc n deg
    let betas := (spans cyc).map fun s =>
      match outs.getD s.1 none with
      | some gb => if 0 < gb.2.nrows then
          some (scatterBetas R.length (s.2.2 - s.2.1) ((C.getD s.1 LEntry.empty).ref) gb.2.cols)
        else none
      | none => none
    let lift ← (spans cyc).foldlM (fun (acc : LChains) s =>
      match outs.getD s.1 none with
      | some gb =>
        if 0 < gb.1.nrows then do
          let P ← E.preIm0 n s.1 (deg + 1)
          if P.ncols = gb.1.nrows then
            acc.addEntry s.1 ((C.getD s.1 LEntry.empty).ref) (gb.1.cols.map (mulVec P))
          else .error .valueError
        else .ok acc
      | none => .ok acc) (LChains.zeros (E.spx n))
    pure ((List.range R.length).map (betaRow betas cyc), lift)

/-! ## Higher pages -/

/-- An entry of `Hom[k]`, `k ≥ 1`.  `prev` is the barcode of `prev_basis`, `none` when there is no
previous basis.  See spectral_sequence_class.py:198. -/
structure HomEntry (α : Type) where
  basis : Basis α
  prev : Option (List (α × α))

/-- The attributes written while the pages are computed; the arguments are page, `n_dim`, `deg`.
See spectral_sequence_class.py:184-202. -/
structure SSt (α : Type) where
  hom : Nat → Nat → Nat → HomEntry α
  /-- `none` is the initial `[]`. -/
  im : Nat → Nat → Nat → Option (Basis α)
  /-- `none` is `[]`. -/
  preIm : Nat → Nat → Nat → Option Mat
  reps : Nat → Nat → Nat → List LChains

/-- A barcode basis made of a list of bars, `barcode_basis(bars)`; an empty list is a one dimensional
array.  See spectral_sequence_class.py:401. -/
def basisOfBars (bars : List (α × α)) : Except PyErr (Basis α) :=
  Basis.init bars bars.isEmpty none ⟨1, []⟩ false false none

/-- The constructor, spectral_sequence_class.py:184-202. -/
def SSt.init : SSt α where
  hom _ _ _ := ⟨⟨[], true, 0, none, ⟨1, []⟩, false, none, none⟩, none⟩
  im _ _ _ := none
  preIm _ _ _ := none
  reps _ _ _ := []

/-- `page_dim_matrix[page, deg, n]`: page `1` is written by `add_output_first`, page `k + 1` together
with `Hom[k]`, spectral_sequence_class.py:887-888; zero elsewhere. -/
def SSt.pageDim (E : SSEnv α) (S : SSt α) (page deg n : Nat) : Nat :=
  if page = 1 then E.pageOne deg n else (S.hom (page - 1) n deg).basis.dim

/-- Assignment to an entry of a nested list.  See spectral_sequence_class.py:184-202. -/
def upd {β : Type} (f : Nat → Nat → Nat → β) (k n deg : Nat) (v : β) : Nat → Nat → Nat → β :=
  fun a b c => if a = k ∧ b = n ∧ c = deg then v else f a b c

/-- One round `k` of `lift_to_page`, spectral_sequence_class.py:378-410.  `cols` are the columns of
`Betas`.  `none` is the `break`. -/
def liftStep (rnd : α → α) (E : SSEnv α) (S : SSt α) (n deg : Nat) (bars : List (α × α)) (k : Nat)
    (cols : List (List Int)) : Except PyErr (Option (Mat × Mat)) :=
  let h := (S.hom k n deg).basis
  if h.dim = 0 then .ok none
  else
    match S.im k n deg, (S.hom k n deg).prev with
    | some im, some prev => do
      let imCols := if 0 < im.dim then im.coords.cols else []
      let imBars := if 0 < im.dim then im.barcode else []
      if cols.all (fun c => c.length == h.coords.nrows) then
        let rb ← basisOfBars prev
        let (_, order) ← rb.sort rnd
        let A : Mat := ⟨order.length, (imCols ++ h.coords.cols ++ cols).map fun c => gather c order⟩
        let coef ← gaussBarcodes E.p A (gather prev order) (imBars ++ h.barcode ++ bars)
          (im.dim + h.dim)
        pure (some (⟨h.dim, coef.cols.map fun c => c.drop im.dim⟩,
          ⟨im.dim, coef.cols.map fun c => c.take im.dim⟩))
      else .error .valueError
    | _, _ => .error .attributeError

/-- The rounds `k, k + 1, …` of `lift_to_page`; `last` is the result of the previous round.
See spectral_sequence_class.py:378-411. -/
def liftLoop (rnd : α → α) (E : SSEnv α) (S : SSt α) (n deg : Nat) (bars : List (α × α)) :
    Nat → Nat → Mat × Mat → Except PyErr (Option (Mat × Mat))
  | 0, _, last => .ok (some last)
  | m + 1, k, last =>
    match liftStep rnd E S n deg bars k last.1.cols with
    | .error e => .error e
    | .ok none => .ok none
    | .ok (some out) => liftLoop rnd E S n deg bars m (k + 1) out

/-- `lift_to_page(n_dim, deg, target_page, Betas, Beta_barcode)`, spectral_sequence_class.py:349-412.
`rows` are the rows of `Betas`.  Returns `Betas` and `Gammas`, by columns; `none` when they are
`np.array([])`.  With `target_page ≤ 1` the name `Gammas` is not bound. -/
def liftToPage (rnd : α → α) (E : SSEnv α) (S : SSt α) (n deg target : Nat) (rows : List (List Int))
    (bars : List (α × α)) : Except PyErr (Option (Mat × Mat)) :=
  if target ≤ 1 then .error .unboundLocalError
  else liftLoop rnd E S n deg bars (target - 1) 1 (⟨0, rows⟩, ⟨0, []⟩)

/-- `high_differential(n_dim, deg, current_page).T`, spectral_sequence_class.py:313-343, for
`n_dim = n + current_page`; the codomain is `(n, deg + current_page - 1)`. -/
def highDifferential (rnd : α → α) (E : SSEnv α) (S : SSt α) (n deg cp : Nat) : Except PyErr Mat :=
  let h := (S.hom (cp - 1) (n + cp) deg).basis
  if h.dim = 0 then .ok ⟨0, []⟩
  else do
    let C ← atE (S.reps (cp - 1) (n + cp) deg) (cp - 1)
    let out ← cechDiffAndLift E n (deg + cp - 1) C (h.barcode.map Prod.fst)
    match ← liftToPage rnd E S n (deg + cp - 1) cp out.1 h.barcode with
    | none => pure ⟨0, []⟩
    | some bg => pure bg.1

/-- The positions of a sequence of differentials of page `cp`: `(n, deg)`, `(n + cp, deg + 1 - cp)`,
… while they stay within the page; the loops of MV_spectral_seq.py:174-183 and 192-199.  The first
argument bounds the number of rounds. -/
def sweep (cp nerveDim : Nat) : Nat → Nat → Nat → List (Nat × Nat)
  | 0, _, _ => []
  | fuel + 1, n, deg =>
    (n, deg) :: if cp ≤ deg + 1 ∧ n + cp < nerveDim then sweep cp nerveDim fuel (n + cp) (deg + 1 - cp)
      else []

/-- The barcode of the previous basis of `Hom[i]` as returned by `module_persistence_homology`: a
basis built over `Base[i]`, except when `Base[i]` itself is returned.  See spectral_sequence_class.py:398. -/
def prevOf (base : List (HomEntry α)) (i : Nat) : Option (List (α × α)) :=
  match base[i]? with
  | none => none
  | some b =>
    if i = 0 then (if b.basis.dim = 0 then b.prev else some b.basis.barcode)
    else
      match base[i - 1]? with
      | none => none
      | some b' =>
        if b.basis.dim ≠ 0 ∧ b'.basis.dim = 0 then b.prev else some b.basis.barcode

/-- `add_output_higher(Hom, Im, PreIm, end_n_dim, end_deg, current_page)`,
spectral_sequence_class.py:842-891.  `positions` are the positions of the entries of `Hom`, `base` the
bases given to `module_persistence_homology`. -/
def addOutputHigher (S : SSt α) (out : MPH α) (base : List (HomEntry α))
    (positions : List (Nat × Nat)) (page : Nat) : Except PyErr (SSt α) :=
  ((List.range positions.length).zip positions).foldlM (fun (S : SSt α) x =>
    match out.hom.getD x.1 none with
    | none => .error .attributeError
    | some h => .ok
      { S with
        hom := upd S.hom page x.2.1 x.2.2 ⟨h, prevOf base x.1⟩
        im := upd S.im page x.2.1 x.2.2 (out.im.getD x.1 none)
        preIm := upd S.preIm page x.2.1 x.2.2 (out.preIm.getD x.1 none) }) S

/-- `np.matmul(coordinates, M[prev:next]).T`, by rows, for the matrix with columns `cols` and `nrows`
rows; the shapes must match.  See spectral_sequence_class.py:920-921, 999-1001 and 1142-1143. -/
def localRows (H : Mat) (nrows : Nat) (cols : List (List Int)) (prev next : Nat) :
    Except PyErr (List (List Int)) :=
  if H.ncols = min next nrows - min prev nrows then
    .ok (cols.map fun c => mulVec H (slice c prev next))
  else .error .valueError

/-- `compute_two_page_representatives(n_dim, deg)`, spectral_sequence_class.py:896-938. -/
def computeTwoPage (E : SSEnv α) (S : SSt α) (n deg : Nat) : Except PyErr (SSt α) :=
  let h := (S.hom 1 n deg).basis
  if h.dim = 0 then .ok S
  else do
    let cyc ← E.cyc n deg
    let C ← (spans cyc).foldlM (fun (acc : LChains) s =>
      if s.2.1 < s.2.2 then do
        let h0 ← E.hom0 n s.1 deg
        let rows ← localRows h0.coords h.coords.nrows h.coords.cols s.2.1 s.2.2
        acc.addEntry s.1 (List.range h.dim) rows
      else .ok acc) (LChains.zeros (E.spx n))
    if n = 0 then pure { S with reps := upd S.reps 1 n deg [C] }
    else do
      let out ← cechDiffAndLift E (n - 1) deg C (h.barcode.map Prod.fst)
      if anyRows out.1 then .error .valueError
      else pure { S with reps := upd S.reps 1 n deg [C, out.2] }

/-- `total_complex_reps[-1].coord[k] += rows`, or `add_entry` when there is nothing yet,
spectral_sequence_class.py:1003-1009. -/
def addLocalRows (C : LChains) (k : Nat) (rows : List (List Int)) : Except PyErr LChains := do
  let e ← atE C k
  if 0 < e.ref.length then
    if e.coord.length = rows.length then pure (C.set k ⟨e.ref, List.zipWith addRow e.coord rows⟩)
    else .error .valueError
  else C.addEntry k (List.range rows.length) rows

/-- `preimage_coefficients`, spectral_sequence_class.py:990-992, by columns; the shapes must match. -/
def preimageCoefs (P : Option Mat) (gammas : Option Mat) : Except PyErr Mat :=
  match P, gammas with
  | none, none => .ok ⟨0, []⟩
  | some M, none => if M.ncols = 0 then .ok ⟨M.nrows, []⟩ else .error .valueError
  | none, some G => if G.nrows = 0 then .ok ⟨0, []⟩ else .error .valueError
  | some M, some G =>
    if M.ncols = G.nrows then .ok ⟨M.nrows, G.cols.map fun g => mulVec M (scale (-1) g)⟩
    else .error .valueError

/-- Replacing the last chain of a list.  See spectral_sequence_class.py:1003-1009. -/
def setLast (l : List LChains) (C : LChains) : List LChains := l.set (l.length - 1) C

/-- One round `target_page` of `compute_higher_representatives`,
spectral_sequence_class.py:977-1022; the codomain position is `(n, deg)`. -/
def higherRound (rnd : α → α) (E : SSEnv α) (S : SSt α) (n deg cp : Nat) (bars : List (α × α))
    (tot : List LChains) (target : Nat) : Except PyErr (List LChains) := do
  let last ← atE tot (tot.length - 1)
  let out ← cechDiffAndLift E n deg last (bars.map Prod.fst)
  let bg ← liftToPage rnd E S n deg target out.1 bars
  let gammas := bg.map Prod.snd
  let pre ← preimageCoefs (S.preIm (target - 1) (n + target - 1) (deg + 2 - target)) gammas
  if ((gammas.map fun G => anyRows G.cols).getD false) = false then pure tot
  else if target = 2 then do
    let cyc ← E.cyc (n + 1) deg
    let last' ← (spans cyc).foldlM (fun (acc : LChains) s =>
      if s.2.1 < s.2.2 then do
        let h0 ← E.hom0 (n + 1) s.1 deg
        let rows ← localRows h0.coords pre.nrows pre.cols s.2.1 s.2.2
        addLocalRows acc s.1 rows
      else .ok acc) last
    pure (setLast tot last')
  else do
    let preReps ← (S.reps target (n + target - 1) (deg + 2 - target)).mapM fun C =>
      C.sums pre.transpose.cols pre.ncols
    ((List.range preReps.length).zip preReps).foldlM (fun (tot : List LChains) x => do
      let C ← atE tot (cp - target + 1 + x.1)
      let C' ← C.add x.2
      pure (tot.set (cp - target + 1 + x.1) C')) tot

/-- `compute_higher_representatives(n_dim, deg, current_page)`,
spectral_sequence_class.py:944-1031. -/
def computeHigher (rnd : α → α) (E : SSEnv α) (S : SSt α) (n deg cp : Nat) : Except PyErr (SSt α) :=
  let h := (S.hom cp n deg).basis
  if h.dim = 0 then .ok { S with reps := upd S.reps cp n deg [] }
  else do
    let tot ← (S.reps (cp - 1) n deg).mapM fun C => C.sums h.coords.cols h.coords.nrows
    if n < cp then pure { S with reps := upd S.reps cp n deg tot }
    else do
      let tot ← ((List.range (cp - 1)).map fun i => cp - i).foldlM
        (higherRound rnd E S (n - cp) (deg + cp - 1) cp h.barcode) tot
      let last ← atE tot (tot.length - 1)
      let out ← cechDiffAndLift E (n - cp) (deg + cp - 1) last (h.barcode.map Prod.fst)
      if anyRows out.1 then .error .runtimeError
      else pure { S with reps := upd S.reps cp n deg (tot ++ [out.2]) }

/-! ## Extensions -/

/-- Zeroing the representatives that are alive until `max_r`, spectral_sequence_class.py:1066-1073. -/
def zeroRows (mask : List Bool) (C : LChains) : LChains :=
  C.map fun e => ⟨e.ref, List.zipWith (fun r (row : List Int) =>
    if mask.getD r false then row else row.map fun _ => 0) e.ref e.coord⟩

/-- Subtracting the chains of the betas from one chain, spectral_sequence_class.py:1094-1110. -/
def subtractBeta (p : Nat) : LChains → LChains → Except PyErr LChains
  | [], _ => .ok []
  | _ :: _, [] => .error .indexError
  | e :: es, b :: bs => do
    let c ← if 0 < e.ref.length ∧ 0 < b.ref.length then
        if e.ref ≠ b.ref then Except.error PyErr.valueError
        else pure ⟨e.ref, List.zipWith (fun r s => (addRow r s).map fun x => x % (p : Int)) e.coord b.coord⟩
      else if 0 < b.ref.length then pure b
      else pure e
    let cs ← subtractBeta p es bs
    pure (c :: cs)

/-- spectral_sequence_class.py:1088-1113. -/
def extSubtract (E : SSEnv α) (S : SSt α) (n deg idx : Nat) (betas : Mat) (reps : List LChains) :
    Except PyErr (List LChains) :=
  ((List.range (S.reps (E.noPages - 1) n deg).length).zip (S.reps (E.noPages - 1) n deg)).foldlM
    (fun (reps : List LChains) x => do
      let b ← LChains.sums x.2 (betas.cols.map (scale (-1))) betas.nrows
      let C ← atE reps (x.1 + idx)
      let C' ← subtractBeta E.p C b
      pure (reps.set (x.1 + idx) C')) reps

/-- One round `target_page` of spectral_sequence_class.py:1115-1157. -/
def extRound (rnd : α → α) (E : SSEnv α) (S : SSt α) (n deg : Nat) (deaths : List α) (C : LChains)
    (target : Nat) : Except PyErr LChains := do
  let out ← firstPageLift E n deg C deaths
  match ← liftToPage rnd E S n deg target out.1 (deaths.map fun d => (d, E.maxR)) with
  | none => pure C
  | some (betas, gammas) =>
    if anyRows betas.cols then .error .runtimeError
    else if anyRows gammas.cols = false then pure C
    else
      match S.im (target - 1) n deg with
      | none => .error .attributeError
      | some im =>
        let cls := gammas.cols.map fun g => mulVec im.coords (scale (-1) g)
        if target = 2 then do
          let cyc ← E.cyc n deg
          let I ← (spans cyc).foldlM (fun (acc : LChains) s =>
            if s.2.1 < s.2.2 then do
              let h0 ← E.hom0 n s.1 deg
              let rows ← localRows h0.coords im.coords.nrows cls s.2.1 s.2.2
              acc.addEntry s.1 (List.range gammas.ncols) rows
            else .ok acc) (LChains.zeros (E.spx n))
          C.add I
        else do
          let R0 ← atE (S.reps (target - 2) n deg) 0
          let I ← R0.sums cls im.coords.nrows
          C.add I

/-- The loop over the diagonal, spectral_sequence_class.py:1078-1176, on the remaining entries of
`Hom_reps`: `m` rounds starting from `idx`.  Returns the extension matrices. -/
def extLoop (rnd : α → α) (E : SSEnv α) (S : SSt α) (deaths : List α) :
    Nat → Nat → Nat → Nat → List LChains → Except PyErr (List Mat)
  | 0, _, _, _, _ => .ok []
  | m + 1, idx, n, deg, reps => do
    let C0 ← atE reps idx
    let out ← firstPageLift E n deg C0 deaths
    let bg ← liftToPage rnd E S n deg E.noPages out.1 (deaths.map fun d => (d, E.maxR))
    let betas : Mat := (bg.map Prod.fst).getD ⟨0, []⟩
    let reps ← if anyRows betas.cols then extSubtract E S n deg idx betas reps else pure reps
    let C1 ← atE reps idx
    let C ← ((List.range (E.noPages - 1)).map fun i => E.noPages - i).foldlM
      (extRound rnd E S n deg deaths) C1
    let out ← firstPageLift E n deg C deaths
    if anyRows out.1 then .error .runtimeError
    else do
      let reps ← if 0 < n then do
          let I ← cechDiff E (n - 1) (deg + 1) (out.2.minus E.p)
          let Cn ← atE reps (idx + 1)
          let Cn' ← Cn.add I
          pure (reps.set (idx + 1) Cn')
        else pure reps
      let rest ← extLoop rnd E S deaths m (idx + 1) (n - 1) (deg + 1) reps
      pure (betas :: rest)

/-- `extension(start_n_dim, start_deg)`, spectral_sequence_class.py:1037-1176; returns
`extensions[start_n_dim][start_deg]`.  A one dimensional barcode raises `IndexError`. -/
def extension (rnd : α → α) (E : SSEnv α) (S : SSt α) (n deg : Nat) : Except PyErr (List Mat) :=
  let h := (S.hom (E.noPages - 1) n deg).basis
  let reps := S.reps (E.noPages - 1) n deg
  if h.flat then .error .indexError
  else
    let deaths := h.barcode.map Prod.snd
    let mask := deaths.map fun d => decide (d < E.maxR)
    if mask.any id = false then
      .ok ((List.range reps.length).map fun i =>
        ⟨(S.hom (E.noPages - 1) (n - i) (deg + i)).basis.dim,
          List.replicate deaths.length (List.replicate
            (S.hom (E.noPages - 1) (n - i) (deg + i)).basis.dim 0)⟩)
    else extLoop rnd E S deaths reps.length 0 n deg (reps.map (zeroRows mask))

end Permaviss
