import Verif.Model.MV

/-!
# The prime that all local chains of a process share

`local_chains.p` is an attribute of the class, local_chains_class.py:20.  The constructor of a spectral sequence sets
it (spectral_sequence_class.py:137), and `minus` reads it (local_chains_class.py:149) in `extension`
(spectral_sequence_class.py:1163), whatever the prime of the spectral sequence.  Here `extension` and `create_MV_ss`
are written again with the values that are read.
-/

namespace Permaviss

section Pages

variable {α : Type} [LinearOrder α] [Zero α]

/-- The loop of `extension`, spectral_sequence_class.py:1078-1176; see `extLoop`.  `q idx` is the value of
`local_chains.p` in round `idx`. -/
def extLoopAt (rnd : α → α) (E : SSEnv α) (S : SSt α) (deaths : List α) (q : Nat → Nat) :
    Nat → Nat → Nat → Nat → List LChains → Except PyErr (List Mat)
  | 0, _, _, _, _ => .ok []
  | m + 1, idx, n, deg, reps => do
    let C0 ← atE reps idx
    let out ← firstPageLift E n deg C0 deaths
    let bg ← liftToPage rnd E S n deg E.noPages out.1 (deaths.map fun d => (d, E.maxR))
    let betas : Mat := (bg.map Prod.fst).getD ⟨0, []⟩
    let reps ← if anyRows betas.cols then extSubtract E S n deg idx betas reps else pure reps
    let C1 ← atE reps idx
    let C ← ((List.range (E.noPages - 1)).map fun i => E.noPages - i).foldlM
      (extRound rnd E S n deg deaths) C1
    let out ← firstPageLift E n deg C deaths
    if anyRows out.1 then .error .runtimeError
    else do
      let reps ← if 0 < n then do
          let I ← cechDiff E (n - 1) (deg + 1) (out.2.minus (q idx))
          let Cn ← atE reps (idx + 1)
          let Cn' ← Cn.add I
          pure (reps.set (idx + 1) Cn')
        else pure reps
      let rest ← extLoopAt rnd E S deaths q m (idx + 1) (n - 1) (deg + 1) reps
      pure (betas :: rest)

/-- `extension(start_n_dim, start_deg)`, spectral_sequence_class.py:1037-1176; see `extension`. -/
def extensionAt (rnd : α → α) (E : SSEnv α) (S : SSt α) (q : Nat → Nat) (n deg : Nat) :
    Except PyErr (List Mat) :=
  let h := (S.hom (E.noPages - 1) n deg).basis
  let reps := S.reps (E.noPages - 1) n deg
  if h.flat then .error .indexError
  else
    let deaths := h.barcode.map Prod.snd
    let mask := deaths.map fun d => decide (d < E.maxR)
    if mask.any id = false then
      .ok ((List.range reps.length).map fun i =>
        ⟨(S.hom (E.noPages - 1) (n - i) (deg + i)).basis.dim,
          List.replicate deaths.length (List.replicate
            (S.hom (E.noPages - 1) (n - i) (deg + i)).basis.dim 0)⟩)
    else extLoopAt rnd E S deaths q reps.length 0 n deg (reps.map (zeroRows mask))

/-- MV_spectral_seq.py:222-236; see `extColumns`. -/
def extColumnsAt (rnd : α → α) (E : SSEnv α) (S : SSt α) (q : Nat → Nat → Nat) (deg : Nat) (dims : List Nat)
    (n : Nat) : Except PyErr (List (List Int)) :=
  if n = 0 ∨ S.pageDim E (E.noPages - 1) (deg - n) n = 0 then
    .ok (List.replicate (dims.getD n 0) (List.replicate dims.sum 0))
  else do
    let exts ← extensionAt rnd E S (q n) n (deg - n)
    if ((List.range exts.length).zip exts).all (fun x => x.2.nrows == 0 ||
        (x.2.nrows == dims.getD (n - x.1) 0 && x.2.ncols == dims.getD n 0 && decide (x.1 ≤ n))) then
      pure ((List.range (dims.getD n 0)).map fun j =>
        (List.range dims.length).flatMap fun m =>
          match exts[n - m]? with
          | some blk => if m ≤ n ∧ 0 < blk.nrows then blk.cols.getD j []
              else List.replicate (dims.getD m 0) 0
          | none => List.replicate (dims.getD m 0) 0)
    else .error .valueError

/-- MV_spectral_seq.py:210-276; see `diagonal`. -/
def diagonalAt (rnd : α → α) (E : SSEnv α) (S : SSt α) (q : Nat → Nat → Nat → Nat) (noColumns deg : Nat) :
    Except PyErr (Option (Basis α)) := do
  let idx := List.range (min (deg + 1) noColumns)
  let dims := idx.map fun n => S.pageDim E E.noPages (deg - n) n
  if dims.sum = 0 then pure none
  else do
    let cols ← idx.mapM (extColumnsAt rnd E S (q deg) deg dims)
    let bars := idx.flatMap fun n => (S.hom (E.noPages - 1) n (deg - n)).basis.barcode
    let im ← glueBars rnd E.p E.maxR bars ⟨dims.sum, cols.flatten⟩
    pure (some im)

/-- MV_spectral_seq.py:204-278; see `persistentList`. -/
def persistentListAt (rnd : α → α) (E : SSEnv α) (S : SSt α) (q : Nat → Nat → Nat → Nat) (noColumns : Nat) :
    Except PyErr (List (Basis α)) :=
  if E.rows = 0 then .error .indexError
  else do
    let rest ← ((List.range (E.rows - 1)).map (· + 1)).mapM (diagonalAt rnd E S q noColumns)
    pure ((S.hom (E.noPages - 1) 0 0).basis :: rest.filterMap id)

end Pages

/-- `create_MV_ss`, MV_spectral_seq.py:27-280; see `createMVss`.  `q deg n idx` is the value of `local_chains.p` in
round `idx` of `extension` at the position `n` of the diagonal `deg`. -/
def createMVssAt {K : Type} [Field K] [LinearOrder K] [FloorRing K] (pdist : List (List K) → List (List K))
    (argsort : List K → List Nat) (rnd : K → K) (maxR : K) (maxDim maxDiv : Nat) (overlap : K) (dim : Nat)
    (cloud : List (List K)) (p : Nat) (q : Nat → Nat → Nat → Nat) : Except PyErr (MVOut K) := do
  let E ← createEnv pdist argsort rnd maxR maxDim maxDiv overlap dim cloud p
  let S ← allPages rnd E (E.spxNumber.length - 1)
  let ph ← persistentListAt rnd E S q E.spxNumber.length
  pure { env := E, pages := S, persistentHomology := ph }

end Permaviss
