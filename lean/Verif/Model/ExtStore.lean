import Verif.Model.Spectral

/-!
# The list `extensions[start_n_dim][start_deg]`

`extension` returns nothing: it appends matrices to a list of the spectral sequence and then writes to its first
entries.  Here it is written again with this list, which keeps what earlier calls left in it.
-/

namespace Permaviss

variable {α : Type} [LinearOrder α]

/-- The matrix `Betas.T` of one round, spectral_sequence_class.py:1080-1086. -/
def extBetas (rnd : α → α) (E : SSEnv α) (S : SSt α) (deaths : List α) (idx n deg : Nat) (reps : List LChains) :
    Except PyErr Mat := do
  let C0 ← atE reps idx
  let out ← firstPageLift E n deg C0 deaths
  let bg ← liftToPage rnd E S n deg E.noPages out.1 (deaths.map fun d => (d, E.maxR))
  pure ((bg.map Prod.fst).getD ⟨0, []⟩)

/-- The rest of the round, spectral_sequence_class.py:1087-1173: the representatives for the next one. -/
def extReduce (rnd : α → α) (E : SSEnv α) (S : SSt α) (deaths : List α) (idx n deg : Nat) (betas : Mat)
    (reps : List LChains) : Except PyErr (List LChains) := do
  let reps ← if anyRows betas.cols then extSubtract E S n deg idx betas reps else pure reps
  let C1 ← atE reps idx
  let C ← ((List.range (E.noPages - 1)).map fun i => E.noPages - i).foldlM
    (extRound rnd E S n deg deaths) C1
  let out ← firstPageLift E n deg C deaths
  if anyRows out.1 then .error .runtimeError
  else if 0 < n then do
    let I ← cechDiff E (n - 1) (deg + 1) (out.2.minus E.p)
    let Cn ← atE reps (idx + 1)
    let Cn' ← Cn.add I
    pure (reps.set (idx + 1) Cn')
  else pure reps

/-- The loop over the diagonal, spectral_sequence_class.py:1078-1176; see `extLoop`.  Line 1086 writes entry `idx` of
the list, before the rest of the round, which may raise. -/
def extLoopStore (rnd : α → α) (E : SSEnv α) (S : SSt α) (deaths : List α) :
    Nat → Nat → Nat → Nat → List LChains → List Mat → Except PyErr Unit × List Mat
  | 0, _, _, _, _, store => (.ok (), store)
  | m + 1, idx, n, deg, reps, store =>
    match extBetas rnd E S deaths idx n deg reps with
    | .error e => (.error e, store)
    | .ok betas =>
      match extReduce rnd E S deaths idx n deg betas reps with
      | .error e => (.error e, store.set idx betas)
      | .ok reps => extLoopStore rnd E S deaths m (idx + 1) (n - 1) (deg + 1) reps (store.set idx betas)

/-- The matrices that are appended first, spectral_sequence_class.py:1055-1062. -/
def extZeros (E : SSEnv α) (S : SSt α) (n deg : Nat) : List Mat :=
  (List.range (S.reps (E.noPages - 1) n deg).length).map fun i =>
    ⟨(S.hom (E.noPages - 1) (n - i) (deg + i)).basis.dim,
      List.replicate (S.hom (E.noPages - 1) n deg).basis.barcode.length (List.replicate
        (S.hom (E.noPages - 1) (n - i) (deg + i)).basis.dim 0)⟩

/-- `extension(start_n_dim, start_deg)`, spectral_sequence_class.py:1037-1176, when
`extensions[start_n_dim][start_deg]` is `store`; returns the list it leaves, also when it raises. -/
def extensionStore (rnd : α → α) (E : SSEnv α) (S : SSt α) (n deg : Nat) (store : List Mat) :
    Except PyErr Unit × List Mat :=
  let h := (S.hom (E.noPages - 1) n deg).basis
  let reps := S.reps (E.noPages - 1) n deg
  if h.flat then (.error .indexError, store)
  else
    let deaths := h.barcode.map Prod.snd
    let mask := deaths.map fun d => decide (d < E.maxR)
    if mask.any id = false then (.ok (), store ++ extZeros E S n deg)
    else extLoopStore rnd E S deaths reps.length 0 n deg (reps.map (zeroRows mask)) (store ++ extZeros E S n deg)

/-- `extensions[start_n_dim][start_deg]` after `k` calls of `extension`; it is empty at first,
spectral_sequence_class.py:168-182. -/
def extensionCalls (rnd : α → α) (E : SSEnv α) (S : SSt α) (n deg : Nat) : Nat → List Mat
  | 0 => []
  | k + 1 => (extensionStore rnd E S n deg (extensionCalls rnd E S n deg k)).2

end Permaviss
