import Verif.Model.Barcode
import Verif.Model.Gauss

/-!
# `persistence_algebra/image_kernel.py`
-/

namespace Permaviss

variable {α : Type} [LinearOrder α]

/-- `M[:, col]`.  See image_kernel.py:182 and 227. -/
def Mat.col (M : Mat) (j : Nat) : List Int := M.cols.getD j []

/-- `M[:, col] = c`.  See image_kernel.py:189-190, 227 and 278. -/
def Mat.setCol (M : Mat) (j : Nat) (c : List Int) : Mat := ⟨M.nrows, M.cols.set j c⟩

/-- `M[idx]` for a list of row indices.  See image_kernel.py:128, 251 and 256. -/
def Mat.gatherRows (M : Mat) (idx : List Nat) : Mat := ⟨idx.length, M.cols.map fun c => gather c idx⟩

/-- `M[:, idx]` for a list of column indices.  See image_kernel.py:141, 257 and 260. -/
def Mat.gatherCols (M : Mat) (idx : List Nat) : Mat := ⟨M.nrows, gather M.cols idx⟩

/-- `np.any(T)`, also for `T = None`.  See image_kernel.py:281. -/
def anyMat : Option Mat → Bool
  | none => false
  | some T => T.cols.any npAny

/-- One column operation of `pivot_check_reduce`, image_kernel.py:278-284:
`M[:, col] = (inv * M[:, prev] + M[:, col]) % p`. -/
def addPrevCol (p : Nat) (inv : Int) (M : Mat) (prev col : Nat) : Mat :=
  M.setCol col (addArraysModC (scale inv (M.col prev)) (M.col col) p)

/-- The recursion of `pivot_check_reduce`, image_kernel.py:272-290, bounded by fuel.  Returns the
modified matrices and the pivot.  Python's own recursion limit is not modelled. -/
def pcrLoop (p : Nat) (active : List Nat) (col : Nat) (pivPrev : List Int) :
    Nat → Mat → Option Mat → Except PyErr (Mat × Option Mat × Int)
  | 0, _, _ => .error .outOfFuel
  | fuel + 1, M, T =>
    match indexPivot (active.map fun r => (M.col col).getD r 0 % (p : Int)) with
    | none => .ok (M, T, -1)
    | some k =>
      match pivPrev.findIdx? (· == (active.getD k 0 : Int)) with
      | none => .ok (M, T, (active.getD k 0 : Int))
      | some prev =>
        match invModP ((M.col prev).getD (active.getD k 0) 0) p with
        | .error e => .error e
        | .ok inv =>
          pcrLoop p active col pivPrev fuel (addPrevCol p inv M prev col)
            (if anyMat T then T.map fun T => addPrevCol p inv T prev col else T)

/-- `pivot_check_reduce(M, active_rows, col_idx, pivots_prev, p, T)`, image_kernel.py:272-290. -/
def pivotCheckReduce (p : Nat) (M : Mat) (active : List Nat) (col : Nat) (pivPrev : List Int)
    (T : Option Mat) : Except PyErr (Mat × Option Mat × Int) :=
  pcrLoop p active col pivPrev (M.nrows * p + 1) M T

/-- The data the main loop of `image_kernel` reads.  See image_kernel.py:118-146. -/
structure IKEnv (α : Type) where
  p : Nat
  A : Basis α
  B : Basis α
  F : Mat
  start : Nat

/-- `(not B.broken_basis) and (start_index == 0)`: kernels are computed.  See image_kernel.py:157, 172 and 244. -/
def IKEnv.full (E : IKEnv α) : Bool := E.B.brokenDiff.isNone && E.start == 0

/-- The variables the main loop of `image_kernel` writes.  `imDeath` is `Im_barcode[:, 1]`; the
births `Im_barcode[:, 0]` never change.  See image_kernel.py:147-163. -/
structure IK (α : Type) where
  im : Mat
  T : Mat
  pivIm : List Int
  imDeath : List α
  ker : Mat
  pivKer : List Int
  kerBar : List (α × α)
  kdim : Nat
  deriving DecidableEq

/-- `multiply_mod_p(F[:, idx], v[idx], p)`, image_kernel.py:183-185 (and 232-233 with all indices). -/
def mulAt (p : Nat) (F : Mat) (idx : List Nat) (v : List Int) : List Int :=
  (List.range F.nrows).map fun i => (idx.map fun k => F.get i k * v.getD k 0).sum % (p : Int)

/-- `t[idx] = v[idx]`.  See image_kernel.py:193-194 and 231. -/
def overwriteAt (idx : List Nat) (t v : List Int) : List Int :=
  (List.range t.length).map fun i => if i ∈ idx then v.getD i 0 else t.getD i 0

/-- The update of the image by a kernel generator which changes pivot to `s`,
image_kernel.py:181-194. -/
def kerHit (E : IKEnv α) (rad : α) (activeA activeB : List Nat) (cyc : List Int) (s : Nat)
    (st : IK α) : Except PyErr (IK α) :=
  if npAny (activeB.map fun r => (mulAt E.p E.F activeA cyc).getD r 0) then .error .valueError
  else if st.pivIm.getD s 0 ≠ -1 then
    .ok { st with
      imDeath := st.imDeath.set s rad
      im := st.im.setCol s (mulAt E.p E.F activeA cyc)
      pivIm := st.pivIm.set s (-1)
      T := st.T.setCol s (overwriteAt activeA (st.T.col s) cyc) }
  else .ok { st with imDeath := st.imDeath.set s rad }

/-- One round of the loop over kernel generators, image_kernel.py:174-199.  `old` is the copy of
`pivots_Ker` taken before the loop; the second component of the state is `new_pivots`. -/
def kerStep (E : IKEnv α) (rad : α) (activeA activeB dyingA : List Nat) (old : List Int)
    (s : IK α × List Int) (c : Nat) : Except PyErr (IK α × List Int) :=
  if dyingA.any (fun d => (d : Int) == old.getD c 0) || s.2.contains (old.getD c 0) then
    match pivotCheckReduce E.p s.1.ker activeA c (s.1.pivKer.take c) none with
    | .error e => .error e
    | .ok (K, _, q) =>
      if q ≠ -1 then
        match kerHit E rad activeA activeB (K.col c) q.toNat
            { s.1 with ker := K, pivKer := s.1.pivKer.set c q } with
        | .error e => .error e
        | .ok st => .ok (st, s.2 ++ [q])
      else
        .ok ({ s.1 with
          ker := K
          pivKer := s.1.pivKer.set c q
          kerBar := s.1.kerBar.set c ((s.1.kerBar.getD c (rad, rad)).1, rad) }, s.2)
  else .ok s

/-- The loop over kernel generators, image_kernel.py:173-200. -/
def kerPhase (E : IKEnv α) (rad : α) (activeA activeB dyingA : List Nat) (st : IK α) :
    Except PyErr (IK α) :=
  match (List.range E.A.dim).foldlM (kerStep E rad activeA activeB dyingA st.pivKer) (st, []) with
  | .error e => .error e
  | .ok s => .ok s.1

/-- One round of image_kernel.py:202-206. -/
def relKill (start : Nat) (rad : α) (st : IK α) (c : Nat) : IK α :=
  if start ≤ c ∧ st.pivIm.getD c 0 ≠ -1 then
    { st with imDeath := st.imDeath.set c rad, pivIm := st.pivIm.set c (-1) }
  else st

/-- The relative or broken case, image_kernel.py:201-210. -/
def relPhase (E : IKEnv α) (rad : α) (dyingA : List Nat) (st : IK α) : Except PyErr (IK α) :=
  if E.B.brokenDiff.isSome then
    match E.B.updateBroken E.p (dyingA.foldl (relKill E.start rad) st).im rad with
    | .error e => .error e
    | .ok M => .ok { dyingA.foldl (relKill E.start rad) st with im := M }
  else .ok (dyingA.foldl (relKill E.start rad) st)

/-- A new generator of the kernel, image_kernel.py:224-229.  The arrays have `A.dim` entries, writing
beyond raises `IndexError`. -/
def kerBirth (E : IKEnv α) (rad : α) (c : Nat) (st : IK α) : Except PyErr (IK α) :=
  if st.kdim < E.A.dim then
    .ok { st with
      kerBar := st.kerBar.set st.kdim (rad, (st.kerBar.getD st.kdim (rad, rad)).2)
      ker := st.ker.setCol st.kdim (st.T.col c)
      pivKer := st.pivKer.set st.kdim (c : Int)
      kdim := st.kdim + 1 }
  else .error .indexError

/-- `T[:, c][:start] *= 0` and the new coordinates, image_kernel.py:230-233. -/
def stripPrev (E : IKEnv α) (c : Nat) (st : IK α) : IK α :=
  { st with
    T := st.T.setCol c (overwriteAt (List.range E.start) (st.T.col c) [])
    im := st.im.setCol c (mulAt E.p E.F (List.range E.F.ncols)
      (overwriteAt (List.range E.start) (st.T.col c) [])) }

/-- Column `c` of the image became zero, image_kernel.py:221-233. -/
def imDie (E : IKEnv α) (rad : α) (dyingA : List Nat) (c : Nat) (st : IK α) :
    Except PyErr (IK α) :=
  if E.full then
    if dyingA.contains c then .ok { st with imDeath := st.imDeath.set c rad }
    else kerBirth E rad c { st with imDeath := st.imDeath.set c rad }
  else if 0 < E.start then .ok (stripPrev E c { st with imDeath := st.imDeath.set c rad })
  else .ok { st with imDeath := st.imDeath.set c rad }

/-- One round of the loop over image generators, image_kernel.py:213-235.  `old` is the copy of
`pivots_Im` taken before the loop. -/
def imStep (E : IKEnv α) (rad : α) (activeB dyingA birthA dyingB : List Nat) (old : List Int)
    (s : IK α × List Int) (c : Nat) : Except PyErr (IK α × List Int) :=
  if (decide (0 ≤ old.getD c 0) &&
        decide ((s.1.im.col c).getD (old.getD c 0).toNat 0 % (E.p : Int) = 0)) ||
      dyingB.any (fun d => (d : Int) == old.getD c 0) || s.2.contains (old.getD c 0) ||
      birthA.contains c then
    match pivotCheckReduce E.p s.1.im activeB c (s.1.pivIm.take c) (some s.1.T) with
    | .error e => .error e
    | .ok (M, T, q) =>
      if q ≠ -1 then
        .ok ({ s.1 with im := M, T := T.getD s.1.T, pivIm := s.1.pivIm.set c q }, s.2 ++ [q])
      else
        match imDie E rad dyingA c
            { s.1 with im := M, T := T.getD s.1.T, pivIm := s.1.pivIm.set c q } with
        | .error e => .error e
        | .ok st => .ok (st, s.2)
  else .ok s

/-- The loop over image generators, image_kernel.py:212-236. -/
def imPhase (E : IKEnv α) (rad : α) (activeB dyingA birthA dyingB : List Nat) (st : IK α) :
    Except PyErr (IK α) :=
  match (List.range E.A.dim).foldlM (imStep E rad activeB dyingA birthA dyingB st.pivIm)
      (st, []) with
  | .error e => .error e
  | .ok s => .ok s.1

/-- One radius of the main loop, image_kernel.py:166-236. -/
def ikRadius (E : IKEnv α) (st : IK α) (rad : α) : Except PyErr (IK α) := do
  let activeA ← E.A.active rad
  let activeB ← E.B.active rad
  let dyingA ← E.A.death rad
  let birthA ← E.A.birth rad
  let dyingB ← E.B.death rad
  let st ← if E.full then kerPhase E rad activeA activeB dyingA st else relPhase E rad dyingA st
  imPhase E rad activeB dyingA birthA dyingB st

/-- The main loop over the radii at which something changes, image_kernel.py:166-237. -/
def ikLoop (E : IKEnv α) : List α → IK α → Except PyErr (IK α)
  | [], st => .ok st
  | rad :: l, st =>
    match ikRadius E st rad with
    | .error e => .error e
    | .ok st => ikLoop E l st

/-- `a`, image_kernel.py:146. -/
def IKEnv.radii (E : IKEnv α) : List α := npUnique (E.A.changesList ++ E.B.changesList)

/-- The variables before the loop, image_kernel.py:147-163. -/
def IKEnv.init [Zero α] (E : IKEnv α) : IK α :=
  { im := E.F
    T := ⟨E.A.dim, identityCols E.A.dim⟩
    pivIm := List.replicate E.A.dim (-2)
    imDeath := List.replicate E.A.dim 0
    ker := ⟨E.A.dim, List.replicate E.A.dim (List.replicate E.A.dim 0)⟩
    pivKer := List.replicate E.A.dim (-2)
    kerBar := List.replicate E.A.dim (0, 0)
    kdim := 0 }

/-- `if piv != -1: death = a[-1]`, image_kernel.py:238-250. -/
def killAlive (last : Option α) (pivs : List Int) (deaths : List α) : List α :=
  List.zipWith (fun q d => if q ≠ -1 then last.getD d else d) pivs deaths

/-- `np.argsort(order)` for a permutation `order` of `0 … n-1`: the inverse permutation.
See image_kernel.py:129 and 140. -/
def argsortPerm (order : List Nat) : List Nat := (List.range order.length).map fun i => order.idxOf i

/-- Ordering `B`, image_kernel.py:121-129.  Returns the new `B`, `F` and `return_order_B`. -/
def sortRange (rnd : α → α) (B : Basis α) (F : Mat) : Except PyErr (Basis α × Mat × List Nat) :=
  if B.sorted then .ok (B, F, List.range B.dim)
  else do
    let B1 ← Basis.init B.barcode B.flat none ⟨0, []⟩ false B.brokenDiff.isSome B.brokenDiff
    let (B2, order) ← B1.sort rnd
    pure (B2, F.gatherRows order, argsortPerm order)

/-- Ordering `A` from `start` on, image_kernel.py:131-143.  Returns the new `A`, `F` and
`return_order_A`. -/
def sortDomain (rnd : α → α) (A : Basis α) (F : Mat) (start : Nat) :
    Except PyErr (Basis α × Mat × List Nat) :=
  if A.sorted then .ok (A, F, List.range A.dim)
  else do
    let A1 ← Basis.init (A.barcode.drop start) A.flat none ⟨0, []⟩ false false none
    let (A2, order) ← A1.sort rnd
    let A3 ← Basis.init (A.barcode.take start ++ A2.barcode) A.flat none ⟨0, []⟩ false false none
    pure (A3, F.gatherCols (List.range start ++ order.map (· + start)), argsortPerm order)

/-- The result of `image_kernel`; `ker` is `none` in the relative and broken cases.  See image_kernel.py:261-268. -/
structure IKOut (α : Type) where
  im : Basis α
  ker : Option (Basis α)
  preIm : Mat
  deriving DecidableEq

/-- The bases built after the loop, image_kernel.py:238-268.  `dimA`, `dimB` are the dimensions of
the original bases. -/
def ikFinish (rnd : α → α) (E : IKEnv α) (dimA dimB : Nat) (retA retB : List Nat) (st : IK α) :
    Except PyErr (IKOut α) := do
  let deaths := killAlive E.radii.getLast? st.pivIm st.imDeath
  let im0 ← Basis.init (((E.A.barcode.map Prod.fst).zip deaths).drop E.start) false (some dimB)
    ⟨retB.length, (st.im.gatherRows retB).cols.drop E.start⟩ true false none
  -- `T[start_index:][return_order_A]`
  if retA.all (fun i => decide (i < E.A.dim - E.start)) then
    let pre : Mat := ⟨retA.length,
      (st.T.cols.drop E.start).map fun c => gather (c.drop E.start) retA⟩
    let pre1 : Mat := ⟨pre.nrows, maskBy (im0.wellDefined.getD []) pre.cols⟩
    let (im1, order) ← im0.sort rnd
    let pre2 := pre1.gatherCols order
    if E.full then
      let kd := killAlive E.radii.getLast? (st.pivKer.take st.kdim)
        ((st.kerBar.take st.kdim).map Prod.snd)
      let ker0 ← Basis.init (((st.kerBar.take st.kdim).map Prod.fst).zip kd) false (some dimA)
        ⟨retA.length, (st.ker.gatherRows retA).cols.take st.kdim⟩ false false none
      let (ker1, _) ← ker0.sort rnd
      pure ⟨im1, some ker1, pre2⟩
    else pure ⟨im1, none, pre2⟩
  else .error .indexError

/-- `image_kernel(A, B, F, p, start_index)`, image_kernel.py:19-268. -/
def imageKernel [Zero α] (rnd : α → α) (p : Nat) (A B : Basis α) (F : Mat) (start : Nat) :
    Except PyErr (IKOut α) :=
  if B.dim ≠ F.nrows ∨ A.dim ≠ F.ncols then .error .valueError
  else do
    let (B', F1, retB) ← sortRange rnd B F
    let (A', F2, retA) ← sortDomain rnd A F1 start
    if A'.flat then .error .indexError  -- `A.barcode[:, 0]`
    else
      let E : IKEnv α := ⟨p, A', B', F2, start⟩
      let st ← ikLoop E E.radii E.init
      ikFinish rnd E A.dim B.dim retA retB st

end Permaviss
