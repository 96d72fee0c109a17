import Verif.Model.LocalPH
import Verif.Spec.Machine

/-!
# The functions of `gauss_mod_p` on numbers of bounded precision

The definitions of `Model/Arith`, `Model/Gauss`, `Model/PH` and `Model/LocalPH` again, with the operations `+`, `*`,
`%` and `//` on entries of arrays replaced by the operations `o` of a machine.  Indices are exact.
-/

namespace Permaviss

variable (o : Ops)

/-- `add_arrays_mod_c`, arithmetic_mod_p.py:30-47. -/
def addArraysO (A B : List Int) (c : Nat) : List Int :=
  List.zipWith (fun a b => o.mod (o.add a b) c) A B

/-- The loop of `inv_mod_p`, arithmetic_mod_p.py:74-80; see `invLoop`. -/
def invLoopO : Nat → Int → Int → Int → Int → Option (Int × Int)
  | 0, _, _, _, _ => none
  | fuel + 1, a, b, x0, x1 =>
    if a = 0 then some (b, x0)
    else invLoopO fuel (o.mod b a) a x1 (o.add x0 (-o.mul (o.div b a) x1))

/-- `inv_mod_p`, arithmetic_mod_p.py:50-88. -/
def invModPO (a : Int) (p : Nat) : Except PyErr Int :=
  if o.mod a p = 0 then .error .valueError
  else
    match invLoopO o (a.natAbs + 1) a p 0 1 with
    | none => .error .outOfFuel
    | some (b, x0) =>
      if b ≠ 1 then .error .valueError
      else if x0 < 0 then .ok (o.add x0 p) else .ok x0

/-- `q * v` for a scalar `q`.  See gauss_mod_p.py:83-84 and 152-153. -/
def scaleO (q : Int) (v : List Int) : List Int := v.map fun x => o.mul q x

/-- One column operation, gauss_mod_p.py:82-84 (and 151-153). -/
def cancelPivotO (p : Nat) (pivot : Nat) (rtk rtj : List Int × List Int) :
    Except PyErr (List Int × List Int) := do
  let inv ← invModPO o (rtk.1.getD pivot 0) p
  let q := o.mod (o.mul (rtj.1.getD pivot 0) inv) p
  pure (addArraysO o rtj.1 (scaleO o (-q) rtk.1) p, addArraysO o rtj.2 (scaleO o (-q) rtk.2) p)

/-- The `while` loop of `gauss_col`, gauss_mod_p.py:72-93; see `reduceCol`. -/
def reduceColO (p : Nat) (done : List (List Int × List Int)) :
    Nat → List Int × List Int → Except PyErr (List Int × List Int)
  | 0, _ => .error .outOfFuel
  | fuel + 1, rt =>
    match indexPivot rt.1 with
    | none => .ok rt
    | some pivot =>
      match done.find? (fun k => indexPivot k.1 == some pivot) with
      | none => .ok rt
      | some rtk => do
        let rt' ← cancelPivotO o p pivot rtk rt
        reduceColO p done fuel rt'

/-- The loop over the columns, gauss_mod_p.py:71-94. -/
def gaussLoopO (p : Nat) : List (List Int × List Int) → List (List Int × List Int) →
    Except PyErr (List (List Int × List Int))
  | done, [] => .ok done
  | done, rt :: todo => do
    let rt' ← reduceColO o p done (rt.1.length + 1) rt
    gaussLoopO p (done ++ [rt']) todo

/-- `gauss_col(A, p)`, gauss_mod_p.py:40-95. -/
def gaussColO (p : Nat) (A : Mat) : Except PyErr (Mat × Mat) :=
  if A.nrows = 0 then .ok (⟨0, []⟩, ⟨0, []⟩)
  else do
    let rts ← gaussLoopO o p [] (A.cols.zip (identityCols A.cols.length))
    pure (⟨A.nrows, rts.map Prod.fst⟩, ⟨A.cols.length, rts.map Prod.snd⟩)

/-- `np.matmul` of a row and a column: the products are added from left to right.  Simplification: numpy may
add them in another order.  See functions.py:19. -/
def dotO (r c : List Int) : Int := (List.zipWith o.mul r c).foldl o.add 0

/-- `multiply_mod_p(A, B, p)`, functions.py:15-19. -/
def multiplyModPO (p : Nat) (A B : Mat) : Mat :=
  { nrows := A.nrows
    cols := B.cols.map fun b => (List.range A.nrows).map fun i =>
      o.mod (dotO o ((List.range A.cols.length).map fun k => A.get i k)
        ((List.range A.cols.length).map fun k => b.getD k 0)) p }

/-- `-v % p`, entry by entry.  See gauss_mod_p.py:234, functions.py:59 and 97. -/
def negModO (p : Nat) (v : List Int) : List Int := v.map fun x => o.mod (-x) p

/-- `solve_mod_p(A, b, p)`, functions.py:26-59. -/
def solveModPO (p : Nat) (A : Mat) (b : List Int) : Except PyErr (List Int) :=
  if A.nrows = 0 then .error .indexError
  else do
    let RT ← gaussColO o p ⟨A.nrows, A.cols ++ [b]⟩
    if npAny (RT.1.cols.getLastD []) then .error .valueError
    else .ok (negModO o p (RT.2.cols.getLastD []).dropLast)

section Radii

variable {α : Type} [LinearOrder α]

/-- The scan of `gauss_col_rad`, gauss_mod_p.py:145-160; see `radScan`. -/
def radScanO (p : Nat) (rj : α) (pivot : Nat) :
    List (α × (List Int × List Int)) → List Int × List Int → Except PyErr (List Int × List Int)
  | [], rt => .ok rt
  | k :: ks, rt =>
    if k.1 ≤ rj ∧ indexPivot k.2.1 = some pivot then do
      let rt' ← cancelPivotO o p pivot k.2 rt
      if npAny rt'.1 then .ok rt' else radScanO p rj pivot ks rt'
    else radScanO p rj pivot ks rt

/-- The `while` loop of `gauss_col_rad`, gauss_mod_p.py:141-168; see `radLoop`. -/
def radLoopO (p : Nat) (rj : α) (done : List (α × (List Int × List Int))) :
    Nat → List Int × List Int → Except PyErr (List Int × List Int)
  | 0, _ => .error .outOfFuel
  | fuel + 1, rt =>
    match indexPivot rt.1 with
    | none => .ok rt
    | some pivot => do
      let rt' ← radScanO o p rj pivot done rt
      if indexPivot rt'.1 = some pivot then .error .runtimeError
      else radLoopO p rj done fuel rt'

/-- What `gauss_col_rad` starts from, gauss_mod_p.py:131-135. -/
def radAllO (p : Nat) (A : Mat) (R : List α) : List (α × (List Int × List Int)) :=
  R.zip ((A.cols.map fun c => c.map fun x => o.mod x p).zip (identityCols A.cols.length))

/-- `gauss_col_rad(A, R, start_index, p)`, gauss_mod_p.py:98-170. -/
def gaussColRadO (p : Nat) (A : Mat) (R : List α) (start : Nat) : Except PyErr (Mat × Mat) := do
  let done := (radAllO o p A R).take start
  let out ← ((radAllO o p A R).drop start).mapM fun c => radLoopO o p c.1 done (c.2.1.length + 1) c.2
  let rts := done.map Prod.snd ++ out
  pure (⟨A.nrows, rts.map Prod.fst⟩, ⟨A.cols.length, rts.map Prod.snd⟩)

/-- One round of `gauss_barcodes`, gauss_mod_p.py:216-234. -/
def gaussBarcodesColO (p : Nat) (A : Mat) (rowBars colBars : List (α × α)) (start j : Nat) (bj : α) :
    Except PyErr (List Int) :=
  let rows := aliveAt rowBars bj
  let cols := aliveAt (colBars.take start) bj
  if rows = [] then .ok (List.replicate start 0)
  else do
    let RT ← gaussColO o p (subMat A rows (cols ++ [j]))
    if npAny (RT.1.cols.getLastD []) then .error .runtimeError
    else .ok ((List.range start).map
      (scatter cols (negModO o p (RT.2.cols.getLastD []).dropLast)))

/-- The lookup of `col_barcode[j, 0]`.  See gauss_mod_p.py:216-220. -/
def gaussBarcodesRoundO (p : Nat) (A : Mat) (rowBars colBars : List (α × α)) (start j : Nat) :
    Except PyErr (List Int) :=
  match colBars[j]? with
  | some b => gaussBarcodesColO o p A rowBars colBars start j b.1
  | none => .error .indexError

/-- `gauss_barcodes`, gauss_mod_p.py:173-236. -/
def gaussBarcodesO (p : Nat) (A : Mat) (rowBars colBars : List (α × α)) (start : Nat) :
    Except PyErr Mat := do
  let cs ← ((List.range A.cols.length).drop start).mapM
    (gaussBarcodesRoundO o p A rowBars colBars start)
  pure ⟨start, cs⟩

variable [Zero α]

/-- One round of the main loop, PH_classic.py:167-223; see `phStep`. -/
def phStepO (p : Nat) (maxRad : α) (D : Mat) (Rp Rd : List α) (pivots : List Nat) :
    Except PyErr (PHStep α) :=
  let ks := nonPivots D.ncols pivots
  match gaussColO o p (clearCols D pivots) with
  | .error e => .error e
  | .ok (Im, T) =>
    if D.nrows = 0 ∧ ks ≠ [] then .error .indexError
    else
      .ok { pivots := ks.filterMap fun k => indexPivot (Im.cols.getD k [])
            finite := ks.filterMap (phFinite Rp Rd Im)
            im := ks.filterMap (phIm maxRad Rd Im T)
            infinite := ks.filterMap (phInfinite maxRad Rd Im T) }

/-- The main loop, PH_classic.py:160-224; see `phLoop`. -/
def phLoopO (p : Nat) (maxRad : α) : List Mat → List α → List (List α) →
    Except PyErr (List Nat × List (BarCol α) × List (PHLevel α))
  | [], _, _ => .ok ([], [], [])
  | D :: Ds, Rp, Rs =>
    match phLoopO p maxRad Ds (Rs.getD 0 []) Rs.tail with
    | .error e => .error e
    | .ok (piv, fin, levels) =>
      match phStepO o p maxRad D Rp (Rs.getD 0 []) piv with
      | .error e => .error e
      | .ok out => .ok (out.pivots, out.finite, ⟨fin ++ out.infinite, out.im⟩ :: levels)

/-- `persistent_homology(D, R, max_rad, p)`, PH_classic.py:18-271; see `persistentHomology`. -/
def persistentHomologyO (rnd : α → α) (p : Nat) (D0 : Nat) (D : List Mat) (R : List (List α))
    (maxRad : α) : Except PyErr (PHOut α) :=
  if D = [] then .error .indexError
  else
    match phLoopO o p maxRad D (R.getD 0 []) R.tail with
    | .error e => .error e
    | .ok (piv, fin, levels) =>
      match storeHom rnd D0 D0 (phZero maxRad D0 piv fin) with
      | .error e => .error e
      | .ok H0 =>
        match storeHoms rnd maxRad levels R.tail with
        | .error e => .error e
        | .ok Hs =>
          match storeIms rnd maxRad levels D0 D0 R.tail with
          | .error e => .error e
          | .ok Is =>
            match Basis.init [] true none ⟨1, []⟩ false false none with
            | .error e => .error e
            | .ok top =>
              .ok { hom := H0 :: Hs
                    im := Is.map Prod.fst ++ [top]
                    preIm := ⟨0, []⟩ :: Is.map Prod.snd }

/-- `local_persistent_homology`, MV_spectral_seq.py:324-340; see `localPersistentHomology`.  The entries of the
differentials are `1`, `-1 % p` and `p - 1`. -/
def localPersistentHomologyO {Pt : Type} (pdist : List Pt → List (List α))
    (argsort : List α → List Nat) (rnd : α → α) (cloud : List Pt) (maxR : α) (maxDim : Int) (p : Nat) :
    Except PyErr (LocalOut α) :=
  let dist := if cloud.length = 0 then [] else pdist cloud
  let V := vietorisRips argsort dist maxR maxDim
  match complexDifferentials V.verts V.simplices p with
  | .error e => .error e
  | .ok (D0, D) =>
    match persistentHomologyO o rnd p D0 D (V.rad0 :: V.rads) maxR with
    | .error e => .error e
    | .ok out => .ok { cpx := V, diff := D, ph := out }

end Radii

end Permaviss
