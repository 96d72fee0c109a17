import Verif.Spec.Memory
import Verif.Model.PH

/-!
# The functions that write to arrays, with the memory they work on

`gauss_col`, `gauss_col_rad`, `persistent_homology` and `update_broken` again, with references to arrays, copies,
views and writes as in the code.  A call returns a value or an exception, and the memory it leaves in both cases.
-/

namespace Permaviss

/-- Sequence of two statements: an exception in the first leaves the memory as it is then.
See gauss_mod_p.py:40-170. -/
def thenDo {X Y : Type} (x : Except PyErr X × Memory) (f : X → Memory → Except PyErr Y × Memory) :
    Except PyErr Y × Memory :=
  match x.1 with
  | .ok a => f a x.2
  | .error e => (.error e, x.2)

/-- `np.identity(N)`, gauss_mod_p.py:69 and 135. -/
def identityBuf (N : Nat) : Buf := ⟨N, N, fun i j => if i = j then 1 else 0⟩

/-- `A % p`, gauss_mod_p.py:134. -/
def modBuf (p : Nat) (b : Buf) : Buf := { b with entry := fun i j => b.entry i j % (p : Int) }

/-- The two writes of gauss_mod_p.py:82-84 (and 151-153): rows `j` of `R` and `T` are changed. -/
def cancelMem (p : Nat) (R T : Ref) (j k pivot : Nat) (m : Memory) : Except PyErr Unit × Memory :=
  match invModP (((m.at_ R).row k).getD pivot 0) p with
  | .error e => (.error e, m)
  | .ok inv =>
    let q := (((m.at_ R).row j).getD pivot 0 * inv) % (p : Int)
    let m1 := m.setRow R j (addArraysModC ((m.at_ R).row j) (scale (-q) ((m.at_ R).row k)) p)
    (.ok (), m1.setRow T j (addArraysModC ((m1.at_ T).row j) (scale (-q) ((m1.at_ T).row k)) p))

/-- The `while` loop of `gauss_col`, gauss_mod_p.py:72-93; see `reduceCol`. -/
def reduceMem (p : Nat) (R T : Ref) (j : Nat) : Nat → Memory → Except PyErr Unit × Memory
  | 0, m => (.error .outOfFuel, m)
  | fuel + 1, m =>
    match indexPivot ((m.at_ R).row j) with
    | none => (.ok (), m)
    | some pivot =>
      match (List.range j).find? fun k => indexPivot ((m.at_ R).row k) == some pivot with
      | none => (.ok (), m)
      | some k => thenDo (cancelMem p R T j k pivot m) fun _ m => reduceMem p R T j fuel m

/-- The loop over the columns, gauss_mod_p.py:71-94. -/
def gaussLoopMem (p : Nat) (R T : Ref) : List Nat → Memory → Except PyErr Unit × Memory
  | [], m => (.ok (), m)
  | j :: js, m =>
    thenDo (reduceMem p R T j ((m.at_ R).ncols + 1) m) fun _ m => gaussLoopMem p R T js m

/-- `gauss_col(A, p)`, gauss_mod_p.py:40-95. -/
def gaussColMem (p : Nat) (a : Ref) (m : Memory) : Except PyErr (Ref × Ref) × Memory :=
  if (m.at_ a).nrows = 0 then
    let (r, m) := m.alloc ⟨0, 0, fun _ _ => 0⟩
    let (t, m) := m.alloc ⟨0, 0, fun _ _ => 0⟩
    (.ok (r, t), m)
  else
    let N := (m.at_ a).ncols
    let (R, m) := m.copy a.T
    let (T, m) := m.alloc (identityBuf N)
    thenDo (gaussLoopMem p R T (List.range N) m) fun _ m => (.ok (R.T, T.T), m)

section Radii

variable {α : Type} [LinearOrder α]

/-- The scan of `gauss_col_rad`, gauss_mod_p.py:145-160; see `radScan`. -/
def radScanMem (p : Nat) (R T : Ref) (rads : List α) (j : Nat) (rj : α) (pivot : Nat) :
    List Nat → Memory → Except PyErr Unit × Memory
  | [], m => (.ok (), m)
  | k :: ks, m =>
    match rads[k]? with
    | none => (.error .indexError, m)
    | some rk =>
      if rk ≤ rj ∧ indexPivot ((m.at_ R).row k) = some pivot then
        thenDo (cancelMem p R T j k pivot m) fun _ m =>
          if npAny ((m.at_ R).row j) then (.ok (), m) else radScanMem p R T rads j rj pivot ks m
      else radScanMem p R T rads j rj pivot ks m

/-- The `while` loop of `gauss_col_rad`, gauss_mod_p.py:141-168; see `radLoop`. -/
def radLoopMem (p : Nat) (R T : Ref) (rads : List α) (start j : Nat) (rj : α) :
    Nat → Memory → Except PyErr Unit × Memory
  | 0, m => (.error .outOfFuel, m)
  | fuel + 1, m =>
    match indexPivot ((m.at_ R).row j) with
    | none => (.ok (), m)
    | some pivot =>
      thenDo (radScanMem p R T rads j rj pivot (List.range start) m) fun _ m =>
        if indexPivot ((m.at_ R).row j) = some pivot then (.error .runtimeError, m)
        else radLoopMem p R T rads start j rj fuel m

/-- The loop over the columns from `start_index` on, gauss_mod_p.py:139-168. -/
def radColsMem (p : Nat) (R T : Ref) (rads : List α) (start : Nat) :
    List Nat → Memory → Except PyErr Unit × Memory
  | [], m => (.ok (), m)
  | j :: js, m =>
    match rads[j]? with
    | none => (.error .indexError, m)
    | some rj =>
      thenDo (radLoopMem p R T rads start j rj ((m.at_ R).ncols + 1) m) fun _ m =>
        radColsMem p R T rads start js m

/-- `gauss_col_rad(A, R, start_index, p)`, gauss_mod_p.py:98-170. -/
def gaussColRadMem (p : Nat) (a : Ref) (rads : List α) (start : Nat) (m : Memory) :
    Except PyErr (Ref × Ref) × Memory :=
  let N := (m.at_ a).ncols
  let (a', m) := m.alloc (modBuf p (m.at_ a))
  let (R, m) := m.copy a'.T
  let (T, m) := m.alloc (identityBuf N)
  thenDo (radColsMem p R T rads start ((List.range N).drop start) m) fun _ m => (.ok (R.T, T.T), m)

variable [Zero α]

/-- `Daux`, PH_classic.py:171-173: a copy, in which the columns in `pivots` are set to zero. -/
def clearMem (d : Ref) (pivots : List Nat) (m : Memory) : Ref × Memory :=
  let (aux, m) := m.copy d
  (aux, pivots.foldl (fun m j => m.setRow aux.T j (List.replicate (m.at_ aux).nrows 0)) m)

/-- One round of the main loop, PH_classic.py:167-223; see `phStep`.  What is computed from `Im_aux` and `T` goes to
new arrays and is returned as a value. -/
def phStepMem (p : Nat) (maxRad : α) (d : Ref) (Rp Rd : List α) (pivots : List Nat) (m : Memory) :
    Except PyErr (PHStep α) × Memory :=
  let ks := nonPivots (m.at_ d).ncols pivots
  let (aux, m1) := clearMem d pivots m
  thenDo (gaussColMem p aux m1) fun RT m2 =>
    if (m.at_ d).nrows = 0 ∧ ks ≠ [] then (.error .indexError, m2)
    else
      (.ok { pivots := ks.filterMap fun k => indexPivot ((m2.mat RT.1).cols.getD k [])
             finite := ks.filterMap (phFinite Rp Rd (m2.mat RT.1))
             im := ks.filterMap (phIm maxRad Rd (m2.mat RT.1) (m2.mat RT.2))
             infinite := ks.filterMap (phInfinite maxRad Rd (m2.mat RT.1) (m2.mat RT.2)) }, m2)

/-- The main loop, PH_classic.py:160-224; see `phLoop`. -/
def phLoopMem (p : Nat) (maxRad : α) : List Ref → List α → List (List α) → Memory →
    Except PyErr (List Nat × List (BarCol α) × List (PHLevel α)) × Memory
  | [], _, _, m => (.ok ([], [], []), m)
  | d :: ds, Rp, Rs, m =>
    thenDo (phLoopMem p maxRad ds (Rs.getD 0 []) Rs.tail m) fun x m =>
      thenDo (phStepMem p maxRad d Rp (Rs.getD 0 []) x.1 m) fun out m =>
        (.ok (out.pivots, out.finite, ⟨x.2.1 ++ out.infinite, out.im⟩ :: x.2.2), m)

/-- `persistent_homology(D, R, max_rad, p)`, PH_classic.py:18-271; see `persistentHomology`.  `ds` are the arrays
`D[1:]`. -/
def persistentHomologyMem (rnd : α → α) (p : Nat) (D0 : Nat) (ds : List Ref) (R : List (List α)) (maxRad : α)
    (m : Memory) : Except PyErr (PHOut α) × Memory :=
  if ds = [] then (.error .indexError, m)
  else
    thenDo (phLoopMem p maxRad ds (R.getD 0 []) R.tail m) fun x m =>
      (do
        let H0 ← storeHom rnd D0 D0 (phZero maxRad D0 x.1 x.2.1)
        let Hs ← storeHoms rnd maxRad x.2.2 R.tail
        let Is ← storeIms rnd maxRad x.2.2 D0 D0 R.tail
        let top ← Basis.init [] true none ⟨1, []⟩ false false none
        pure { hom := H0 :: Hs, im := Is.map Prod.fst ++ [top], preIm := ⟨0, []⟩ :: Is.map Prod.snd }, m)

end Radii

/-- `update_broken(A, rad, p)`, barcode_bases.py:341-385; see `Basis.updateBroken`.  Line 382 writes to the array of
the caller, line 383 makes a new one. -/
def updateBrokenMem {α : Type} [LinearOrder α] (p : Nat) (B : Basis α) (a : Ref) (rad : α) (m : Memory) :
    Except PyErr Ref × Memory :=
  match B.death rad with
  | .error e => (.error e, m)
  | .ok dying =>
    if dying = [] then (.ok a, m)
    else
      match B.brokenDiff with
      | none => (.error .typeError, m)
      | some BD =>
        let sum : Nat → Nat → Int := fun i j => (dying.map fun k => BD.get i k * (m.at_ a).entry k j).sum
        let m := dying.foldl (fun m i => m.setRow a i (List.replicate (m.at_ a).ncols 0)) m
        let (r, m) := m.alloc { m.at_ a with entry := fun i j => ((m.at_ a).entry i j + sum i j) % (p : Int) }
        (.ok r, m)

end Permaviss
