import Verif.Model.InPlace
import Verif.Model.ImageKernel

/-!
# `image_kernel` with the memory it works on

`persistence_algebra/image_kernel.py` again, with references to the arrays `F`, `Im_coordinates`, `T` and
`Ker_coordinates`, copies and writes as in the code; see `Model/ImageKernel`.  Barcodes and lists of pivots, which are
never shared, are values.  A call returns a value or an exception, and the memory it leaves in both cases.
-/

namespace Permaviss

/-- `A[:, j] = v`.  See image_kernel.py:189-190, 227 and 278. -/
def Memory.setCol (m : Memory) (r : Ref) (j : Nat) (v : List Int) : Memory := m.setRow r.T j v

/-- An array with the contents of a matrix.  See image_kernel.py:151-152, module_persistence_homology.py:49. -/
def Buf.ofMat (M : Mat) : Buf := ⟨M.nrows, M.ncols, M.get⟩

/-- `for c in l`: an exception ends the loop.  See image_kernel.py:166-237. -/
def foldMem {X : Type} (f : X → Nat → Memory → Except PyErr X × Memory) : List Nat → X → Memory →
    Except PyErr X × Memory
  | [], s, m => (.ok s, m)
  | c :: l, s, m => thenDo (f s c m) fun s m => foldMem f l s m

/-- image_kernel.py:278-284: `M[:, col] = (inv * M[:, prev] + M[:, col]) % p`. -/
def addPrevColMem (p : Nat) (inv : Int) (M : Ref) (prev col : Nat) (m : Memory) : Memory :=
  m.setCol M col (addArraysModC (scale inv ((m.mat M).col prev)) ((m.mat M).col col) p)

/-- The recursion of `pivot_check_reduce`, image_kernel.py:272-290; see `pcrLoop`.  The inverse, which the code computes
a second time for `T`, is computed once. -/
def pcrLoopMem (p : Nat) (active : List Nat) (col : Nat) (pivPrev : List Int) (M : Ref) (T : Option Ref) :
    Nat → Memory → Except PyErr Int × Memory
  | 0, m => (.error .outOfFuel, m)
  | fuel + 1, m =>
    match indexPivot (active.map fun r => ((m.mat M).col col).getD r 0 % (p : Int)) with
    | none => (.ok (-1), m)
    | some k =>
      match pivPrev.findIdx? (· == (active.getD k 0 : Int)) with
      | none => (.ok (active.getD k 0 : Int), m)
      | some prev =>
        match invModP (((m.mat M).col prev).getD (active.getD k 0) 0) p with
        | .error e => (.error e, m)
        | .ok inv =>
          let m1 := addPrevColMem p inv M prev col m
          pcrLoopMem p active col pivPrev M T fuel
            (match T with
              | some T => if anyMat (some (m1.mat T)) then addPrevColMem p inv T prev col m1 else m1
              | none => m1)

/-- `pivot_check_reduce(M, active_rows, col_idx, pivots_prev, p, T)`, image_kernel.py:272-290. -/
def pivotCheckReduceMem (p : Nat) (M : Ref) (active : List Nat) (col : Nat) (pivPrev : List Int) (T : Option Ref)
    (m : Memory) : Except PyErr Int × Memory :=
  pcrLoopMem p active col pivPrev M T ((m.at_ M).nrows * p + 1) m

variable {α : Type} [LinearOrder α]

/-- The variables that the main loop reads; see `IKEnv`.  See image_kernel.py:118-146. -/
structure IKEnvMem (α : Type) where
  p : Nat
  A : Basis α
  B : Basis α
  F : Ref
  start : Nat

/-- The same with the matrix that `F` holds.  See image_kernel.py:118-146. -/
def IKEnvMem.env (E : IKEnvMem α) (m : Memory) : IKEnv α := ⟨E.p, E.A, E.B, m.mat E.F, E.start⟩

/-- `(not B.broken_basis) and (start_index == 0)`.  See image_kernel.py:157, 172 and 244. -/
def IKEnvMem.full (E : IKEnvMem α) : Bool := E.B.brokenDiff.isNone && E.start == 0

/-- The variables that the main loop writes; see `IK`.  See image_kernel.py:147-163. -/
structure IKMem (α : Type) where
  im : Ref
  T : Ref
  pivIm : List Int
  imDeath : List α
  ker : Ref
  pivKer : List Int
  kerBar : List (α × α)
  kdim : Nat

/-- The same with the matrices that the arrays hold.  See image_kernel.py:147-163. -/
def IKMem.read (st : IKMem α) (m : Memory) : IK α :=
  ⟨m.mat st.im, m.mat st.T, st.pivIm, st.imDeath, m.mat st.ker, st.pivKer, st.kerBar, st.kdim⟩

/-- image_kernel.py:181-194; see `kerHit`.  `cycle_coord` is a view of column `c` of `Ker_coordinates`. -/
def kerHitMem (E : IKEnvMem α) (rad : α) (activeA activeB : List Nat) (c s : Nat) (st : IKMem α) (m : Memory) :
    Except PyErr (IKMem α) × Memory :=
  let new := mulAt E.p (m.mat E.F) activeA ((m.mat st.ker).col c)
  if npAny (activeB.map fun r => new.getD r 0) then (.error .valueError, m)
  else if st.pivIm.getD s 0 ≠ -1 then
    let m1 := m.setCol st.im s new
    (.ok { st with imDeath := st.imDeath.set s rad, pivIm := st.pivIm.set s (-1) },
      m1.setCol st.T s (overwriteAt activeA ((m1.mat st.T).col s) ((m1.mat st.ker).col c)))
  else (.ok { st with imDeath := st.imDeath.set s rad }, m)

/-- image_kernel.py:174-199; see `kerStep`. -/
def kerStepMem (E : IKEnvMem α) (rad : α) (activeA activeB dyingA : List Nat) (old : List Int)
    (s : IKMem α × List Int) (c : Nat) (m : Memory) : Except PyErr (IKMem α × List Int) × Memory :=
  if dyingA.any (fun d => (d : Int) == old.getD c 0) || s.2.contains (old.getD c 0) then
    thenDo (pivotCheckReduceMem E.p s.1.ker activeA c (s.1.pivKer.take c) none m) fun q m =>
      if q ≠ -1 then
        thenDo (kerHitMem E rad activeA activeB c q.toNat { s.1 with pivKer := s.1.pivKer.set c q } m) fun st m =>
          (.ok (st, s.2 ++ [q]), m)
      else
        (.ok ({ s.1 with
          pivKer := s.1.pivKer.set c q
          kerBar := s.1.kerBar.set c ((s.1.kerBar.getD c (rad, rad)).1, rad) }, s.2), m)
  else (.ok s, m)

/-- image_kernel.py:173-200; see `kerPhase`. -/
def kerPhaseMem (E : IKEnvMem α) (rad : α) (activeA activeB dyingA : List Nat) (st : IKMem α) (m : Memory) :
    Except PyErr (IKMem α) × Memory :=
  thenDo (foldMem (kerStepMem E rad activeA activeB dyingA st.pivKer) (List.range E.A.dim) (st, []) m) fun s m =>
    (.ok s.1, m)

/-- image_kernel.py:202-206; see `relKill`. -/
def relKillMem (start : Nat) (rad : α) (st : IKMem α) (c : Nat) : IKMem α :=
  if start ≤ c ∧ st.pivIm.getD c 0 ≠ -1 then
    { st with imDeath := st.imDeath.set c rad, pivIm := st.pivIm.set c (-1) }
  else st

/-- image_kernel.py:201-210; see `relPhase`.  Line 210 binds `Im_coordinates` to the array that `update_broken`
returns. -/
def relPhaseMem (E : IKEnvMem α) (rad : α) (dyingA : List Nat) (st : IKMem α) (m : Memory) :
    Except PyErr (IKMem α) × Memory :=
  let st := dyingA.foldl (relKillMem E.start rad) st
  if E.B.brokenDiff.isSome then
    thenDo (updateBrokenMem E.p E.B st.im rad m) fun r m => (.ok { st with im := r }, m)
  else (.ok st, m)

/-- image_kernel.py:224-229; see `kerBirth`. -/
def kerBirthMem (E : IKEnvMem α) (rad : α) (c : Nat) (st : IKMem α) (m : Memory) :
    Except PyErr (IKMem α) × Memory :=
  if st.kdim < E.A.dim then
    (.ok { st with
      kerBar := st.kerBar.set st.kdim (rad, (st.kerBar.getD st.kdim (rad, rad)).2)
      pivKer := st.pivKer.set st.kdim (c : Int)
      kdim := st.kdim + 1 }, m.setCol st.ker st.kdim ((m.mat st.T).col c))
  else (.error .indexError, m)

/-- image_kernel.py:230-233; see `stripPrev`. -/
def stripPrevMem (E : IKEnvMem α) (c : Nat) (st : IKMem α) (m : Memory) : Memory :=
  let m1 := m.setCol st.T c (overwriteAt (List.range E.start) ((m.mat st.T).col c) [])
  m1.setCol st.im c (mulAt E.p (m1.mat E.F) (List.range (m1.mat E.F).ncols) ((m1.mat st.T).col c))

/-- image_kernel.py:221-233; see `imDie`. -/
def imDieMem (E : IKEnvMem α) (rad : α) (dyingA : List Nat) (c : Nat) (st : IKMem α) (m : Memory) :
    Except PyErr (IKMem α) × Memory :=
  let st := { st with imDeath := st.imDeath.set c rad }
  if E.full then
    if dyingA.contains c then (.ok st, m) else kerBirthMem E rad c st m
  else if 0 < E.start then (.ok st, stripPrevMem E c st m)
  else (.ok st, m)

/-- image_kernel.py:213-235; see `imStep`. -/
def imStepMem (E : IKEnvMem α) (rad : α) (activeB dyingA birthA dyingB : List Nat) (old : List Int)
    (s : IKMem α × List Int) (c : Nat) (m : Memory) : Except PyErr (IKMem α × List Int) × Memory :=
  if (decide (0 ≤ old.getD c 0) &&
        decide (((m.mat s.1.im).col c).getD (old.getD c 0).toNat 0 % (E.p : Int) = 0)) ||
      dyingB.any (fun d => (d : Int) == old.getD c 0) || s.2.contains (old.getD c 0) ||
      birthA.contains c then
    thenDo (pivotCheckReduceMem E.p s.1.im activeB c (s.1.pivIm.take c) (some s.1.T) m) fun q m =>
      if q ≠ -1 then (.ok ({ s.1 with pivIm := s.1.pivIm.set c q }, s.2 ++ [q]), m)
      else
        thenDo (imDieMem E rad dyingA c { s.1 with pivIm := s.1.pivIm.set c q } m) fun st m => (.ok (st, s.2), m)
  else (.ok s, m)

/-- image_kernel.py:212-236; see `imPhase`. -/
def imPhaseMem (E : IKEnvMem α) (rad : α) (activeB dyingA birthA dyingB : List Nat) (st : IKMem α) (m : Memory) :
    Except PyErr (IKMem α) × Memory :=
  thenDo (foldMem (imStepMem E rad activeB dyingA birthA dyingB st.pivIm) (List.range E.A.dim) (st, []) m) fun s m =>
    (.ok s.1, m)

/-- One radius, image_kernel.py:166-236; see `ikRadius`. -/
def ikRadiusMem (E : IKEnvMem α) (st : IKMem α) (rad : α) (m : Memory) : Except PyErr (IKMem α) × Memory :=
  thenDo (E.A.active rad, m) fun activeA m =>
  thenDo (E.B.active rad, m) fun activeB m =>
  thenDo (E.A.death rad, m) fun dyingA m =>
  thenDo (E.A.birth rad, m) fun birthA m =>
  thenDo (E.B.death rad, m) fun dyingB m =>
  thenDo (if E.full then kerPhaseMem E rad activeA activeB dyingA st m else relPhaseMem E rad dyingA st m) fun st m =>
    imPhaseMem E rad activeB dyingA birthA dyingB st m

/-- The main loop, image_kernel.py:166-237; see `ikLoop`. -/
def ikLoopMem (E : IKEnvMem α) : List α → IKMem α → Memory → Except PyErr (IKMem α) × Memory
  | [], st, m => (.ok st, m)
  | rad :: l, st, m => thenDo (ikRadiusMem E st rad m) fun st m => ikLoopMem E l st m

/-- The variables before the loop, image_kernel.py:147-163; see `IKEnv.init`.  The arrays are a copy of `F` and two new
ones. -/
def ikInitMem [Zero α] (E : IKEnvMem α) (m : Memory) : IKMem α × Memory :=
  let (im, m) := m.copy E.F
  let (T, m) := m.alloc (identityBuf E.A.dim)
  let (ker, m) := m.alloc ⟨E.A.dim, E.A.dim, fun _ _ => 0⟩
  ({ im := im, T := T, ker := ker
     pivIm := List.replicate E.A.dim (-2)
     imDeath := List.replicate E.A.dim 0
     pivKer := List.replicate E.A.dim (-2)
     kerBar := List.replicate E.A.dim (0, 0)
     kdim := 0 }, m)

/-- Ordering `B`, image_kernel.py:121-129; see `sortRange`.  If `B` is ordered, `F` stays the array of the caller. -/
def sortRangeMem (rnd : α → α) (B : Basis α) (F : Ref) (m : Memory) :
    Except PyErr (Basis α × Ref × List Nat) × Memory :=
  if B.sorted then (.ok (B, F, List.range B.dim), m)
  else
    thenDo (Basis.init B.barcode B.flat none ⟨0, []⟩ false B.brokenDiff.isSome B.brokenDiff, m) fun B1 m =>
    thenDo (B1.sort rnd, m) fun x m =>
      let (F', m) := m.alloc (Buf.ofMat ((m.mat F).gatherRows x.2))
      (.ok (x.1, F', argsortPerm x.2), m)

/-- Ordering `A` from `start` on, image_kernel.py:131-143; see `sortDomain`. -/
def sortDomainMem (rnd : α → α) (A : Basis α) (F : Ref) (start : Nat) (m : Memory) :
    Except PyErr (Basis α × Ref × List Nat) × Memory :=
  if A.sorted then (.ok (A, F, List.range A.dim), m)
  else
    thenDo (Basis.init (A.barcode.drop start) A.flat none ⟨0, []⟩ false false none, m) fun A1 m =>
    thenDo (A1.sort rnd, m) fun x m =>
    thenDo (Basis.init (A.barcode.take start ++ x.1.barcode) A.flat none ⟨0, []⟩ false false none, m) fun A3 m =>
      let (F', m) := m.alloc (Buf.ofMat ((m.mat F).gatherCols (List.range start ++ x.2.map (· + start))))
      (.ok (A3, F', argsortPerm x.2), m)

/-- `image_kernel(A, B, F, p, start_index)`, image_kernel.py:19-268; see `imageKernel`.  What is built after the loop
goes to new arrays and is returned as a value. -/
def imageKernelMem [Zero α] (rnd : α → α) (p : Nat) (A B : Basis α) (F : Ref) (start : Nat) (m : Memory) :
    Except PyErr (IKOut α) × Memory :=
  if B.dim ≠ (m.at_ F).nrows ∨ A.dim ≠ (m.at_ F).ncols then (.error .valueError, m)
  else
    thenDo (sortRangeMem rnd B F m) fun x m =>
    thenDo (sortDomainMem rnd A x.2.1 start m) fun y m =>
    if y.1.flat then (.error .indexError, m)
    else
      let E : IKEnvMem α := ⟨p, y.1, x.1, y.2.1, start⟩
      let (st, m) := ikInitMem E m
      thenDo (ikLoopMem E (E.env m).radii st m) fun st m =>
        (ikFinish rnd (E.env m) A.dim B.dim y.2.2 x.2.2 (st.read m), m)

end Permaviss
