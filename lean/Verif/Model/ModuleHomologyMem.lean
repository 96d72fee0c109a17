import Verif.Model.ImageKernelMem
import Verif.Model.ModuleHomology

/-!
# `module_persistence_homology` with the memory it works on

See `Model/ModuleHomology` and `Model/ImageKernelMem`.  `D` is a list of references to arrays, which may share memory.
-/

namespace Permaviss

variable {α : Type} [LinearOrder α] [Zero α]

/-- `quotient(M, N, p)`, module_persistence_homology.py:17-53; see `quotient`.  The matrix `(N|M)` is a new array. -/
def quotientMem (rnd : α → α) (p : Nat) (M N amb : Basis α) (same : Bool) (m : Memory) :
    Except PyErr (Basis α) × Memory :=
  if N.dim = 0 then (.ok M, m)
  else if !same then (.error .valueError, m)
  else if M.flat ∨ N.flat then (.error .valueError, m)
  else
    thenDo (Basis.init (N.barcode ++ M.barcode) false none ⟨0, []⟩ false false none, m) fun NM m =>
      if N.coords.nrows ≠ M.coords.nrows then (.error .valueError, m)
      else
        let (F, m) := m.alloc (Buf.ofMat ⟨M.coords.nrows, N.coords.cols ++ M.coords.cols⟩)
        thenDo (imageKernelMem rnd p NM amb F N.dim m) fun out m => (.ok out.im, m)

/-- Round `d` of the loop, module_persistence_homology.py:98-111; see `mphStep`. -/
def mphStepMem (rnd : α → α) (p : Nat) (D : List Ref) (Base : List (Basis α)) (st : MPH α) (d : Nat) (m : Memory) :
    Except PyErr (MPH α) × Memory :=
  match Base[d]?, Base[d - 1]? with
  | some Bd, some Bd1 =>
    if Bd.dim = 0 then
      (.ok { st with im := st.im.set (d - 1) (some (emptyBasis Bd1)),
                     hom := st.hom.set d (some (emptyBasis Bd)) }, m)
    else if Bd1.dim = 0 then
      (.ok { st with im := st.im.set (d - 1) (some Bd1), hom := st.hom.set d (some Bd) }, m)
    else
      match D[d]? with
      | none => (.error .indexError, m)
      | some F =>
        thenDo (imageKernelMem rnd p Bd Bd1 F 0 m) fun out m =>
          match out.ker, st.im[d]? with
          | some ker, some (some imd) =>
            thenDo (quotientMem rnd p ker imd Bd true m) fun h m =>
              (.ok { hom := st.hom.set d (some h), im := st.im.set (d - 1) (some out.im),
                     preIm := st.preIm.set d (some out.preIm) }, m)
          | _, _ => (.error .valueError, m)
  | _, _ => (.error .indexError, m)

/-- Degree zero, module_persistence_homology.py:113-123; see `mphZero`. -/
def mphZeroMem (rnd : α → α) (p : Nat) (Base : List (Basis α)) (st : MPH α) (m : Memory) :
    Except PyErr (MPH α) × Memory :=
  match Base[0]?, st.im[0]? with
  | some B0, some (some im0) =>
    if B0.dim = 0 then (.ok { st with hom := st.hom.set 0 (some B0) }, m)
    else
      thenDo (Basis.init B0.barcode B0.flat (some B0.dim) ⟨B0.dim, identityCols B0.dim⟩ false false none, m) fun ker0 m =>
      thenDo (ker0.sort rnd, m) fun x m =>
      thenDo (quotientMem rnd p x.1 im0 B0 true m) fun h m => (.ok { st with hom := st.hom.set 0 (some h) }, m)
  | _, _ => (.error .indexError, m)

/-- `module_persistence_homology(D, Base, p)`, module_persistence_homology.py:60-126; see
`modulePersistenceHomology`. -/
def modulePersistenceHomologyMem (rnd : α → α) (p : Nat) (D : List Ref) (Base : List (Basis α)) (m : Memory) :
    Except PyErr (MPH α) × Memory :=
  match Base[Base.length - 1]? with
  | none => (.error .unboundLocalError, m)
  | some top =>
    thenDo (foldMem (mphStepMem rnd p D Base) ((List.range (Base.length - 1)).map fun i => Base.length - 1 - i)
      { hom := List.replicate Base.length none
        im := (List.replicate Base.length none).set (Base.length - 1) (some (emptyBasis top))
        preIm := List.replicate Base.length none } m) fun st m => mphZeroMem rnd p Base st m

end Permaviss
