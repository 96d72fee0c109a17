import Verif.Model.ImageKernel

/-!
# `persistence_algebra/module_persistence_homology.py`
-/

namespace Permaviss

variable {α : Type} [LinearOrder α]

/-- `quotient(M, N, p)`, module_persistence_homology.py:17-53.  `amb` is `M.prev_basis`, and `same`
says whether `M.prev_basis` and `N.prev_basis` are the same object. -/
def quotient [Zero α] (rnd : α → α) (p : Nat) (M N amb : Basis α) (same : Bool) :
    Except PyErr (Basis α) :=
  if N.dim = 0 then .ok M
  else if !same then .error .valueError
  else if M.flat ∨ N.flat then .error .valueError  -- `np.concatenate` of arrays of different rank
  else do
    let NM ← Basis.init (N.barcode ++ M.barcode) false none ⟨0, []⟩ false false none
    if N.coords.nrows ≠ M.coords.nrows then .error .valueError
    else
      let out ← imageKernel rnd p NM amb ⟨M.coords.nrows, N.coords.cols ++ M.coords.cols⟩ N.dim
      pure out.im

/-- `barcode_basis([], prev)`.  See module_persistence_homology.py:96, 101 and 102. -/
def emptyBasis (prev : Basis α) : Basis α :=
  ⟨[], true, 0, some prev.dim, ⟨1, []⟩, false, none, none⟩

/-- The lists `Hom`, `Im`, `PreIm`; entries which are not written are `[]` in the code and `none`
here.  See module_persistence_homology.py:87-94. -/
structure MPH (α : Type) where
  hom : List (Option (Basis α))
  im : List (Option (Basis α))
  preIm : List (Option Mat)
  deriving DecidableEq

/-- Round `d` of the loop, module_persistence_homology.py:98-111.  The two bases `Ker` and `Im[d]`
compared in `quotient` were both built over the object `Base[d]`. -/
def mphStep [Zero α] (rnd : α → α) (p : Nat) (D : List Mat) (Base : List (Basis α)) (st : MPH α)
    (d : Nat) : Except PyErr (MPH α) :=
  match Base[d]?, Base[d - 1]? with
  | some Bd, some Bd1 =>
    if Bd.dim = 0 then
      .ok { st with im := st.im.set (d - 1) (some (emptyBasis Bd1)),
                    hom := st.hom.set d (some (emptyBasis Bd)) }
    else if Bd1.dim = 0 then
      .ok { st with im := st.im.set (d - 1) (some Bd1), hom := st.hom.set d (some Bd) }
    else
      match D[d]? with
      | none => .error .indexError
      | some F => do
        let out ← imageKernel rnd p Bd Bd1 F 0
        match out.ker, st.im[d]? with
        | some ker, some (some imd) => do
          let h ← quotient rnd p ker imd Bd true
          pure { hom := st.hom.set d (some h), im := st.im.set (d - 1) (some out.im),
                 preIm := st.preIm.set d (some out.preIm) }
        | _, _ => .error .valueError
  | _, _ => .error .indexError

/-- Degree zero, module_persistence_homology.py:113-123. -/
def mphZero [Zero α] (rnd : α → α) (p : Nat) (Base : List (Basis α)) (st : MPH α) :
    Except PyErr (MPH α) :=
  match Base[0]?, st.im[0]? with
  | some B0, some (some im0) =>
    if B0.dim = 0 then .ok { st with hom := st.hom.set 0 (some B0) }
    else do
      let ker0 ← Basis.init B0.barcode B0.flat (some B0.dim) ⟨B0.dim, identityCols B0.dim⟩
        false false none
      let (ker, _) ← ker0.sort rnd
      let h ← quotient rnd p ker im0 B0 true
      pure { st with hom := st.hom.set 0 (some h) }
  | _, _ => .error .indexError

/-- `module_persistence_homology(D, Base, p)`, module_persistence_homology.py:60-126.  With an empty
list `Base` the variable `d` of line 93 is not bound. -/
def modulePersistenceHomology [Zero α] (rnd : α → α) (p : Nat) (D : List Mat)
    (Base : List (Basis α)) : Except PyErr (MPH α) :=
  match Base[Base.length - 1]? with
  | none => .error .unboundLocalError
  | some top => do
    let st0 : MPH α :=
      { hom := List.replicate Base.length none
        im := (List.replicate Base.length none).set (Base.length - 1) (some (emptyBasis top))
        preIm := List.replicate Base.length none }
    let st ← ((List.range (Base.length - 1)).map fun i => Base.length - 1 - i).foldlM
      (mphStep rnd p D Base) st0
    mphZero rnd p Base st

end Permaviss
