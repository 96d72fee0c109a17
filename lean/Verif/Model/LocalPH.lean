import Verif.Model.Complexes
import Verif.Model.PH

/-!
# Local persistent homology

Model of `local_persistent_homology`, MV_spectral_seq.py:287-340, the function run in parallel on
each element of the cover.
-/

namespace Permaviss

variable {α : Type} [LinearOrder α] [Zero α]

/-- The output of `local_persistent_homology`.  See MV_spectral_seq.py:340. -/
structure LocalOut (α : Type) where
  cpx : VRComplex α
  diff : List Mat
  ph : PHOut α
  deriving DecidableEq

/-- `local_persistent_homology`, MV_spectral_seq.py:324-340, from the local point cloud on.
`pdist` stands for `dist.squareform(dist.pdist(·))`; the empty cloud gets the empty matrix. -/
def localPersistentHomology {Pt : Type} (pdist : List Pt → List (List α))
    (argsort : List α → List Nat) (rnd : α → α) (cloud : List Pt) (maxR : α) (maxDim : Int) (p : Nat) :
    Except PyErr (LocalOut α) :=
  let dist := if cloud.length = 0 then [] else pdist cloud
  let V := vietorisRips argsort dist maxR maxDim
  match complexDifferentials V.verts V.simplices p with
  | .error e => .error e
  | .ok (D0, D) =>
    match persistentHomology rnd p D0 D (V.rad0 :: V.rads) maxR with
    | .error e => .error e
    | .ok out => .ok { cpx := V, diff := D, ph := out }

end Permaviss
