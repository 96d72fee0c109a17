import Verif.Spec.Chains
import Verif.Spec.VRHomology
import Verif.Spec.Cover
import Verif.Spec.Vec
import Verif.Spec.Complex
import Verif.Model.Spectral
import Mathlib.Data.ZMod.Basic

/-!
# Specification: distance tables, and chains on the pieces of a cover
-/

namespace Permaviss

/-- What `dist.squareform(dist.pdist(cloud))` is: the table of the distances `d a b` between the points
of the cloud.  Nothing is assumed of `d` except that it is not negative. -/
structure IsDistTable {Pt α : Type} [LE α] [Zero α] (pdist : List Pt → List (List α))
    (d : Pt → Pt → α) : Prop where
  table : ∀ c, pdist c = c.map fun a => c.map (d a)
  nonneg : ∀ a b, 0 ≤ d a b

/-- The radius of a simplex: the largest of the distances between its points, and `0` for a vertex.
`pt v` is the point with number `v`. -/
def diam {Pt α : Type} [LinearOrder α] [Zero α] (d : Pt → Pt → α) (pt : ℕ → Pt) (s : List ℕ) : α :=
  (s.flatMap fun u => (s.filter fun v => decide (u < v)).map fun v => d (pt v) (pt u)).foldr max 0

/-- The inputs of `create_MV_ss` that are considered: a prime `p`, a table of distances, a sorting
routine, a positive radius, and a nonempty cloud in `dim > 0` coordinates whose points do not all
coincide (`side > 0`; see `IsBox`). -/
structure MVInput {K : Type} [Field K] [LinearOrder K] (pdist : List (List K) → List (List K))
    (d : List K → List K → K) (argsort : List K → List Nat) (maxR : K) (maxDiv dim : ℕ)
    (cloud : List (List K)) (p : ℕ) (lo hi : ℕ → K) (side : K) : Prop where
  prime : p.Prime
  dist : IsDistTable pdist d
  sort : IsArgsort argsort
  radius : 0 < maxR
  points : cloud ≠ []
  dim_pos : 0 < dim
  div_pos : 0 < maxDiv
  box : IsBox maxDiv dim cloud lo hi side
  side_pos : 0 < side

/-! ## Chains on the pieces of a cover -/

section

variable {α : Type} [LinearOrder α] [Zero α]

/-- The simplices of dimension `deg` of a piece, as lists of points of the whole cloud; `pts` are the
numbers of the points of the piece. -/
def LocalOut.glob (o : LocalOut α) (pts : List ℕ) (deg : ℕ) : List (List ℕ) :=
  (simplicesOf o.cpx.verts o.cpx.simplices deg).map fun s => s.map fun v => pts.getD v 0

/-- The simplices of dimension `deg` of piece `k` of column `n`, in the order of the complex stored
for that piece, as lists of points of the whole cloud. -/
def SSEnv.G (E : SSEnv α) (n k deg : ℕ) : List (List ℕ) :=
  match E.piece n k, E.pts n k with
  | .ok o, .ok pts => o.glob pts deg
  | _, _ => []

/-- The numbers of simplices of dimension `deg` of the pieces of column `n`. -/
def SSEnv.widths (E : SSEnv α) (n deg : ℕ) : List ℕ :=
  (List.range (E.spx n)).map fun k => (E.G n k deg).length

/-- The coefficient mod `p` of the simplex `s` in expression `g` on piece `k` of column `n`. -/
def SSEnv.coef (E : SSEnv α) (n deg : ℕ) (C : LChains) (k g : ℕ) (s : List ℕ) : ZMod E.p :=
  if s ∈ E.G n k deg then (C.val k g ((E.G n k deg).idxOf s) : ZMod E.p) else 0

/-- The coordinates `v` are, piece by piece, the vertical boundary of the coordinates `c` of chains of
dimension `deg + 1`: the product with the matrix `zero_diff` of the piece. -/
def IsVertical (E : SSEnv α) (n deg : ℕ) (c v : ℕ → ℕ → ℕ → ZMod E.p) : Prop :=
  ∀ k < E.spx n, ∃ o M, E.piece n k = .ok o ∧ o.diff[deg]? = some M ∧
    ∀ g, ∀ i < M.nrows, v k g i = ∑ j ∈ Finset.range M.ncols, M.z E.p i j * c k g j

end

end Permaviss
