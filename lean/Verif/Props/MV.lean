import Verif.Props.Pages
import Verif.Spec.Cech

/-!
# The result of the spectral sequence (C54)
-/

namespace Permaviss

/-! ### A cloud on which `create_MV_ss` raises

The corners of a rectangle with sides `4872` and `6496`, and two poles at distance `6409` of the
corners.  The points lie in a four dimensional space. -/

def gapCloud : List (List ℚ) :=
  [[0, 2436, 2240, 2352], [0, -2436, 2240, 2352], [0, -2436, -2240, -2352], [0, 2436, -2240, -2352],
   [4959, 0, 0, 0], [-4959, 0, 0, 0]]

/-- The squared Euclidean distance. -/
def sqDist (a b : List ℚ) : ℚ := (List.zipWith (fun x y => (x - y) * (x - y)) a b).sum

/-- The Euclidean distances between the points of the cloud. -/
def gapD (a b : List ℚ) : ℚ :=
  if sqDist a b = 0 then 0 else if sqDist a b = 4872 ^ 2 then 4872
  else if sqDist a b = 6496 ^ 2 then 6496 else if sqDist a b = 8120 ^ 2 then 8120
  else if sqDist a b = 6409 ^ 2 then 6409 else 9918

def gapDist (c : List (List ℚ)) : List (List ℚ) := c.map fun a => c.map (gapD a)

theorem gapDist_table : IsDistTable gapDist gapD := by
  refine ⟨fun c => rfl, fun a b => ?_⟩
  unfold gapD
  split_ifs <;> norm_num

/-- The distances are the Euclidean ones. -/
example : ∀ a ∈ gapCloud, ∀ b ∈ gapCloud, gapD a b ^ 2 = sqDist a b := by decide +kernel

/-- **C54 fails**: for six points of a four dimensional space, with `max_r = 7000`, `max_dim = 2`,
`max_div = 2`, overlap `7001` and `p = 5`, `create_MV_ss` raises `ValueError`, while
`persistent_homology` on the whole complex returns three barcodes: six components, one short loop,
and one void. -/
theorem C54_violated :
    (createMVss gapDist stableArgsort id 7000 2 2 7001 4 gapCloud 5).map
      (fun o => o.persistentHomology.map Basis.barcode) = .error .valueError ∧
    (localPersistentHomology gapDist stableArgsort id gapCloud 7000 2 5).map
      (fun o => o.ph.hom.map Basis.barcode) =
      .ok [[(0, 7000), (0, 6409), (0, 6409), (0, 6409), (0, 4872), (0, 4872)], [(6409, 6496)],
        [(6496, 7000)]] := by
  constructor <;> decide +kernel

end Permaviss
