import Verif.Props.Thin
import Verif.Props.Plane

/-!
# More clouds in the plane with points in three squares (C54, C75)
-/

namespace Permaviss

/-- The distance of the examples is zero only between points with the same coordinates. -/
theorem ladderD_zero (a b c : List ℚ) (h1 : ladderD a c = 0) (h2 : ladderD b c = 0) : ladderD a b = 0 := by
  unfold ladderD at *
  have e : ∀ x y : ℚ, |x| + |y| = 0 → x = 0 ∧ y = 0 := by
    intro x y h
    have := abs_nonneg x
    have := abs_nonneg y
    exact ⟨abs_eq_zero.1 (by linarith), abs_eq_zero.1 (by linarith)⟩
  obtain ⟨p1, p2⟩ := e _ _ h1
  obtain ⟨q1, q2⟩ := e _ _ h2
  rw [show a.getD 0 0 - b.getD 0 0 = 0 by linarith, show a.getD 1 0 - b.getD 1 0 = 0 by linarith]
  simp

/-- The same for the ring of `Verif.Props.Thin` with a point at its centre, which lies in all four squares:
there the extension from the second column is not zero. -/
example :
    (∀ a ∈ [0, 0] :: ringCloud, ∀ b ∈ [0, 0] :: ringCloud, ∀ i < 2, |a.getD i 0 - b.getD i 0| ≤ ladderD a b) ∧
    ((createMVss ladderDist stableArgsort id (11/2) 2 2 (11/2) 2 ([0, 0] :: ringCloud) 5).bind fun o =>
      (extension id o.env o.pages 1 0).map fun l => ((o.persistentHomology.map fun B => B.barcode).drop 1,
        l.map fun M => M.cols)) =
      .ok ([[(9/2, 11/2), (9/2, 11/2), (5, 11/2)]], [[[0, 0], [0, 0]], [[0, 0], [1, 4]]]) := by
  refine ⟨?_, ?_⟩
  · decide +kernel
  · decide +kernel

/-- Repeated points: one of the points in all four squares is taken twice. -/
example :
    ((createMVss ladderDist stableArgsort id 22 2 2 22 2 ([9, 9] :: crossCloud) 5).map fun o =>
      (o.persistentHomology.map fun B => B.barcode)) =
      .ok [[(0, 22), (0, 21), (0, 21), (0, 21), (0, 6), (0, 6)], [(21, 22)]] := by
  decide +kernel

/-- Two covers of the six points for `C75_cover_irrelevant`: four squares and one square. -/
example : MVInput ladderDist ladderD stableArgsort 22 1 2 crossCloud 5 (fun _ => -12) (fun _ => 12) 24 ∧
    ((createMVss ladderDist stableArgsort id 22 2 1 22 2 crossCloud 5).map fun o =>
      (o.persistentHomology.map fun B => B.barcode)) =
      .ok [[(0, 22), (0, 21), (0, 21), (0, 21), (0, 6), (0, 6)], [(21, 22)]] := by
  refine ⟨⟨cross_input.prime, cross_input.dist, cross_input.sort, cross_input.radius, cross_input.points,
    cross_input.dim_pos, by norm_num, ⟨cross_input.box.isLo, cross_input.box.isHi,
      ⟨⟨0, by omega, by norm_num⟩, ?_⟩⟩, by norm_num⟩, ?_⟩
  · rintro x ⟨d, hd, rfl⟩
    norm_num
  · decide +kernel

end Permaviss
