import Mathlib.Algebra.BigOperators.Group.List.Basic
import Mathlib.Algebra.Order.Ring.Nat
import Mathlib.Data.List.Forall2
import Mathlib.Algebra.Order.Field.Basic
import Mathlib.Order.Bounds.Basic

/-!
# Specification: grids of cubes
-/

namespace Permaviss

/-- `pos` is a position of the grid with `div[i]` cubes along coordinate `i`. -/
def IsPos (div pos : List Nat) : Prop := List.Forall₂ (· < ·) pos div

/-- The row-major index of a position: `Σ pos[i] * Π_{j > i} div[j]`. -/
def rank : List Nat → List Nat → Nat
  | _ :: ds, p :: ps => p * ds.prod + rank ds ps
  | _, _ => 0

/-- Two positions differ by at most one in every coordinate. -/
def Adjacent (p q : List Nat) : Prop := List.Forall₂ (fun a b => a ≤ b + 1 ∧ b ≤ a + 1) p q

/-! ## Cubical covers of point clouds -/

section

variable {K : Type} [Field K] [LinearOrder K]

/-- `lo` and `hi` are the coordinatewise minimum and maximum of the cloud, and `side` is the longest
side of the box they span divided by `maxDiv`. -/
structure IsBox (maxDiv dim : Nat) (cloud : List (List K)) (lo hi : Nat → K) (side : K) : Prop where
  isLo : ∀ d < dim, IsLeast {x | ∃ pt ∈ cloud, x = pt.getD d 0} (lo d)
  isHi : ∀ d < dim, IsGreatest {x | ∃ pt ∈ cloud, x = pt.getD d 0} (hi d)
  isSide : IsGreatest {x | ∃ d < dim, x = hi d - lo d} (maxDiv * side)

/-- `div[d]` is the least number of cubes of the given side that covers the box along coordinate
`d`. -/
def IsDiv (dim : Nat) (lo hi : Nat → K) (side : K) (div : List Nat) : Prop :=
  div.length = dim ∧ ∀ d < dim, IsLeast {n : Nat | hi d - lo d ≤ n * side} (div.getD d 0)

/-- `pt` lies in the cube at position `pos` enlarged by half the overlap on every side. -/
def InCube (dim : Nat) (lo : Nat → K) (side overlap : K) (pos : List Nat) (pt : List K) : Prop :=
  ∀ d < dim, lo d + pos.getD d 0 * side - overlap / 2 ≤ pt.getD d 0 ∧
    pt.getD d 0 ≤ lo d + (pos.getD d 0 + 1) * side + overlap / 2

end

end Permaviss
