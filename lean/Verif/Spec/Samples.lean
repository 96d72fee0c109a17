import Mathlib.Algebra.Order.Field.Basic

/-!
# What a farthest point sample is

Nothing here mentions the model.
-/

namespace Permaviss.Spec

variable {P K : Type} [Field K] [LinearOrder K]

/-- A distance, without the triangle inequality. -/
structure IsDist (d : P → P → K) : Prop where
  nonneg : ∀ x y, 0 ≤ d x y
  self : ∀ x, d x x = 0
  symm : ∀ x y, d x y = d y x

/-- `f` lists positions of `pts` as a farthest point sample: they are different, the distance of each
new point to the ones already taken is the largest possible, and every point is as close to the sample
as any two points of the sample are to each other. -/
structure FarthestFirst {n m : Nat} (d : P → P → K) (pts : Fin n → P) (f : Fin m → Fin n) : Prop where
  injective : Function.Injective f
  farthest : ∀ k : Fin m, 0 < k.1 → ∀ i : Fin n, ∃ a < k, ∀ b < k,
    d (pts i) (pts (f a)) ≤ d (pts (f k)) (pts (f b))
  covers : ∀ i : Fin n, ∃ a : Fin m, ∀ b c : Fin m, b ≠ c →
    d (pts i) (pts (f a)) ≤ d (pts (f b)) (pts (f c))

end Permaviss.Spec
