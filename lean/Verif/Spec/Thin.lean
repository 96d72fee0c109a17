import Verif.Spec.Cover

/-!
# Covers without triple intersections
-/

namespace Permaviss

variable {K : Type} [Field K] [LinearOrder K]

/-- No point of the cloud lies in three different cubes each of which is next to the other two. -/
def NoTriple (dim : Nat) (lo hi : Nat → K) (side overlap : K) (cloud : List (List K)) : Prop :=
  ∀ div, IsDiv dim lo hi side div → ∀ a b c, IsPos div a → IsPos div b → IsPos div c →
    a ≠ b → a ≠ c → b ≠ c → Adjacent a b → Adjacent a c → Adjacent b c →
    ∀ pt ∈ cloud, InCube dim lo side overlap a pt → InCube dim lo side overlap b pt →
      ¬ InCube dim lo side overlap c pt

/-- Two different cubes next to each other have at most `m` points of the cloud in common. -/
def SharedAtMost (m dim : Nat) (lo hi : Nat → K) (side overlap : K) (cloud : List (List K)) : Prop :=
  ∀ div, IsDiv dim lo hi side div → ∀ a b, IsPos div a → IsPos div b → a ≠ b → Adjacent a b →
    ∀ l : List Nat, l.Nodup → (∀ i ∈ l, i < cloud.length ∧ InCube dim lo side overlap a (cloud.getD i []) ∧
      InCube dim lo side overlap b (cloud.getD i [])) → l.length ≤ m

end Permaviss
