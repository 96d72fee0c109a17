import Mathlib.Algebra.Order.Group.Abs
import Mathlib.Data.List.Perm.Basic

/-!
# Specification: the distance between two barcodes

Textbook definition of a matching of two barcodes, independent of the model.
-/

namespace Permaviss

/-- The barcodes `A` and `B` are at (bottleneck) distance at most `ε`: some of the bars of `A` are matched one to
one with bars of `B`, births and deaths of matched bars differ by at most `ε`, and the bars which are left over
have length at most `2ε`. -/
def BarsWithin {K : Type} [AddCommGroup K] [LinearOrder K] (ε : K) (A B : List (K × K)) : Prop :=
  ∃ (M : List ((K × K) × (K × K))) (U V : List (K × K)),
    A.Perm (M.map Prod.fst ++ U) ∧ B.Perm (M.map Prod.snd ++ V) ∧
      (∀ m ∈ M, |m.1.1 - m.2.1| ≤ ε ∧ |m.1.2 - m.2.2| ≤ ε) ∧
      ∀ b ∈ U ++ V, b.2 - b.1 ≤ ε + ε

end Permaviss
