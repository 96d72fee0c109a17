import Verif.Spec.Bars
import Verif.Spec.VRHomology

/-!
# Specification: cycles which represent persistent homology
-/

namespace Permaviss

open Finset

attribute [-instance] instMulZeroClassOfSemiring

variable {K : Type} [LinearOrder K] [Zero K]

/-- The chains `z 0, …, z (bars.length - 1)` are cycles of dimension `e` of the Vietoris-Rips complexes of a finite
metric space which represent a basis of the homology at each radius below `R`:

* `z j` is a cycle at the beginning of its bar, and the bars are nonempty intervals within `[0, R]`;
* at each radius `t` with `0 ≤ t < R` every cycle is, up to a boundary, a combination of the `z j` whose bars contain
  `t`, in one way only. -/
structure CycleBasis (p : ℕ) (dist : ℕ → ℕ → K) (n e : ℕ) (R : K) (bars : List (K × K))
    (z : ℕ → List ℕ →₀ ZMod p) : Prop where
  bar : ∀ b ∈ bars, 0 ≤ b.1 ∧ b.1 < b.2 ∧ b.2 ≤ R
  cycle : ∀ j b, bars[j]? = some b → z j ∈ vrCycles (ZMod p) dist n e b.1
  basis : ∀ t, 0 ≤ t → t < R → ∀ y ∈ vrCycles (ZMod p) dist n e t,
    ∃! c : ℕ → ZMod p, (∀ j, ¬ AliveBar bars j t → c j = 0) ∧
      y - ∑ j ∈ range bars.length, c j • z j ∈ vrBoundaries (ZMod p) dist n e t

end Permaviss
