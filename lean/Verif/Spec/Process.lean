import Mathlib.Order.Basic

/-!
# Spectral sequences in one process

All spectral sequences of a process share one attribute, which every construction overwrites.
-/

namespace Permaviss

/-- The constructions of spectral sequences in a process, by whatever thread, in the order of time: time and prime. -/
abbrev Constructions := List (ℕ × ℕ)

/-- The shared prime at time `t`: that of the last construction before. -/
def Constructions.attrAt (h : Constructions) (t : ℕ) : ℕ :=
  ((h.filter fun c => decide (c.1 < t)).getLast?.map Prod.snd).getD 0

/-- A run of `create_MV_ss` computes the diagonals below `max_dim`.  For the positions `n ≥ 1` of the diagonal `deg` it
calls `extension`, which reads the shared prime in each round; the values of the rounds before the last one matter. -/
def IsRead (maxDim deg n idx : ℕ) : Prop := deg < maxDim ∧ n ≤ deg ∧ idx < n

/-- A run that constructs its spectral sequence for the prime `p` at time `c`, and reads the shared prime at the times
`τ deg n idx`. -/
structure IsRun (h : Constructions) (maxDim c p : ℕ) (τ : ℕ → ℕ → ℕ → ℕ) : Prop where
  /-- constructions happen one after the other -/
  ordered : h.Pairwise fun x y => x.1 < y.1
  constructed : (c, p) ∈ h
  /-- the reads come after the construction, in the order of the loops -/
  after : ∀ deg n idx, IsRead maxDim deg n idx → c < τ deg n idx
  reads : ∀ deg n idx deg' n' idx', IsRead maxDim deg n idx → IsRead maxDim deg' n' idx' →
    deg < deg' ∨ deg = deg' ∧ (n < n' ∨ n = n' ∧ idx < idx') → τ deg n idx < τ deg' n' idx'

end Permaviss
