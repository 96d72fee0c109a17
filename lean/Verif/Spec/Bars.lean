import Mathlib.Order.Defs.LinearOrder
import Verif.Model.Barcode
import Verif.Spec.Vec

/-!
# Specification: bars
-/

namespace Permaviss

variable {α : Type} [LinearOrder α]

/-- The `i`-th bar exists and contains the radius `r`. -/
def AliveBar (bars : List (α × α)) (i : Nat) (r : α) : Prop :=
  ∃ b, bars[i]? = some b ∧ b.1 ≤ r ∧ r < b.2

/-- The `k`-th coordinate column of a basis, as a chain. -/
def Basis.chain {α : Type} (p : ℕ) (B : Basis α) (k : ℕ) : ℕ → ZMod p :=
  zv p (B.coords.cols.getD k [])

end Permaviss
