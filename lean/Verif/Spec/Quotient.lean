import Verif.Spec.Morphism
import Mathlib.LinearAlgebra.Quotient.Basic
import Mathlib.LinearAlgebra.Dimension.Finrank

/-!
# Specification: quotients of persistence submodules

A persistence submodule of the module with bars `amb` is a family `M t` of subspaces, the map from `s`
to a later `t` being restriction to the bars alive at `t`.  The barcode of a persistence module is
determined by the ranks of its maps: the rank of the map from `s` to `t ≥ s` is the number of bars
`[a, b)` with `a ≤ s` and `t < b`.
-/

namespace Permaviss

variable {α : Type} [LinearOrder α]

/-- The number of bars which contain `s` and `t`, for `s ≤ t`. -/
def barsThrough (bars : List (α × α)) (s t : α) : ℕ :=
  bars.countP fun b => decide (b.1 ≤ s) && decide (t < b.2)

/-- The rank of the map `M s / N s → M t / N t`: the dimension of the image of `M s` in the quotient by
`N t`. -/
noncomputable def quotRank (p : ℕ) (amb : List (α × α)) (M N : α → Submodule (ZMod p) (ℕ → ZMod p))
    (s t : α) : ℕ :=
  Module.finrank (ZMod p) ((M s).map ((N t).mkQ ∘ₗ barRestr p amb t))

/-- Inputs of `quotient`: `M` and `N` are barcode bases of persistence submodules `Mt` and `Nt ≤ Mt` of
the module with basis `amb`, with reduced coordinates, and rounding does not merge different births
of `M` out of order. -/
structure QInput (rnd : α → α) (p : ℕ) (M N amb : Basis α)
    (Mt Nt : α → Submodule (ZMod p) (ℕ → ZMod p)) : Prop where
  prime : p.Prime
  flat : amb.flat = false
  dim : amb.dim = amb.barcode.length
  bars : ∀ b ∈ amb.barcode, b.1 < b.2
  unbroken : amb.brokenDiff = none
  flatM : M.flat = true → M.barcode = []
  basisM : IsBasisOf p amb.barcode M Mt
  bornM : BornInTime p amb.barcode M
  rowsM : M.coords.nrows = amb.barcode.length
  redM : M.coords.Reduced p
  rounding : ∀ a ∈ M.barcode, ∀ b ∈ M.barcode, rnd a.1 ≤ rnd b.1 → a.1 ≤ b.1
  flatN : N.flat = true → N.barcode = []
  dimN : N.dim = N.barcode.length
  basisN : IsBasisOf p amb.barcode N Nt
  bornN : BornInTime p amb.barcode N
  rowsN : N.coords.nrows = amb.barcode.length
  redN : N.coords.Reduced p
  sub : ∀ t, Nt t ≤ Mt t

end Permaviss
