import Verif.Spec.Quotient
import Mathlib.LinearAlgebra.Dimension.Finrank
import Mathlib.LinearAlgebra.Quotient.Basic

/-!
# Specification: extension problems

A diagonal of the limit page of a spectral sequence gives the bars of the homology up to an extension
problem: when the class of a generator dies on the page, it need not be zero in homology, but it is then
a combination of generators further down the filtration.
-/

namespace Permaviss

variable {α : Type} [LinearOrder α]

/-- `Z t / B t` is a persistence module; `w j` is an element of it which appears at the birth of bar
`j`.  Below the radius `R`, the generators alive at `t` are a basis of `Z t / B t`, and at the death of
bar `j` the generator `w j` becomes the combination of the generators given by the column `j` of `D`. -/
structure Resolves {K V : Type} [Field K] [AddCommGroup V] [Module K V] (bars : List (α × α)) (R : α)
    (D : ℕ → ℕ → K) (Z B : α → Submodule K V) (w : ℕ → V) : Prop where
  monoZ : ∀ s t, s ≤ t → Z s ≤ Z t
  monoB : ∀ s t, s ≤ t → B s ≤ B t
  born : ∀ j b, bars[j]? = some b → w j ∈ Z b.1
  indep : ∀ t, t < R → ∀ c : ℕ → K,
    ∑ j ∈ (Finset.range bars.length), c j • w j ∈ B t → (∀ j, ¬ AliveBar bars j t → c j = 0) →
      ∀ j, c j = 0
  span : ∀ t, t < R → Z t = Submodule.span K {x | ∃ j, AliveBar bars j t ∧ x = w j} ⊔ B t
  dies : ∀ j b, bars[j]? = some b → b.2 < R →
    w j - ∑ i ∈ Finset.range bars.length, D i j • w i ∈ B b.2

/-- What the solution of the extension problem relies on, besides the shapes: the bars end by `R`;
rounding keeps the order of the births; a generator which occurs in the value of another one goes to
zero when it dies (`two`); the generators in the value of `j` have been born and are alive when `j` dies
(`life`). -/
structure ExtInput (rnd : α → α) (p : ℕ) (R : α) (bars : List (α × α)) (BD : Mat) : Prop where
  prime : p.Prime
  ne : bars ≠ []
  wf : ∀ b ∈ bars, b.1 < b.2 ∧ b.2 ≤ R
  rounding : ∀ a ∈ bars, ∀ b ∈ bars, rnd a.1 ≤ rnd b.1 → a.1 ≤ b.1
  rows : BD.nrows = bars.length
  ncols : BD.ncols = bars.length
  len : ∀ c ∈ BD.cols, c.length = bars.length
  two : ∀ i j k, BD.z p i j ≠ 0 → BD.z p k i = 0
  life : ∀ i j bi bj, bars[i]? = some bi → bars[j]? = some bj → BD.z p i j ≠ 0 →
    bi.1 ≤ bj.2 ∧ bj.2 < bi.2

/-- The same without `two`: any number of levels. -/
structure ExtLevels (rnd : α → α) (p : ℕ) (R : α) (bars : List (α × α)) (BD : Mat) : Prop where
  prime : p.Prime
  ne : bars ≠ []
  wf : ∀ b ∈ bars, b.1 < b.2 ∧ b.2 ≤ R
  rounding : ∀ a ∈ bars, ∀ b ∈ bars, rnd a.1 ≤ rnd b.1 → a.1 ≤ b.1
  rows : BD.nrows = bars.length
  ncols : BD.ncols = bars.length
  len : ∀ c ∈ BD.cols, c.length = bars.length
  life : ∀ i j bi bj, bars[i]? = some bi → bars[j]? = some bj → BD.z p i j ≠ 0 →
    bi.1 ≤ bj.2 ∧ bj.2 < bi.2

/-- The rank of `Z s / B s → Z t / B t`. -/
noncomputable def rankThrough {K V : Type} [Field K] [AddCommGroup V] [Module K V]
    (Z B : α → Submodule K V) (s t : α) : ℕ :=
  Module.finrank K ↥((Z s).map (B t).mkQ)

end Permaviss
