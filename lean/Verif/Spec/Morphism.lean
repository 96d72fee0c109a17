import Verif.Spec.Homology
import Verif.Spec.Bars
import Verif.Model.Barcode
import Mathlib.LinearAlgebra.LinearIndependent.Defs

/-!
# Specification: persistence modules given by barcodes, morphisms between them

A barcode basis with bars `b₀, b₁, …` describes a persistence module: its value at radius `t` has the
bars alive at `t` as basis.  Its elements are functions `ℕ → ZMod p` (coordinate `i` belongs to bar
`i`) which vanish on bars that are not alive; the map to a later radius forgets the coordinates of
the bars which died.
-/

namespace Permaviss

open Classical in
/-- Forget the coordinates outside of `S`. -/
noncomputable def restr {K : Type*} [Semiring K] (S : ℕ → Prop) : (ℕ → K) →ₗ[K] (ℕ → K) where
  toFun x i := if S i then x i else 0
  map_add' x y := by funext i; by_cases h : S i <;> simp [h]
  map_smul' r x := by funext i; by_cases h : S i <;> simp [h]

variable {α : Type} [LinearOrder α]

/-- The value at radius `t` of an element of the module with the given bars. -/
noncomputable def barRestr (p : ℕ) (bars : List (α × α)) (t : α) :
    (ℕ → ZMod p) →ₗ[ZMod p] (ℕ → ZMod p) := restr fun i => AliveBar bars i t

/-- The module at radius `t`: combinations of the bars alive at `t`. -/
noncomputable def barModule (p : ℕ) (bars : List (α × α)) (t : α) :
    Submodule (ZMod p) (ℕ → ZMod p) := LinearMap.range (barRestr p bars t)

/-- The morphism with matrix `F`, from the module with bars `A` to the one with bars `B`, at
radius `t`. -/
noncomputable def morAt (p : ℕ) (A B : List (α × α)) (F : Mat) (t : α) :
    (ℕ → ZMod p) →ₗ[ZMod p] (ℕ → ZMod p) :=
  barRestr p B t ∘ₗ F.mulVecL p ∘ₗ barRestr p A t

/-- The kernel of the morphism at radius `t`. -/
noncomputable def kerAt (p : ℕ) (A B : List (α × α)) (F : Mat) (t : α) :
    Submodule (ZMod p) (ℕ → ZMod p) := barModule p A t ⊓ LinearMap.ker (morAt p A B F t)

/-- The image of the morphism at radius `t`. -/
noncomputable def imAt (p : ℕ) (A B : List (α × α)) (F : Mat) (t : α) :
    Submodule (ZMod p) (ℕ → ZMod p) := (barModule p A t).map (morAt p A B F t)

/-- The matrix `F` (one row per bar of `B`, one column per bar of `A`, entries in `[0, p)`) is the
matrix of a morphism of persistence modules: a generator maps to generators which are born no later
and die no later. -/
structure IsMorphism (p : ℕ) (A B : List (α × α)) (F : Mat) : Prop where
  rows : F.nrows = B.length
  cols : F.ncols = A.length
  shape : F.WellShaped
  red : F.Reduced p
  birth : ∀ r i a b, A[i]? = some a → B[r]? = some b → F.z p r i ≠ 0 → b.1 ≤ a.1
  death : ∀ r i a b, A[i]? = some a → B[r]? = some b → F.z p r i ≠ 0 → b.2 ≤ a.2

/-- Column `k` of a matrix as a vector mod `p`. -/
def Mat.zcol (p : ℕ) (M : Mat) (k : ℕ) : ℕ → ZMod p := zv p (M.cols.getD k [])

/-- The barcode basis `X`, with coordinates in the module with bars `amb`, is a basis of the
persistence submodule with value `M t` at radius `t`: at every radius the generators alive there are
linearly independent and span `M t`, and those which died are zero there. -/
structure IsBasisOf (p : ℕ) (amb : List (α × α)) (X : Basis α)
    (M : α → Submodule (ZMod p) (ℕ → ZMod p)) : Prop where
  bars : ∀ b ∈ X.barcode, b.1 < b.2
  cols : X.coords.ncols = X.barcode.length
  len : ∀ c ∈ X.coords.cols, c.length = amb.length
  indep : ∀ t, LinearIndependent (ZMod p)
    fun i : {i // AliveBar X.barcode i t} => barRestr p amb t (X.coords.zcol p i)
  span : ∀ t, Submodule.span (ZMod p)
    (Set.range fun i : {i // AliveBar X.barcode i t} => barRestr p amb t (X.coords.zcol p i)) = M t
  dead : ∀ t i b, X.barcode[i]? = some b → b.2 ≤ t → barRestr p amb t (X.coords.zcol p i) = 0

/-- The generators of `X` exist, in the module with bars `amb`, from their birth on. -/
def BornInTime (p : ℕ) (amb : List (α × α)) (X : Basis α) : Prop :=
  ∀ r i a b, X.barcode[i]? = some a → amb[r]? = some b → X.coords.z p r i ≠ 0 → b.1 ≤ a.1

/-- `X` is a sorted ordinary barcode basis with coordinates in the module with bars `amb`: one column
with entries in `[0, p)` per bar, which has no coordinate on bars born after it. -/
structure BasisIn (p : ℕ) (amb : List (α × α)) (X : Basis α) : Prop where
  flat : X.flat = false
  sorted : X.sorted = true
  dim : X.dim = X.barcode.length
  unbroken : X.brokenDiff = none
  prev : X.prevDim = some amb.length
  bars : ∀ b ∈ X.barcode, b.1 < b.2
  rows : X.coords.nrows = amb.length
  cols : X.coords.ncols = X.barcode.length
  len : ∀ c ∈ X.coords.cols, c.length = amb.length
  red : X.coords.Reduced p
  born : BornInTime p amb X

/-- Inputs of `image_kernel` in the absolute case: a prime `p`, two ordinary barcode bases, the first
one with at least one bar, and the matrix of a morphism.  `rnd` is the rounding used when sorting; it
must not merge different births of the domain out of order, and a basis flagged as sorted must have
nondecreasing births. -/
structure IKInput (rnd : α → α) (p : ℕ) (A B : Basis α) (F : Mat) : Prop where
  prime : p.Prime
  flatA : A.flat = false
  flatB : B.flat = false
  dimA : A.dim = A.barcode.length
  dimB : B.dim = B.barcode.length
  barsA : ∀ b ∈ A.barcode, b.1 < b.2
  barsB : ∀ b ∈ B.barcode, b.1 < b.2
  nonempty : A.barcode ≠ []
  unbroken : B.brokenDiff = none
  mor : IsMorphism p A.barcode B.barcode F
  sorted : A.sorted = true → A.barcode.Pairwise fun a b => a.1 ≤ b.1
  rounding : A.sorted = false → ∀ a ∈ A.barcode, ∀ b ∈ A.barcode, rnd a.1 ≤ rnd b.1 → a.1 ≤ b.1

/-- Bars of the domain which are born later die no earlier. -/
def MonotoneDeaths (bars : List (α × α)) : Prop :=
  ∀ a ∈ bars, ∀ b ∈ bars, a.1 ≤ b.1 → a.2 ≤ b.2

end Permaviss
