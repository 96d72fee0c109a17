import Verif.Spec.Vec
import Mathlib.LinearAlgebra.Quotient.Basic
import Mathlib.LinearAlgebra.Pi
import Mathlib.LinearAlgebra.FreeModule.Finite.Basic
import Mathlib.LinearAlgebra.Dimension.Finrank

/-!
# Specification: filtered chain complexes and their homology

`D = [D₁, D₂, …]` are the differentials, `R = [R₀, R₁, …]` the birth radii of the simplices in each
degree.  Chains are functions `ℕ → ZMod p` (coordinate `i` belongs to simplex `i`).  Nothing here
mentions a modelled function.
-/

namespace Permaviss

open Finset

variable {α : Type} [LinearOrder α]

/-- Multiplication by a matrix, as a linear map. -/
def Mat.mulVecL (p : ℕ) (M : Mat) : (ℕ → ZMod p) →ₗ[ZMod p] (ℕ → ZMod p) where
  toFun c := fun i => ∑ k ∈ range M.ncols, M.z p i k * c k
  map_add' a b := by
    funext i; simp [mul_add, Finset.sum_add_distrib]
  map_smul' r a := by
    funext i
    simp only [Pi.smul_apply, smul_eq_mul, RingHom.id_apply, Finset.mul_sum]
    exact Finset.sum_congr rfl fun k _ => by ring

/-- The boundary operator in degree `e`: zero in degree `0` and above the top degree. -/
def bdry (p : ℕ) (D : List Mat) : ℕ → (ℕ → ZMod p) →ₗ[ZMod p] (ℕ → ZMod p)
  | 0 => 0
  | e + 1 => ((D[e]?).map (Mat.mulVecL p)).getD 0

/-- Simplex `i` of degree `e` is present at radius `t`. -/
def Born (R : List (List α)) (e i : ℕ) (t : α) : Prop := ∃ r, (R.getD e [])[i]? = some r ∧ r ≤ t

/-- Chains of degree `e` on simplices present at radius `t`. -/
def chainsAt (p : ℕ) (R : List (List α)) (e : ℕ) (t : α) : Submodule (ZMod p) (ℕ → ZMod p) where
  carrier := {c | ∀ i, c i ≠ 0 → Born R e i t}
  add_mem' {a b} ha hb i hi := by
    by_cases h : a i = 0
    · by_cases h' : b i = 0
      · exact absurd (by simp [h, h']) hi
      · exact hb i h'
    · exact ha i h
  zero_mem' i hi := absurd rfl hi
  smul_mem' r a ha i hi := ha i fun h => hi (by simp [h])

/-- Cycles of degree `e` at radius `t`. -/
def cyclesAt (p : ℕ) (D : List Mat) (R : List (List α)) (e : ℕ) (t : α) :
    Submodule (ZMod p) (ℕ → ZMod p) := chainsAt p R e t ⊓ LinearMap.ker (bdry p D e)

/-- Boundaries of degree `e` at radius `t`. -/
def boundariesAt (p : ℕ) (D : List Mat) (R : List (List α)) (e : ℕ) (t : α) :
    Submodule (ZMod p) (ℕ → ZMod p) := (chainsAt p R (e + 1) t).map (bdry p D (e + 1))

/-- The homology `H_e(X_t; ZMod p)`. -/
abbrev homologyAt (p : ℕ) (D : List Mat) (R : List (List α)) (e : ℕ) (t : α) : Type :=
  ↥(cyclesAt p D R e t) ⧸ (boundariesAt p D R e t).submoduleOf (cyclesAt p D R e t)

/-- The class of a cycle in `H_e(X_t)`. -/
def homClass {p : ℕ} {D : List Mat} {R : List (List α)} {e : ℕ} {t : α} (z : ℕ → ZMod p)
    (h : z ∈ cyclesAt p D R e t) : homologyAt p D R e t := Submodule.Quotient.mk ⟨z, h⟩

theorem chainsAt_mono (p : ℕ) (R : List (List α)) (e : ℕ) {s t : α} (h : s ≤ t) :
    chainsAt p R e s ≤ chainsAt p R e t := by
  intro c hc i hi
  obtain ⟨r, hr, hrs⟩ := hc i hi
  exact ⟨r, hr, hrs.trans h⟩

theorem cyclesAt_mono (p : ℕ) (D : List Mat) (R : List (List α)) (e : ℕ) {s t : α} (h : s ≤ t) :
    cyclesAt p D R e s ≤ cyclesAt p D R e t :=
  inf_le_inf_right _ (chainsAt_mono p R e h)

theorem boundariesAt_mono (p : ℕ) (D : List Mat) (R : List (List α)) (e : ℕ) {s t : α}
    (h : s ≤ t) : boundariesAt p D R e s ≤ boundariesAt p D R e t :=
  Submodule.map_mono (chainsAt_mono p R (e + 1) h)

/-- The map `H_e(X_s) → H_e(X_t)` induced by the inclusion, for `s ≤ t`. -/
def homMap (p : ℕ) (D : List Mat) (R : List (List α)) (e : ℕ) {s t : α} (h : s ≤ t) :
    homologyAt p D R e s →ₗ[ZMod p] homologyAt p D R e t :=
  Submodule.mapQ _ _ (Submodule.inclusion (cyclesAt_mono p D R e h))
    (fun _ hz => boundariesAt_mono p D R e h hz)

/-- A filtered simplicial complex as `persistent_homology` expects it. -/
structure FiltComplex (p : ℕ) (D : List Mat) (R : List (List α)) [Zero α] (maxRad : α) : Prop where
  /-- one list of radii per degree -/
  len : R.length = D.length + 1
  /-- there is at least one differential -/
  ne : D ≠ []
  /-- rows and columns of each differential are the simplices of the two degrees -/
  rows : ∀ e M, D[e]? = some M → M.nrows = (R.getD e []).length ∧ M.ncols = (R.getD (e + 1) []).length
  shape : ∀ M ∈ D, M.WellShaped ∧ M.Reduced p
  /-- the boundary of a boundary is zero -/
  dd : ∀ e M N, D[e]? = some M → D[e + 1]? = some N → ∀ i k,
    ∑ j ∈ range M.ncols, M.z p i j * N.z p j k = 0
  /-- radii are sorted in each degree -/
  sorted : ∀ Q ∈ R, Q.Pairwise (· ≤ ·)
  /-- vertices are born at zero -/
  zero : ∀ r ∈ R.getD 0 [], r = 0
  /-- a face is born before the simplices it bounds -/
  face : ∀ e M, D[e]? = some M → ∀ i j, M.z p i j ≠ 0 → ∀ t, Born R (e + 1) j t → Born R e i t
  /-- a simplex of positive dimension has faces -/
  faces : ∀ e, R.getD (e + 1) [] ≠ [] → R.getD e [] ≠ []
  /-- all radii are below `maxRad` -/
  bound : ∀ Q ∈ R, ∀ r ∈ Q, r < maxRad
  /-- `maxRad` is positive, as the vertices are born at zero -/
  pos : 0 < maxRad

end Permaviss
