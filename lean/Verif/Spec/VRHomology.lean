import Mathlib.Data.ZMod.Basic
import Mathlib.LinearAlgebra.Finsupp.LinearCombination
import Mathlib.LinearAlgebra.Finsupp.Supported
import Mathlib.LinearAlgebra.Quotient.Basic
import Mathlib.Algebra.Group.Finsupp

/-!
# Specification: simplicial homology of Vietoris-Rips complexes

Textbook definitions, independent of the model: simplices are increasing lists of vertices, chains
are finitely supported functions on simplices, the boundary is the alternating sum of faces.
-/

namespace Permaviss

open Finset

attribute [-instance] instMulZeroClassOfSemiring

noncomputable section

variable {α : Type} [LinearOrder α]

/-- The boundary of a simplex: the alternating sum of its faces, zero for a vertex. -/
def faceSum (K : Type) [CommRing K] (s : List ℕ) : List ℕ →₀ K :=
  if s.length ≤ 1 then 0
  else ∑ k ∈ range s.length, (-1 : K) ^ k • Finsupp.single (s.eraseIdx k) 1

/-- The simplicial boundary operator. -/
def simplicialBdry (K : Type) [CommRing K] : (List ℕ →₀ K) →ₗ[K] (List ℕ →₀ K) :=
  Finsupp.linearCombination K (faceSum K)

/-- `s` is a simplex of dimension `e` of the Vietoris-Rips complex at radius `t` of the points
`0, …, n - 1`: an increasing list of `e + 1` points with all pairwise distances at most `t`. -/
def VRSimplex (dist : ℕ → ℕ → α) (n e : ℕ) (t : α) (s : List ℕ) : Prop :=
  s.length = e + 1 ∧ (∀ v ∈ s, v < n) ∧ s.Pairwise fun u v => u < v ∧ dist v u ≤ t

/-- Chains of dimension `e` of the Vietoris-Rips complex at radius `t`. -/
def vrChains (K : Type) [CommRing K] (dist : ℕ → ℕ → α) (n e : ℕ) (t : α) :
    Submodule K (List ℕ →₀ K) :=
  Finsupp.supported K K {s | VRSimplex dist n e t s}

def vrCycles (K : Type) [CommRing K] (dist : ℕ → ℕ → α) (n e : ℕ) (t : α) :
    Submodule K (List ℕ →₀ K) :=
  vrChains K dist n e t ⊓ LinearMap.ker (simplicialBdry K)

def vrBoundaries (K : Type) [CommRing K] (dist : ℕ → ℕ → α) (n e : ℕ) (t : α) :
    Submodule K (List ℕ →₀ K) :=
  (vrChains K dist n (e + 1) t).map (simplicialBdry K)

/-- `H_e(VR_t; K)`. -/
abbrev vrHomology (K : Type) [CommRing K] (dist : ℕ → ℕ → α) (n e : ℕ) (t : α) : Type :=
  ↥(vrCycles K dist n e t) ⧸ (vrBoundaries K dist n e t).submoduleOf (vrCycles K dist n e t)

/-- The class of a cycle. -/
def vrClass {K : Type} [CommRing K] {dist : ℕ → ℕ → α} {n e : ℕ} {t : α} (z : List ℕ →₀ K)
    (h : z ∈ vrCycles K dist n e t) : vrHomology K dist n e t := Submodule.Quotient.mk ⟨z, h⟩

theorem vrChains_mono (K : Type) [CommRing K] (dist : ℕ → ℕ → α) (n e : ℕ) {s t : α} (h : s ≤ t) :
    vrChains K dist n e s ≤ vrChains K dist n e t :=
  Finsupp.supported_mono fun _ hs => ⟨hs.1, hs.2.1, hs.2.2.imp fun h' => ⟨h'.1, h'.2.trans h⟩⟩

theorem vrCycles_mono (K : Type) [CommRing K] (dist : ℕ → ℕ → α) (n e : ℕ) {s t : α} (h : s ≤ t) :
    vrCycles K dist n e s ≤ vrCycles K dist n e t :=
  inf_le_inf_right _ (vrChains_mono K dist n e h)

theorem vrBoundaries_mono (K : Type) [CommRing K] (dist : ℕ → ℕ → α) (n e : ℕ) {s t : α} (h : s ≤ t) :
    vrBoundaries K dist n e s ≤ vrBoundaries K dist n e t :=
  Submodule.map_mono (vrChains_mono K dist n (e + 1) h)

/-- The map `H_e(VR_s) → H_e(VR_t)` induced by the inclusion. -/
def vrMap (K : Type) [CommRing K] (dist : ℕ → ℕ → α) (n e : ℕ) {s t : α} (h : s ≤ t) :
    vrHomology K dist n e s →ₗ[K] vrHomology K dist n e t :=
  Submodule.mapQ _ _ (Submodule.inclusion (vrCycles_mono K dist n e h))
    (fun _ hz => vrBoundaries_mono K dist n e h hz)

/-- The chain `∑ᵢ cᵢ sᵢ` on a list of simplices. -/
def toChain (K : Type) [CommRing K] (S : List (List ℕ)) :
    (ℕ → K) →ₗ[K] (List ℕ →₀ K) where
  toFun c := ∑ i ∈ range S.length, c i • Finsupp.single (S.getD i []) 1
  map_add' a b := by simp [add_smul, Finset.sum_add_distrib]
  map_smul' r a := by
    simp only [Pi.smul_apply, RingHom.id_apply, Finset.smul_sum]
    exact Finset.sum_congr rfl fun i _ => by rw [smul_eq_mul, mul_smul]

/-- The simplices of dimension `e` of a complex with `n` vertices and simplices `C[0], C[1], …` of
dimension `1, 2, …`. -/
def simplicesOf (n : ℕ) (C : List (List (List ℕ))) : ℕ → List (List ℕ)
  | 0 => (List.range n).map fun v => [v]
  | e + 1 => C.getD e []

end

end Permaviss
