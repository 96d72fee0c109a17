import Verif.Lemmas.LocalRanks
import Mathlib.Combinatorics.SimpleGraph.Connectivity.Connected
import Mathlib.LinearAlgebra.Dimension.Constructions

/-!
# Degree zero homology and the components of a graph
-/

namespace Permaviss

open Finset

attribute [-instance] instMulZeroClassOfSemiring

noncomputable section

variable {α : Type} [LinearOrder α] {K : Type} [Field K] {n : ℕ}

/-- A vertex is sent to its component. -/
def compOf (K : Type) [Field K] (G : SimpleGraph (Fin n)) (s : List ℕ) : G.ConnectedComponent →₀ K :=
  match s with
  | [v] => if h : v < n then Finsupp.single (G.connectedComponentMk ⟨v, h⟩) 1 else 0
  | _ => 0

theorem compOf_vertex (G : SimpleGraph (Fin n)) (v : Fin n) :
    compOf K G [v.1] = Finsupp.single (G.connectedComponentMk v) 1 := by
  unfold compOf; exact dif_pos v.2

def compMap (K : Type) [Field K] (G : SimpleGraph (Fin n)) :
    (List ℕ →₀ K) →ₗ[K] (G.ConnectedComponent →₀ K) :=
  Finsupp.linearCombination K (compOf K G)

theorem compMap_single (G : SimpleGraph (Fin n)) (s : List ℕ) (c : K) :
    compMap K G (Finsupp.single s c) = c • compOf K G s := by
  unfold compMap; rw [Finsupp.linearCombination_single]

theorem faceSum_edge (u v : ℕ) :
    faceSum K [u, v] = Finsupp.single [v] 1 - Finsupp.single [u] 1 := by
  unfold faceSum
  rw [if_neg (by simp)]
  simp [Finset.sum_range_succ, sub_eq_add_neg]

variable {dist : ℕ → ℕ → α} {t : α} {G : SimpleGraph (Fin n)}

/-- Two points in the same component differ by a boundary. -/
theorem reachable_boundary (hG : ∀ u v : Fin n, u.1 < v.1 → (G.Adj u v ↔ dist v u ≤ t)) {u v : Fin n}
    (h : G.Reachable u v) :
    Finsupp.single [v.1] (1 : K) - Finsupp.single [u.1] 1 ∈ vrBoundaries K dist n 0 t := by
  obtain ⟨w⟩ := h
  induction w with
  | nil => rw [sub_self]; exact Submodule.zero_mem _
  | @cons a b c hab _ ih =>
    have key : Finsupp.single [b.1] (1 : K) - Finsupp.single [a.1] 1 ∈ vrBoundaries K dist n 0 t := by
      have edge : ∀ x y : Fin n, x.1 < y.1 → G.Adj x y →
          Finsupp.single [y.1] (1 : K) - Finsupp.single [x.1] 1 ∈ vrBoundaries K dist n 0 t := by
        intro x y hxy hadj
        refine ⟨Finsupp.single [x.1, y.1] 1, Finsupp.single_mem_supported _ _ ⟨rfl, ?_, ?_⟩, ?_⟩
        · intro v hv
          simp only [List.mem_cons, List.not_mem_nil, or_false] at hv
          rcases hv with rfl | rfl
          · exact x.2
          · exact y.2
        · simp only [List.pairwise_cons, List.mem_cons, List.not_mem_nil, or_false, forall_eq,
            IsEmpty.forall_iff, implies_true, List.Pairwise.nil, and_true]
          exact ⟨hxy, (hG x y hxy).1 hadj⟩
        · unfold simplicialBdry
          rw [Finsupp.linearCombination_single, one_smul, faceSum_edge]
      rcases lt_trichotomy a.1 b.1 with h | h | h
      · exact edge a b h hab
      · exact absurd (Fin.ext h) hab.ne
      · rw [← neg_sub]
        exact Submodule.neg_mem _ (edge b a h hab.symm)
    have : Finsupp.single [c.1] (1 : K) - Finsupp.single [a.1] 1 =
        (Finsupp.single [c.1] 1 - Finsupp.single [b.1] 1) +
          (Finsupp.single [b.1] 1 - Finsupp.single [a.1] 1) := by abel
    rw [this]
    exact Submodule.add_mem _ ih key

theorem compMap_boundary (hG : ∀ u v : Fin n, u.1 < v.1 → (G.Adj u v ↔ dist v u ≤ t)) {x : List ℕ →₀ K}
    (hx : x ∈ vrBoundaries K dist n 0 t) : compMap K G x = 0 := by
  obtain ⟨y, hy, rfl⟩ := hx
  unfold vrChains at hy
  replace hy : y ∈ Finsupp.supported K K {s | VRSimplex dist n (0 + 1) t s} := hy
  rw [Finsupp.supported_eq_span_single] at hy
  induction hy using Submodule.span_induction with
  | mem x h =>
    obtain ⟨s, ⟨h1, h2, h3⟩, rfl⟩ := h
    obtain ⟨u, v, rfl⟩ := List.length_eq_two.1 h1
    simp only [List.pairwise_cons, List.mem_cons, List.not_mem_nil, or_false, forall_eq,
      IsEmpty.forall_iff, implies_true, List.Pairwise.nil, and_true] at h3
    have hu : u < n := h2 u (by simp)
    have hv : v < n := h2 v (by simp)
    have hadj : G.Adj ⟨u, hu⟩ ⟨v, hv⟩ := (hG ⟨u, hu⟩ ⟨v, hv⟩ h3.1).2 h3.2
    dsimp only
    unfold simplicialBdry
    rw [Finsupp.linearCombination_single, one_smul, faceSum_edge, map_sub, compMap_single, compMap_single,
      one_smul, one_smul]
    have e1 := compOf_vertex (K := K) G ⟨u, hu⟩
    have e2 := compOf_vertex (K := K) G ⟨v, hv⟩
    dsimp only at e1 e2
    rw [e1, e2, SimpleGraph.ConnectedComponent.connectedComponentMk_eq_of_adj hadj, sub_self]
  | zero => simp
  | add x y _ _ h1 h2 => rw [map_add, map_add, h1, h2, add_zero]
  | smul c x _ h => rw [map_smul, map_smul, h, smul_zero]

/-- A vertex in each component. -/
def repOf (G : SimpleGraph (Fin n)) : (G.ConnectedComponent →₀ K) →ₗ[K] (List ℕ →₀ K) :=
  Finsupp.lmapDomain K K fun c => [c.out.1]

theorem rep_comp (hG : ∀ u v : Fin n, u.1 < v.1 → (G.Adj u v ↔ dist v u ≤ t)) {x : List ℕ →₀ K}
    (hx : x ∈ vrChains K dist n 0 t) : x - repOf G (compMap K G x) ∈ vrBoundaries K dist n 0 t := by
  unfold vrChains at hx
  rw [Finsupp.supported_eq_span_single] at hx
  induction hx using Submodule.span_induction with
  | mem x h =>
    obtain ⟨s, ⟨h1, h2, -⟩, rfl⟩ := h
    obtain ⟨v, rfl⟩ := List.length_eq_one_iff.1 h1
    have hv : v < n := h2 v (by simp)
    dsimp only
    rw [compMap_single, one_smul]
    have e1 := compOf_vertex (K := K) G ⟨v, hv⟩
    dsimp only at e1
    rw [e1]
    unfold repOf
    rw [Finsupp.lmapDomain_apply, Finsupp.mapDomain_single]
    refine reachable_boundary hG (u := (G.connectedComponentMk ⟨v, hv⟩).out) (v := ⟨v, hv⟩) ?_
    rw [← SimpleGraph.ConnectedComponent.eq]
    exact Quot.out_eq _
  | zero => simp
  | add x y _ _ h1 h2 =>
    have : x + y - repOf G (compMap K G (x + y)) =
        (x - repOf G (compMap K G x)) + (y - repOf G (compMap K G y)) := by
      rw [map_add, map_add]; abel
    rw [this]
    exact Submodule.add_mem _ h1 h2
  | smul c x _ h =>
    rw [map_smul, map_smul, ← smul_sub]
    exact Submodule.smul_mem _ _ h

/-- The dimension of `H_0` is the number of components. -/
theorem rank_components {p : ℕ} (hp : p.Prime)
    (hG : ∀ u v : Fin n, u.1 < v.1 → (G.Adj u v ↔ dist v u ≤ t)) :
    Module.finrank (ZMod p) (LinearMap.range (vrMap (ZMod p) dist n 0 (le_refl t))) =
      Nat.card G.ConnectedComponent := by
  have := Fact.mk hp
  have hfin : Finite G.ConnectedComponent := Quot.finite _
  have := Fintype.ofFinite G.ConnectedComponent
  rw [finrank_vrMap hp, vrCycles_zero]
  have key : Module.finrank (ZMod p) ↥((vrChains (ZMod p) dist n 0 t).map
        (vrBoundaries (ZMod p) dist n 0 t).mkQ) =
      Module.finrank (ZMod p) ↥((vrChains (ZMod p) dist n 0 t).map (compMap (ZMod p) G)) := by
    refine finrank_map_eq _ _ _ fun x hx => ?_
    rw [Submodule.mkQ_apply, Submodule.Quotient.mk_eq_zero]
    constructor
    · exact compMap_boundary hG
    · intro h
      have := rep_comp hG hx
      rwa [h, map_zero, sub_zero] at this
  rw [key]
  have htop : (vrChains (ZMod p) dist n 0 t).map (compMap (ZMod p) G) = ⊤ := by
    rw [eq_top_iff, ← Finsupp.supported_univ, Finsupp.supported_eq_span_single, Submodule.span_le]
    rintro _ ⟨c, -, rfl⟩
    refine ⟨Finsupp.single [c.out.1] 1, Finsupp.single_mem_supported _ _ ⟨rfl, ?_, by simp⟩, ?_⟩
    · intro v hv
      rw [List.mem_singleton.1 hv]
      exact c.out.2
    · rw [compMap_single, one_smul, compOf_vertex]
      congr 1
      exact Quot.out_eq _
  rw [htop, finrank_top, Module.finrank_finsupp_self, Nat.card_eq_fintype_card]

end

end Permaviss
