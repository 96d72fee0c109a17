import Verif.Spec.Morphism
import Verif.Lemmas.PCR
import Mathlib.LinearAlgebra.Dimension.Constructions
import Mathlib.LinearAlgebra.Dimension.StrongRankCondition
import Mathlib.LinearAlgebra.Dimension.RankNullity
import Mathlib.LinearAlgebra.FiniteDimensional.Lemmas
import Mathlib.LinearAlgebra.Dimension.OrzechProperty

/-!
# Linear algebra for `image_kernel`
-/

namespace Permaviss

open Finset

section restr
variable {K : Type*} [Semiring K] {S S' : ℕ → Prop}

theorem restr_apply_pos {x : ℕ → K} {i : ℕ} (h : S i) : restr S x i = x i := by
  simp [restr, h]

theorem restr_apply_neg {x : ℕ → K} {i : ℕ} (h : ¬ S i) : restr S x i = 0 := by
  simp [restr, h]

theorem restr_eq_zero {x : ℕ → K} : restr S x = 0 ↔ ∀ i, S i → x i = 0 := by
  constructor
  · intro h i hi
    rw [← restr_apply_pos (x := x) hi, h]; rfl
  · intro h
    funext i
    by_cases hi : S i
    · rw [restr_apply_pos hi, h i hi]; rfl
    · rw [restr_apply_neg hi]; rfl

theorem restr_restr (x : ℕ → K) : restr S (restr S x) = restr S x := by
  funext i
  by_cases hi : S i
  · rw [restr_apply_pos hi]
  · rw [restr_apply_neg hi, restr_apply_neg hi]

theorem restr_of_supp {x : ℕ → K} (h : ∀ i, x i ≠ 0 → S i) : restr S x = x := by
  funext i
  by_cases hi : S i
  · rw [restr_apply_pos hi]
  · rw [restr_apply_neg hi]
    by_contra hc
    exact hi (h i fun h0 => hc h0.symm)

theorem restr_congr (h : ∀ i, S i ↔ S' i) : (restr S : (ℕ → K) →ₗ[K] (ℕ → K)) = restr S' := by
  have : S = S' := funext fun i => propext (h i)
  rw [this]

theorem restr_single (i : ℕ) (h : S i) : restr S (Pi.single i (1 : K)) = Pi.single i 1 := by
  apply restr_of_supp
  intro l hl
  by_cases hli : l = i
  · exact hli ▸ h
  · exact absurd (by simp [hli]) hl

theorem restr_single_neg (i : ℕ) (h : ¬ S i) : restr S (Pi.single i (1 : K)) = 0 := by
  rw [restr_eq_zero]
  intro l hl
  by_cases hli : l = i
  · exact absurd (hli ▸ hl) h
  · simp [hli]

/-- A vector supported below `n` is the sum of its coordinates. -/
theorem eq_sum_single {x : ℕ → K} {n : ℕ} (h : ∀ i, x i ≠ 0 → i < n) :
    x = ∑ i ∈ range n, x i • (Pi.single i (1 : K) : ℕ → K) := by
  funext l
  rw [Finset.sum_apply]
  simp only [Pi.smul_apply, smul_eq_mul]
  by_cases hl : l < n
  · rw [Finset.sum_eq_single l]
    · simp
    · intro i _ hi
      rw [Pi.single_eq_of_ne (Ne.symm hi)]; simp
    · intro h'; exact absurd (mem_range.2 hl) h'
  · have : x l = 0 := by
      by_contra hc; exact hl (h l hc)
    rw [this]
    symm
    apply Finset.sum_eq_zero
    intro i hi
    have : i ≠ l := by have := mem_range.1 hi; omega
    rw [Pi.single_eq_of_ne (Ne.symm this)]; simp

end restr

section main
variable {K : Type*} [Field K] (L : (ℕ → K) →ₗ[K] (ℕ → K)) {S : ℕ → Prop} {n : ℕ}
  (hS : ∀ i, S i → i < n) (hL : ∀ i, ¬ S i → L (Pi.single i 1) = 0)
  (hLr : ∀ x, L (restr S x) = L x)

include hS hL

/-- If `x` has its last nonzero entry at `i`, the value at the `i`-th unit vector is a combination of
the value at `x` and those at smaller unit vectors. -/
theorem unit_mem_span {W : Submodule K (ℕ → K)} {x : ℕ → K} {i : ℕ} (hi : x i ≠ 0)
    (hx : ∀ l, x l ≠ 0 → l ≤ i) (hW : L x ∈ W) (hlt : ∀ l, l < i → S l → L (Pi.single l 1) ∈ W) :
    L (Pi.single i 1) ∈ W := by
  have e := eq_sum_single (x := x) (n := i + 1) (fun l hl => by have := hx l hl; omega)
  rw [Finset.sum_range_succ] at e
  have e2 : L x = ∑ l ∈ range i, x l • L (Pi.single l 1) + x i • L (Pi.single i 1) := by
    conv_lhs => rw [e]
    rw [map_add, map_sum, map_smul]
    congr 1
    exact Finset.sum_congr rfl fun l _ => map_smul _ _ _
  have h1 : ∑ l ∈ range i, x l • L (Pi.single l 1) ∈ W := by
    refine Submodule.sum_mem _ fun l hl => ?_
    by_cases h : S l
    · exact Submodule.smul_mem _ _ (hlt l (mem_range.1 hl) h)
    · rw [hL l h, smul_zero]; exact Submodule.zero_mem _
  have h2 : x i • L (Pi.single i 1) ∈ W := by
    have : x i • L (Pi.single i 1) = L x - ∑ l ∈ range i, x l • L (Pi.single l 1) := by
      rw [e2]; abel
    rw [this]
    exact Submodule.sub_mem _ hW h1
  exact (Submodule.smul_mem_iff _ hi).1 h2

/-- Triangular vectors, modulo kernel vectors and a given submodule, span the image. -/
theorem tri_span (W : Submodule K (ℕ → K)) {U : Finset ℕ} (τ : ℕ → ℕ → K)
    (hτ : ∀ j ∈ U, τ j j ≠ 0 ∧ ∀ l, τ j l ≠ 0 → l ≤ j)
    (hk : ∀ i, S i → i ∉ U → ∃ x : ℕ → K, x i ≠ 0 ∧ (∀ l, x l ≠ 0 → l ≤ i) ∧ L x ∈ W) (i : ℕ)
    (hi : S i) :
    L (Pi.single i 1) ∈ W ⊔ Submodule.span K {y | ∃ j ∈ U, j ≤ i ∧ y = L (τ j)} := by
  induction i using Nat.strong_induction_on with
  | _ i ih =>
    have hlt : ∀ l, l < i → S l → L (Pi.single l 1) ∈
        W ⊔ Submodule.span K {y | ∃ j ∈ U, j ≤ i ∧ y = L (τ j)} := by
      intro l hl hS'
      have hm : Submodule.span K {y | ∃ j ∈ U, j ≤ l ∧ y = L (τ j)} ≤
          Submodule.span K {y | ∃ j ∈ U, j ≤ i ∧ y = L (τ j)} := ?_
      · exact (sup_le_sup_left hm W) (ih l hl hS')
      apply Submodule.span_mono
      rintro y ⟨j, hj, hji, rfl⟩
      exact ⟨j, hj, by omega, rfl⟩
    by_cases hU : i ∈ U
    · obtain ⟨h1, h2⟩ := hτ i hU
      exact unit_mem_span L hS hL h1 h2
        (Submodule.mem_sup_right (Submodule.subset_span ⟨i, hU, le_refl _, rfl⟩)) hlt
    · obtain ⟨x, h1, h2, h3⟩ := hk i hi hU
      exact unit_mem_span L hS hL h1 h2 (Submodule.mem_sup_left h3) hlt

include hLr

theorem tri_span_all (W : Submodule K (ℕ → K)) {U : Finset ℕ} (τ : ℕ → ℕ → K)
    (hτ : ∀ j ∈ U, τ j j ≠ 0 ∧ ∀ l, τ j l ≠ 0 → l ≤ j)
    (hk : ∀ i, S i → i ∉ U → ∃ x : ℕ → K, x i ≠ 0 ∧ (∀ l, x l ≠ 0 → l ≤ i) ∧ L x ∈ W)
    (x : ℕ → K) : L x ∈ W ⊔ Submodule.span K (Set.range fun j : U => L (τ j)) := by
  rw [← hLr x, eq_sum_single (x := restr S x) (n := n)
    (fun i h => hS i (by by_contra hc; exact h (restr_apply_neg hc))), map_sum]
  refine Submodule.sum_mem _ fun i _ => ?_
  rw [map_smul]
  by_cases h : S i
  · have hm : Submodule.span K {y | ∃ j ∈ U, j ≤ i ∧ y = L (τ j)} ≤
        Submodule.span K (Set.range fun j : U => L (τ j)) := ?_
    · exact Submodule.smul_mem _ _ ((sup_le_sup_left hm W) (tri_span L hS hL W τ hτ hk i h))
    apply Submodule.span_mono
    rintro y ⟨j, hj, -, rfl⟩
    exact ⟨⟨j, hj⟩, rfl⟩
  · rw [restr_apply_neg h, zero_smul]; exact Submodule.zero_mem _

omit hL in
/-- Rank-nullity bookkeeping: independent families in image and kernel whose sizes add up to the
number of coordinates span. -/
theorem rank_nullity_span {SF : Finset ℕ} (hSF : ∀ i, i ∈ SF ↔ S i) {U W : Finset ℕ}
    (hcard : W.card + U.card = SF.card) (w : U → ℕ → K) (hw : ∀ j, ∃ x, w j = L x)
    (hwi : LinearIndependent K w) (κ : W → ℕ → K) (hκ : ∀ k, L (κ k) = 0)
    (hκi : LinearIndependent K fun k => restr S (κ k)) :
    Submodule.span K (Set.range fun k => restr S (κ k)) =
      LinearMap.range (restr S) ⊓ LinearMap.ker L ∧
    ∀ v : U → ℕ → K, (∀ x, L x ∈ Submodule.span K (Set.range v)) → (∀ j, ∃ x, v j = L x) →
      LinearIndependent K v ∧ Submodule.span K (Set.range v) = LinearMap.range L := by
  classical
  -- restrict to finitely many coordinates
  let ext : (SF → K) →ₗ[K] (ℕ → K) :=
    { toFun := fun x i => if h : i ∈ SF then x ⟨i, h⟩ else 0
      map_add' := fun x y => by funext i; by_cases h : i ∈ SF <;> simp [h]
      map_smul' := fun r x => by funext i; by_cases h : i ∈ SF <;> simp [h] }
  have hext : ∀ x i (h : i ∈ SF), ext x i = x ⟨i, h⟩ := fun x i h => by
    change (if h : i ∈ SF then x ⟨i, h⟩ else 0) = _
    rw [dif_pos h]
  have hext0 : ∀ x i, i ∉ SF → ext x i = 0 := fun x i h => by
    change (if h : i ∈ SF then x ⟨i, h⟩ else 0) = _
    rw [dif_neg h]
  have hinj : Function.Injective ext := by
    intro x y h
    funext i
    have := congrFun h i.1
    rwa [hext _ _ i.2, hext _ _ i.2] at this
  have hextr : ∀ x : ℕ → K, ext (fun i => x i.1) = restr S x := by
    intro x
    funext i
    by_cases h : i ∈ SF
    · rw [hext _ _ h, restr_apply_pos ((hSF i).1 h)]
    · rw [hext0 _ _ h, restr_apply_neg (fun h' => h ((hSF i).2 h'))]
  let L' := L ∘ₗ ext
  have hrange : LinearMap.range L' = LinearMap.range L := by
    apply le_antisymm
    · rintro _ ⟨x, rfl⟩; exact ⟨ext x, rfl⟩
    · rintro _ ⟨x, rfl⟩
      refine ⟨fun i => x i.1, ?_⟩
      change L (ext _) = _
      rw [hextr, hLr]
  have hfin : Module.finrank K (LinearMap.range L') + Module.finrank K (LinearMap.ker L') =
      SF.card := by
    rw [LinearMap.finrank_range_add_finrank_ker]; simp
  -- the image is at least as big as `U`
  have hw' : ∀ j, w j ∈ LinearMap.range L' := by
    intro j
    rw [hrange]
    obtain ⟨x, hx⟩ := hw j
    exact ⟨x, hx.symm⟩
  have hwi' : LinearIndependent K (fun j => (⟨w j, hw' j⟩ : LinearMap.range L')) := by
    apply LinearIndependent.of_comp (LinearMap.range L').subtype
    exact hwi
  have h1 : U.card ≤ Module.finrank K (LinearMap.range L') := by
    have := hwi'.fintype_card_le_finrank
    simpa using this
  -- the kernel is at least as big as `W`
  have hκ' : ∀ k, (fun i : SF => κ k i.1) ∈ LinearMap.ker L' := by
    intro k
    change L (ext _) = 0
    rw [hextr, hLr, hκ]
  have hκi' : LinearIndependent K (fun k => (⟨fun i : SF => κ k i.1, hκ' k⟩ : LinearMap.ker L')) := by
    apply LinearIndependent.of_comp (ext ∘ₗ (LinearMap.ker L').subtype)
    have : (⇑(ext ∘ₗ (LinearMap.ker L').subtype) ∘
        fun k => (⟨fun i : SF => κ k i.1, hκ' k⟩ : LinearMap.ker L')) =
        fun k => restr S (κ k) := by
      funext k
      exact hextr (κ k)
    rw [this]
    exact hκi
  have h2 : W.card ≤ Module.finrank K (LinearMap.ker L') := by
    have := hκi'.fintype_card_le_finrank
    simpa using this
  have hr : Module.finrank K (LinearMap.range L') = U.card := by omega
  have hk : Module.finrank K (LinearMap.ker L') = W.card := by omega
  constructor
  · apply le_antisymm
    · rw [Submodule.span_le]
      rintro _ ⟨k, rfl⟩
      exact ⟨⟨_, rfl⟩, by change L _ = 0; rw [hLr, hκ]⟩
    · rintro x ⟨⟨y, rfl⟩, hx⟩
      have hx' : (fun i : SF => y i.1) ∈ LinearMap.ker L' := by
        change L (ext _) = 0
        rw [hextr]; exact hx
      have htop := hκi'.span_eq_top_of_card_eq_finrank' (by rw [hk]; simp)
      have hm : (⟨_, hx'⟩ : LinearMap.ker L') ∈ Submodule.span K (Set.range
          (fun k => (⟨fun i : SF => κ k i.1, hκ' k⟩ : LinearMap.ker L'))) := by
        rw [htop]; exact Submodule.mem_top
      have hm2 := Submodule.mem_map_of_mem (f := ext ∘ₗ (LinearMap.ker L').subtype) hm
      rw [Submodule.map_span] at hm2
      have e : (ext ∘ₗ (LinearMap.ker L').subtype) ⟨_, hx'⟩ = restr S y := hextr y
      rw [e] at hm2
      refine Submodule.span_mono ?_ hm2
      rintro _ ⟨_, ⟨k, rfl⟩, rfl⟩
      exact ⟨k, (hextr (κ k)).symm⟩
  · intro v hv hv'
    have hspan : Submodule.span K (Set.range v) = LinearMap.range L := by
      apply le_antisymm
      · rw [Submodule.span_le]
        rintro _ ⟨j, rfl⟩
        obtain ⟨x, hx⟩ := hv' j
        exact ⟨x, hx.symm⟩
      · rintro _ ⟨x, rfl⟩; exact hv x
    refine ⟨?_, hspan⟩
    rw [linearIndependent_iff_card_eq_finrank_span]
    change Fintype.card U = Module.finrank K (Submodule.span K (Set.range v))
    rw [hspan, ← hrange, hr]; simp

end main

end Permaviss
