import Verif.Lemmas.PHOut
import Mathlib.LinearAlgebra.Basis.Basic
import Mathlib.LinearAlgebra.Dimension.Constructions
import Mathlib.LinearAlgebra.Dimension.StrongRankCondition

/-!
# From the matching to bases of homology
-/

namespace Permaviss

open Finset GOK

variable {α : Type} [LinearOrder α] {p : ℕ}

/-- Sums over a finite set of a subtype as sums over a range. -/
theorem sum_subtype_range {K M : Type*} [Semiring K] [AddCommMonoid M] [Module K M] {q : ℕ → Prop}
    (n : ℕ) (hq : ∀ j, q j → j < n) (s : Finset {j // q j}) (g : {j // q j} → K) (v : ℕ → M) :
    ∃ a : ℕ → K, (∀ j, a j ≠ 0 → q j) ∧ (∀ i ∈ s, a i.1 = g i) ∧
      ∑ i ∈ s, g i • v i.1 = ∑ j ∈ range n, a j • v j := by
  classical
  refine ⟨fun j => if h : ∃ hq : q j, (⟨j, hq⟩ : {j // q j}) ∈ s then g ⟨j, h.1⟩ else 0, ?_, ?_, ?_⟩
  · intro j hj
    by_contra hc
    apply hj
    dsimp only
    rw [dif_neg]
    rintro ⟨h, -⟩
    exact hc h
  · intro i hi
    dsimp only
    rw [dif_pos ⟨i.2, hi⟩]
  · rw [← Finset.sum_subset (s₁ := s.image Subtype.val)]
    · rw [Finset.sum_image (fun x _ y _ h => Subtype.ext h)]
      refine Finset.sum_congr rfl fun i hi => ?_
      dsimp only
      rw [dif_pos ⟨i.2, hi⟩]
    · intro j hj
      obtain ⟨i, -, rfl⟩ := Finset.mem_image.1 hj
      exact mem_range.2 (hq _ i.2)
    · intro j _ hj
      dsimp only
      rw [dif_neg, zero_smul]
      rintro ⟨h, hs⟩
      exact hj (Finset.mem_image.2 ⟨_, hs, rfl⟩)

/-- The class of a sum. -/
theorem homClass_eq_zero {D : List Mat} {R : List (List α)} {e : ℕ} {t : α} {z : ℕ → ZMod p}
    (h : z ∈ cyclesAt p D R e t) : homClass z h = 0 ↔ z ∈ boundariesAt p D R e t := by
  unfold homClass
  rw [Submodule.Quotient.mk_eq_zero]
  rfl

theorem homClass_surj {D : List Mat} {R : List (List α)} {e : ℕ} {t : α}
    (x : homologyAt p D R e t) : ∃ z, ∃ h : z ∈ cyclesAt p D R e t, x = homClass z h := by
  obtain ⟨⟨z, h⟩, rfl⟩ := Submodule.Quotient.mk_surjective _ x
  exact ⟨z, h, rfl⟩

/-- Total version of `homClass`: linear on cycles. -/
noncomputable def clsL (p : ℕ) (D : List Mat) (R : List (List α)) (e : ℕ) (t : α) :
    ↥(cyclesAt p D R e t) →ₗ[ZMod p] homologyAt p D R e t := Submodule.mkQ _

theorem clsL_eq {D : List Mat} {R : List (List α)} {e : ℕ} {t : α} (z : ↥(cyclesAt p D R e t)) :
    clsL p D R e t z = homClass z.1 z.2 := rfl

section

variable {D : List Mat} {R : List (List α)} {n : ℕ → ℕ} {P : ℕ → Set ℕ} {κ : ℕ → ℕ → ℕ}
  {b : ℕ → ℕ → ℕ → ZMod p} [Fact p.Prime] (M : Matching (K := ZMod p) (bdry p D) n P κ b)
  (F : Filt (K := ZMod p) (bdry p D) n (fun e i (t : α) => Born R e i t))

include M F

theorem Matching.alive_mem {e : ℕ} {t : α} {j : ℕ} (h : M.Alive F e j t) :
    b e j ∈ cyclesAt p D R e t := ⟨M.basis_mem F e j t h.1, h.2.1⟩

theorem Matching.mem_boundariesAt {e : ℕ} {t : α} (c : ℕ → ZMod p) :
    c ∈ boundariesAt p D R e t ↔
      ∃ x : ℕ → ZMod p, (∀ i, x i ≠ 0 → Born R (e + 1) i t) ∧ bdry p D (e + 1) x = c := Iff.rfl

/-- The classes of the alive elements. -/
noncomputable def aliveCls (e : ℕ) (t : α) (j : {j // M.Alive F e j t}) : homologyAt p D R e t :=
  clsL p D R e t ⟨b e j.1, M.alive_mem F j.2⟩

theorem aliveCls_indep (e : ℕ) (t : α) : LinearIndependent (ZMod p) (aliveCls M F e t) := by
  rw [linearIndependent_iff']
  intro s g h i hi
  simp only [aliveCls] at h
  simp only [← map_smul] at h
  rw [← map_sum, clsL_eq, homClass_eq_zero] at h
  obtain ⟨a, ha, hag, hs⟩ := sum_subtype_range (n e) (fun j (hj : M.Alive F e j t) =>
    F.lt e j t hj.1) s g (b e)
  have hval : ((∑ x ∈ s, g x • (⟨b e x.1, M.alive_mem F x.2⟩ : ↥(cyclesAt p D R e t)) :
      ↥(cyclesAt p D R e t)) : ℕ → ZMod p) = ∑ i ∈ s, g i • b e i.1 := by
    rw [Submodule.coe_sum]; rfl
  rw [hval, hs, M.mem_boundariesAt F] at h
  rw [← hag i hi]
  exact M.alive_indep F e t a (fun j hj => (ha j hj).2.2) h i.1 (F.lt e _ t i.2.1)

theorem aliveCls_span (e : ℕ) (t : α) :
    ⊤ ≤ Submodule.span (ZMod p) (Set.range (aliveCls M F e t)) := by
  classical
  intro x _
  obtain ⟨z, hz, rfl⟩ := homClass_surj x
  obtain ⟨a, ha, x, hx, hx'⟩ := M.alive_span F e t z hz.1 hz.2
  have hmem : ∀ j, a j • b e j ∈ cyclesAt p D R e t := by
    intro j
    by_cases h : a j = 0
    · rw [h, zero_smul]; exact Submodule.zero_mem _
    · exact Submodule.smul_mem _ _ (M.alive_mem F (ha j h))
  have hsum : ∑ j ∈ range (n e), a j • b e j ∈ cyclesAt p D R e t :=
    Submodule.sum_mem _ fun j _ => hmem j
  have h1 : homClass z hz = homClass _ hsum := by
    unfold homClass
    rw [Submodule.Quotient.eq]
    change z - ∑ j ∈ range (n e), a j • b e j ∈ boundariesAt p D R e t
    exact ⟨x, hx, hx'⟩
  have h2 : homClass _ hsum = ∑ j ∈ range (n e), clsL p D R e t ⟨a j • b e j, hmem j⟩ := by
    rw [← map_sum, clsL_eq]
    congr 1
    rw [Submodule.coe_sum]
  rw [h1, h2]
  refine Submodule.sum_mem _ fun j _ => ?_
  by_cases h : a j = 0
  · have : (⟨a j • b e j, hmem j⟩ : ↥(cyclesAt p D R e t)) = 0 := by
      apply Subtype.ext; simp [h]
    rw [this, map_zero]; exact Submodule.zero_mem _
  · have : (⟨a j • b e j, hmem j⟩ : ↥(cyclesAt p D R e t)) =
      a j • ⟨b e j, M.alive_mem F (ha j h)⟩ := rfl
    rw [this, map_smul]
    exact Submodule.smul_mem _ _ (Submodule.subset_span ⟨⟨j, ha j h⟩, rfl⟩)

/-- The classes of the alive elements form a basis. -/
noncomputable def aliveBasis (e : ℕ) (t : α) :
    Module.Basis {j // M.Alive F e j t} (ZMod p) (homologyAt p D R e t) :=
  Module.Basis.mk (aliveCls_indep M F e t) (aliveCls_span M F e t)

theorem aliveBasis_apply (e : ℕ) (t : α) (j : {j // M.Alive F e j t}) :
    aliveBasis M F e t j = homClass (b e j.1) (M.alive_mem F j.2) := by
  rw [aliveBasis, Module.Basis.mk_apply]; rfl

/-- The matched elements whose partner is present form a basis of the boundaries. -/
theorem boundary_basis (e : ℕ) (t : α) :
    LinearIndependent (ZMod p) (fun j : {j // j ∈ P e ∧ Born R (e + 1) (κ e j) t} => b e j.1) ∧
    Submodule.span (ZMod p) (Set.range fun j : {j // j ∈ P e ∧ Born R (e + 1) (κ e j) t} => b e j.1) =
      boundariesAt p D R e t := by
  constructor
  · rw [linearIndependent_iff']
    intro s g h i hi
    obtain ⟨a, ha, hag, hs⟩ := sum_subtype_range (n e)
      (fun j (hj : j ∈ P e ∧ Born R (e + 1) (κ e j) t) => M.Plt e j hj.1) s g (b e)
    rw [hs] at h
    rw [← hag i hi]
    exact triangular_indep (M.piv e) a h i.1 (M.Plt e _ i.2.1)
  · apply le_antisymm
    · rw [Submodule.span_le]
      rintro _ ⟨⟨j, hj⟩, rfl⟩
      refine ⟨b (e + 1) (κ e j), M.basis_mem F (e + 1) _ t hj.2, (M.eq e j hj.1).symm⟩
    · intro c hc
      obtain ⟨a, ha, rfl⟩ := (M.boundary_iff F e t c).1 ((M.mem_boundariesAt F c).1 hc)
      refine Submodule.sum_mem _ fun j _ => ?_
      by_cases h : a j = 0
      · rw [h, zero_smul]; exact Submodule.zero_mem _
      · exact Submodule.smul_mem _ _ (Submodule.subset_span ⟨⟨j, ha j h⟩, rfl⟩)

/-- Alive elements at `s` stay alive or become boundaries. -/
theorem homMap_alive (e : ℕ) {s t : α} (hst : s ≤ t) (j : ℕ) (hj : M.Alive F e j s) :
    homMap p D R e hst (homClass (b e j) (M.alive_mem F hj)) =
      homClass (b e j) (cyclesAt_mono p D R e hst (M.alive_mem F hj)) := rfl

theorem homMap_dead (e : ℕ) {s t : α} (hst : s ≤ t) (j : ℕ) (hj : M.Alive F e j s)
    (hd : ¬ M.Alive F e j t) : b e j ∈ boundariesAt p D R e t := by
  have h : j ∈ P e ∧ Born R (e + 1) (κ e j) t := by
    by_contra hc
    exact hd ⟨F.mono e j s t hst hj.1, hj.2.1, hc⟩
  exact ⟨b (e + 1) (κ e j), M.basis_mem F (e + 1) _ t h.2, (M.eq e j h.1).symm⟩

/-- The rank of `H_e(X_s) → H_e(X_t)`. -/
theorem finrank_homMap (e : ℕ) {s t : α} (hst : s ≤ t)
    [Fintype {j // M.Alive F e j s ∧ M.Alive F e j t}] :
    Module.finrank (ZMod p) (LinearMap.range (homMap p D R e hst)) =
      Fintype.card {j // M.Alive F e j s ∧ M.Alive F e j t} := by
  let f : {j // M.Alive F e j s ∧ M.Alive F e j t} → {j // M.Alive F e j t} := fun j => ⟨j.1, j.2.2⟩
  have hf : Function.Injective f := by
    intro x y h
    have : (f x).1 = (f y).1 := by rw [h]
    exact Subtype.ext this
  have hli : LinearIndependent (ZMod p) (aliveCls M F e t ∘ f) :=
    (aliveCls_indep M F e t).comp f hf
  have key : LinearMap.range (homMap p D R e hst) = Submodule.span (ZMod p)
      (Set.range (aliveCls M F e t ∘ f)) := by
    apply le_antisymm
    · rw [LinearMap.range_eq_map, ← (aliveBasis M F e s).span_eq, Submodule.map_span,
        Submodule.span_le]
      rintro _ ⟨_, ⟨j, rfl⟩, rfl⟩
      rw [aliveBasis_apply, homMap_alive M F e hst _ j.2]
      by_cases h : M.Alive F e j.1 t
      · exact Submodule.subset_span ⟨⟨j.1, j.2, h⟩, rfl⟩
      · have := homMap_dead M F e hst j.1 j.2 h
        rw [(homClass_eq_zero _).2 this]
        exact Submodule.zero_mem _
    · rw [Submodule.span_le]
      rintro _ ⟨j, rfl⟩
      exact ⟨homClass (b e j.1) (M.alive_mem F j.2.1), rfl⟩
  rw [key]
  exact finrank_span_eq_card hli

end

end Permaviss
