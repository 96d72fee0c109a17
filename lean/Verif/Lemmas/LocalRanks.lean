import Verif.Lemmas.BarsPerm
import Verif.Lemmas.DegreeZero
import Verif.Lemmas.RowZero
import Mathlib.Data.Set.Finite.List

/-!
# The barcodes of the ordinary computation as ranks
-/

namespace Permaviss

attribute [-instance] instMulZeroClassOfSemiring

section

variable {α : Type} [LinearOrder α] [Zero α] {p : ℕ} {Pt : Type}

/-- A barcode of `local_persistent_homology`: its bars lie between `0` and `max_r` and count ranks. -/
theorem local_ranks (hp : p.Prime) {pdist : List Pt → List (List α)} (hd : IsPdist pdist)
    {argsort : List α → List Nat} (ha : IsArgsort argsort) {rnd : α → α} {cloud : List Pt} {maxR : α}
    (hmax : 0 < maxR) {maxDim : Int} {L : LocalOut α}
    (hL : localPersistentHomology pdist argsort rnd cloud maxR maxDim p = .ok L)
    {e : ℕ} (he : (e : Int) < max maxDim 1) :
    ∃ B, L.ph.hom[e]? = some B ∧
      (∀ b ∈ B.barcode, 0 ≤ b.1 ∧ b.1 < b.2 ∧ b.2 ≤ maxR ∧ (e = 0 → b.1 = 0)) ∧
      ∀ s t (hst : s ≤ t), 0 ≤ s → t < maxR →
        barsThrough B.barcode s t = Module.finrank (ZMod p) (LinearMap.range
          (vrMap (ZMod p) (cloudDist pdist cloud) cloud.length e hst)) := by
  obtain ⟨Dist, D, out, h0, hlen, hpos, hD, F, hout, hol, hDm, hDl, h3⟩ :=
    local_run hp hd ha rnd cloud hmax maxDim
  have hL' := hL
  rw [hL] at h3
  cases h3
  have he' : e < (vietorisRips argsort Dist maxR maxDim).simplices.length := by omega
  obtain ⟨B, hB⟩ : ∃ B, out.hom[e]? = some B := ⟨_, List.getElem?_eq_getElem (by omega)⟩
  refine ⟨B, hB, fun b hb => ?_, fun s t hst hs ht => ?_⟩
  · have hwf := (C26_barcodes_well_formed hp rnd F out hout e B hB).1 b hb
    have hmem := birth_mem hp F hout hB b hb
    have key : 0 ≤ b.1 ∧ (e = 0 → b.1 = 0) := by
      cases e with
      | zero =>
        have : b.1 ∈ List.replicate Dist.length (0 : α) := hmem
        rw [List.eq_of_mem_replicate this]
        exact ⟨le_rfl, fun _ => rfl⟩
      | succ e =>
        refine ⟨?_, fun h => by omega⟩
        obtain ⟨-, -, hnn, -⟩ := C18_vietoris_rips_filtration argsort ha Dist maxR maxDim hpos
        have hmem' : b.1 ∈ (vietorisRips argsort Dist maxR maxDim).rads.getD e [] := hmem
        by_cases hl : e < (vietorisRips argsort Dist maxR maxDim).rads.length
        · exact hnn _ (getD_mem' hl) _ hmem'
        · rw [List.getD_eq_getElem?_getD, List.getElem?_eq_none (not_lt.1 hl)] at hmem'
          simp at hmem'
    exact ⟨key.1, hwf.1, hwf.2, key.2⟩
  · obtain ⟨B'', hB'', hr⟩ := C27_local_persistent_betti hp pdist hd argsort ha rnd
      cloud maxR hmax maxDim _ hL' e he s t hs hst ht
    rw [hB] at hB''
    obtain rfl := Option.some.inj hB''
    rw [hr]
    unfold barsThrough
    rw [List.countP_eq_length_filter]
    congr 1
    apply List.filter_congr
    intro b _
    rw [Bool.decide_and]

/-- Barcodes inside `[0, max_r]` with the same ranks there. -/
theorem perm_of_ranks {A B : List (α × α)} {maxR : α} (hA : ∀ b ∈ A, 0 ≤ b.1 ∧ b.1 < b.2 ∧ b.2 ≤ maxR)
    (hB : ∀ b ∈ B, 0 ≤ b.1 ∧ b.1 < b.2 ∧ b.2 ≤ maxR)
    (h : ∀ s t, s ≤ t → 0 ≤ s → t < maxR → barsThrough A s t = barsThrough B s t) : A.Perm B := by
  refine perm_of_barsThrough (fun b hb => (hA b hb).2.1) (fun b hb => (hB b hb).2.1) fun s t hst => ?_
  have zero : ∀ C : List (α × α), (∀ b ∈ C, 0 ≤ b.1 ∧ b.1 < b.2 ∧ b.2 ≤ maxR) → ¬ (0 ≤ s ∧ t < maxR) →
      barsThrough C s t = 0 := by
    intro C hC hn
    by_contra hc
    obtain ⟨b, hb, h1, h2⟩ := barsThrough_pos.1 (Nat.pos_of_ne_zero hc)
    exact hn ⟨(hC b hb).1.trans h1, h2.trans_le (hC b hb).2.2⟩
  by_cases hc : 0 ≤ s ∧ t < maxR
  · exact h s t hst hc.1 hc.2
  · rw [zero A hA hc, zero B hB hc]

end

/-! ## Comparison of ranks -/

section

variable {K V : Type} [Field K] [AddCommGroup V] [Module K V]

/-- Ranks grow with the cycles and with fewer boundaries. -/
theorem finrank_mkQ_le {Z Z' B B' : Submodule K V} (hZ : Z ≤ Z') (hB : B' ≤ B)
    [FiniteDimensional K ↥(Z'.map B'.mkQ)] :
    Module.finrank K ↥(Z.map B.mkQ) ≤ Module.finrank K ↥(Z'.map B'.mkQ) := by
  have e1 : Z.map B.mkQ = (Z.map B'.mkQ).map (B'.mapQ B LinearMap.id (by simpa using hB)) := by
    rw [← Submodule.map_comp]
    congr 1
  have : FiniteDimensional K ↥(Z.map B'.mkQ) :=
    Submodule.finiteDimensional_of_le (Submodule.map_mono hZ)
  rw [e1]
  exact (Submodule.finrank_map_le _ _).trans (Submodule.finrank_mono (Submodule.map_mono hZ))

/-- A linear equivalence preserves ranks. -/
theorem finrank_mkQ_equiv (σ : V ≃ₗ[K] V) {Z Z' B B' : Submodule K V} (hZ : Z.map σ.toLinearMap = Z')
    (hB : B.map σ.toLinearMap = B') :
    Module.finrank K ↥(Z'.map B'.mkQ) = Module.finrank K ↥(Z.map B.mkQ) := by
  subst hZ; subst hB
  rw [← Submodule.map_comp]
  refine finrank_map_eq _ _ _ fun x _ => ?_
  rw [LinearMap.comp_apply, Submodule.mkQ_apply, Submodule.mkQ_apply, Submodule.Quotient.mk_eq_zero,
    Submodule.Quotient.mk_eq_zero]
  constructor
  · rintro ⟨y, hy, h⟩
    rwa [← σ.injective h]
  · intro h
    exact ⟨x, h, rfl⟩

end

theorem vrSimplex_finite {α : Type} [LinearOrder α] (dist : ℕ → ℕ → α) (n e : ℕ) (t : α) :
    {s | VRSimplex dist n e t s}.Finite := by
  refine Set.Finite.subset (List.finite_length_eq (Fin n) (e + 1) |>.image (List.map Fin.val)) ?_
  rintro s ⟨h1, h2, -⟩
  refine ⟨s.attach.map fun v => ⟨v.1, h2 v.1 v.2⟩, by simpa using h1, ?_⟩
  simp

theorem vrChains_finite {α : Type} [LinearOrder α] (K : Type) [Field K] (dist : ℕ → ℕ → α) (n e : ℕ) (t : α) :
    FiniteDimensional K ↥(vrChains K dist n e t) := by
  have := (vrSimplex_finite dist n e t).to_subtype
  exact Module.Finite.equiv (Finsupp.supportedEquivFinsupp (R := K) (M := K) _).symm

theorem vrCycles_finite {α : Type} [LinearOrder α] (K : Type) [Field K] (dist : ℕ → ℕ → α) (n e : ℕ) (t : α) :
    FiniteDimensional K ↥(vrCycles K dist n e t) := by
  have := vrChains_finite K dist n e t
  exact Submodule.finiteDimensional_of_le inf_le_left

end Permaviss
