import Verif.Lemmas.Components
import Verif.Lemmas.Diam

/-!
# Homology of degree zero from the first column
-/

namespace Permaviss

open Finset

attribute [-instance] instMulZeroClassOfSemiring

section

variable {α : Type} [LinearOrder α] [Zero α] {rnd : α → α} {E : SSEnv α} {ρ : List ℕ → α}

theorem bd_zero (n k : ℕ) : E.bd n k 0 = 0 := by
  unfold SSEnv.bd
  split <;> rfl

theorem chG_mono {N e : ℕ} {s t : α} (hst : s ≤ t) : E.chG ρ N e s ≤ E.chG ρ N e t :=
  Finsupp.supported_mono fun _ hs => ⟨hs.1, hs.2.1, hs.2.2.1, hs.2.2.2.trans hst⟩

/-- Chains of degree zero are homologous to combinations of classes of the first column. -/
theorem exists_whole (h : SSOK rnd E ρ) {N : ℕ} {D : Mat} (C : CoverOK E ρ N D) (hrow : 0 < E.rows)
    {t : α} (ht : t < E.maxR) {z : List ℕ →₀ ZMod E.p} (hz : z ∈ E.chG ρ N 0 t) :
    ∃ x ∈ barModule E.p (E.firstBars 0 0) t,
      E.whole 0 x - z ∈ (E.chG ρ N 1 t).map (simplicialBdry (ZMod E.p)) := by
  have hc0 : 0 < E.columns.length := by have := C.cols; omega
  obtain ⟨c, hc, rfl⟩ := exists_local C hrow.le ht hz
  obtain ⟨x, w, hx, hw⟩ := exists_fam h hc0 hrow ht (z := c) fun k hk =>
    ⟨hc k hk, by rw [bd_zero]; rfl⟩
  set x' := barRestr E.p (E.firstBars 0 0) t x with hx'
  have hxb' : E.BornBy 0 0 x' t := BornBy.restr _ hx
  have hdead : barRestr E.p (E.firstBars 0 0) t (x' - x) = 0 := by
    rw [map_sub, sub_eq_zero]; exact restr_restr _
  obtain ⟨w', hw'⟩ := dead_fam h hc0 hrow ht (BornBy.sub hxb' hx) hdead
  refine ⟨x', ⟨x, rfl⟩, ?_⟩
  have e : E.whole 0 x' - E.glSum 0 c = E.glSum 0 (fun k => E.bd 0 k 1 (w' k)) +
      E.glSum 0 (fun k => E.bd 0 k 1 (w k)) := by
    rw [whole_eq, ← map_sub, ← map_add]
    refine glSum_congr fun k hk => ?_
    change E.fam 0 0 k x' - c k = E.bd 0 k (0 + 1) (w' k) + E.bd 0 k (0 + 1) (w k)
    rw [← (hw' k hk).2, map_sub, ← (hw k hk).2]
    abel
  rw [e]
  exact Submodule.add_mem _ (glSum_bd_mem h C hrow fun k hk => (hw' k hk).1)
    (glSum_bd_mem h C hrow fun k hk => (hw k hk).1)

/-- The rank of the maps in homology of degree zero, from the first column. -/
theorem rank_row_zero (h : SSOK rnd E ρ) {N : ℕ} {D : Mat} (C : CoverOK E ρ N D) (hrow : 0 < E.rows)
    {M : Mat} (hM : firstDifferential E 0 0 = .ok M) {s t : α} (hst : s ≤ t) (ht : t < E.maxR) :
    Module.finrank (ZMod E.p) ((barModule E.p (E.firstBars 0 0) s).map
      ((imAt E.p (E.firstBars 0 1) (E.firstBars 0 0) M t).mkQ ∘ₗ barRestr E.p (E.firstBars 0 0) t)) =
    Module.finrank (ZMod E.p) ((E.chG ρ N 0 s).map
      ((E.chG ρ N 1 t).map (simplicialBdry (ZMod E.p))).mkQ) := by
  have := Fact.mk h.prime
  have hc0 : 0 < E.columns.length := by have := C.cols; omega
  rw [finrank_map_eq _ _ (((E.chG ρ N 1 t).map (simplicialBdry (ZMod E.p))).mkQ ∘ₗ E.whole 0)]
  · have e : (barModule E.p (E.firstBars 0 0) s).map
        (((E.chG ρ N 1 t).map (simplicialBdry (ZMod E.p))).mkQ ∘ₗ E.whole 0) =
        (E.chG ρ N 0 s).map ((E.chG ρ N 1 t).map (simplicialBdry (ZMod E.p))).mkQ := by
      rw [Submodule.map_comp]
      apply le_antisymm
      · rintro _ ⟨_, ⟨x, hx, rfl⟩, rfl⟩
        refine ⟨_, ?_, rfl⟩
        exact glSum_present h C hrow.le
          fun k hk => (fam_cycle h hc0 hrow (BornBy.of_barModule hx) hk).1
      · rintro _ ⟨z, hz, rfl⟩
        obtain ⟨x, hx, hd⟩ := exists_whole h C hrow (hst.trans_lt ht) hz
        refine ⟨_, ⟨x, hx, rfl⟩, ?_⟩
        rw [← sub_eq_zero, ← map_sub]
        refine (Submodule.Quotient.mk_eq_zero _).2 ?_
        exact Submodule.map_mono (chG_mono hst) hd
    rw [e]
  · intro x hx
    have hxb := BornBy.mono hst (BornBy.of_barModule hx)
    rw [LinearMap.comp_apply, LinearMap.comp_apply, Submodule.mkQ_apply, Submodule.mkQ_apply,
      Submodule.Quotient.mk_eq_zero, Submodule.Quotient.mk_eq_zero]
    exact ⟨whole_of_bounds h C hrow hM ht hxb, bounds_of_whole h C hrow hM ht
      (fun e _ _ l _ => by rw [bd_zero]; rfl) hxb⟩

end

/-! ## The same rank in terms of Vietoris-Rips homology -/

section

variable {α : Type} [LinearOrder α]

theorem faceSum_vertex {p : ℕ} {s : List ℕ} (hs : s.length = 1) : faceSum (ZMod p) s = 0 := by
  unfold faceSum; rw [if_pos (by omega)]

theorem vrCycles_zero (p : ℕ) (dist : ℕ → ℕ → α) (n : ℕ) (t : α) :
    vrCycles (ZMod p) dist n 0 t = vrChains (ZMod p) dist n 0 t := by
  apply le_antisymm inf_le_left
  intro z hz
  refine ⟨hz, ?_⟩
  change simplicialBdry (ZMod p) z = 0
  unfold simplicialBdry
  rw [Finsupp.linearCombination_apply]
  refine Finset.sum_eq_zero fun s hs => ?_
  beta_reduce
  rw [faceSum_vertex (((Finsupp.mem_supported _ _).1 hz hs).1), smul_zero]

/-- The rank of the map in homology of degree `e` as the dimension of the image of the cycles. -/
theorem finrank_vrMap {p : ℕ} (hp : p.Prime) (dist : ℕ → ℕ → α) (n e : ℕ) {s t : α} (hst : s ≤ t) :
    Module.finrank (ZMod p) (LinearMap.range (vrMap (ZMod p) dist n e hst)) =
      Module.finrank (ZMod p) ((vrCycles (ZMod p) dist n e s).map
        (vrBoundaries (ZMod p) dist n e t).mkQ) := by
  have := Fact.mk hp
  have e1 : LinearMap.range (vrMap (ZMod p) dist n e hst) =
      (⊤ : Submodule (ZMod p) ↥(vrCycles (ZMod p) dist n e s)).map
        (vrMap (ZMod p) dist n e hst ∘ₗ Submodule.mkQ _) := by
    rw [Submodule.map_top, LinearMap.range_comp, Submodule.range_mkQ, Submodule.map_top]
  have e2 : (vrCycles (ZMod p) dist n e s).map (vrBoundaries (ZMod p) dist n e t).mkQ =
      (⊤ : Submodule (ZMod p) ↥(vrCycles (ZMod p) dist n e s)).map
        ((vrBoundaries (ZMod p) dist n e t).mkQ ∘ₗ (vrCycles (ZMod p) dist n e s).subtype) := by
    rw [Submodule.map_comp, Submodule.map_top, Submodule.range_subtype]
  rw [e1, e2]
  refine finrank_map_eq _ _ _ fun x _ => ?_
  rw [LinearMap.comp_apply, LinearMap.comp_apply, Submodule.mkQ_apply, Submodule.mkQ_apply,
    Submodule.Quotient.mk_eq_zero]
  change Submodule.Quotient.mk _ = 0 ↔ _
  rw [Submodule.Quotient.mk_eq_zero]
  rfl

theorem vrChains_eq [Zero α] {Pt : Type} {E : SSEnv α} {d : Pt → Pt → α} {pt : ℕ → Pt}
    {dist : ℕ → ℕ → α} {n e : ℕ} (hd : ∀ u < n, ∀ v < n, dist v u = d (pt v) (pt u)) {t : α}
    (ht : 0 ≤ t) : vrChains (ZMod E.p) dist n e t = E.chG (diam d pt) n e t := by
  unfold vrChains SSEnv.chG
  congr 1
  ext s
  change VRSimplex dist n e t s ↔ s.length = e + 1 ∧ s.Pairwise (· < ·) ∧ (∀ v ∈ s, v < n) ∧ diam d pt s ≤ t
  unfold VRSimplex
  rw [diam_le_iff]
  constructor
  · rintro ⟨h1, h2, h3⟩
    have hs : s.Pairwise (· < ·) := h3.imp fun h => h.1
    refine ⟨h1, hs, h2, ht, fun u hu v hv huv => ?_⟩
    rw [← hd u (h2 u hu) v (h2 v hv)]
    exact ((pairwise_iff_forall_lt hs).1 h3 u hu v hv huv).2
  · rintro ⟨h1, hs, h2, -, h3⟩
    refine ⟨h1, h2, (pairwise_iff_forall_lt hs).2 fun u hu v hv huv => ⟨huv, ?_⟩⟩
    rw [hd u (h2 u hu) v (h2 v hv)]
    exact h3 u hu v hv huv

end

end Permaviss
