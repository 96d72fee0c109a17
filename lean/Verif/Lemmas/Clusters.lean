import Verif.Lemmas.LocalRanks

/-!
# Clouds made of two separate parts

The Vietoris-Rips complex of a cloud in two parts which are further apart than the radius is the disjoint union of the
complexes of the parts, and its homology is the sum.
-/

namespace Permaviss

open Finset

attribute [-instance] instMulZeroClassOfSemiring

noncomputable section

section

variable {K V W : Type} [Field K] [AddCommGroup V] [Module K V] [AddCommGroup W] [Module K W]

/-- The dimension of a subspace modulo another one. -/
theorem finrank_mkQ_inf (Z B : Submodule K V) [FiniteDimensional K ↥Z] :
    Module.finrank K ↥(Z.map B.mkQ) + Module.finrank K ↥(Z ⊓ B) = Module.finrank K ↥Z := by
  have h := LinearMap.finrank_range_add_finrank_ker (B.mkQ.domRestrict Z)
  rw [LinearMap.range_domRestrict] at h
  rw [← h]
  congr 1
  have e : LinearMap.ker (B.mkQ.domRestrict Z) = (Z ⊓ B).comap Z.subtype := by
    ext x
    simp [LinearMap.mem_ker, LinearMap.domRestrict_apply, Submodule.Quotient.mk_eq_zero]
  rw [e]
  exact (Submodule.comapSubtypeEquivOfLe inf_le_left).finrank_eq.symm

/-- Sums of subspaces which lie in independent ones. -/
theorem finrank_mkQ_sup {P Q Z Z' B B' : Submodule K V} (hPQ : Disjoint P Q) (hZ : Z ≤ P) (hZ' : Z' ≤ Q)
    (hB : B ≤ P) (hB' : B' ≤ Q) [FiniteDimensional K ↥Z] [FiniteDimensional K ↥Z'] :
    Module.finrank K ↥((Z ⊔ Z').map (B ⊔ B').mkQ) =
      Module.finrank K ↥(Z.map B.mkQ) + Module.finrank K ↥(Z'.map B'.mkQ) := by
  have hinf : (Z ⊔ Z') ⊓ (B ⊔ B') = (Z ⊓ B) ⊔ (Z' ⊓ B') := by
    apply le_antisymm
    · rintro x ⟨h1, h2⟩
      obtain ⟨z, hz, z', hz', rfl⟩ := Submodule.mem_sup.1 h1
      obtain ⟨b, hb, b', hb', e⟩ := Submodule.mem_sup.1 h2
      have e1 : z - b = b' - z' := by rw [sub_eq_sub_iff_add_eq_add, ← e]; abel
      have h0 : z - b = 0 := (Submodule.disjoint_def.1 hPQ) _ (P.sub_mem (hZ hz) (hB hb))
        (e1 ▸ Q.sub_mem (hB' hb') (hZ' hz'))
      have h0' : b' - z' = 0 := by rw [← e1]; exact h0
      rw [sub_eq_zero] at h0 h0'
      subst h0 h0'
      exact Submodule.add_mem_sup ⟨hz, hb⟩ ⟨hz', hb'⟩
    · exact le_inf (sup_le_sup inf_le_left inf_le_left) (sup_le_sup inf_le_right inf_le_right)
  have d1 : Module.finrank K ↥(Z ⊔ Z') = Module.finrank K ↥Z + Module.finrank K ↥Z' := by
    have := Submodule.finrank_sup_add_finrank_inf_eq Z Z'
    rw [(hPQ.mono hZ hZ').eq_bot, finrank_bot] at this
    omega
  have hZB : FiniteDimensional K ↥(Z ⊓ B) := Submodule.finiteDimensional_inf_left Z B
  have hZB' : FiniteDimensional K ↥(Z' ⊓ B') := Submodule.finiteDimensional_inf_left Z' B'
  have d2 : Module.finrank K ↥((Z ⊓ B) ⊔ (Z' ⊓ B')) =
      Module.finrank K ↥(Z ⊓ B) + Module.finrank K ↥(Z' ⊓ B') := by
    have := Submodule.finrank_sup_add_finrank_inf_eq (Z ⊓ B) (Z' ⊓ B')
    rw [(hPQ.mono (inf_le_left.trans hZ) (inf_le_left.trans hZ')).eq_bot, finrank_bot] at this
    omega
  have hs := Submodule.finite_sup Z Z'
  have e0 := finrank_mkQ_inf (Z ⊔ Z') (B ⊔ B')
  have e1 := finrank_mkQ_inf Z B
  have e2 := finrank_mkQ_inf Z' B'
  rw [hinf, d1, d2] at e0
  omega

/-- An injective map keeps dimensions. -/
theorem finrank_mkQ_injective {f : V →ₗ[K] W} (hf : Function.Injective f) (Z B : Submodule K V)
    [FiniteDimensional K ↥Z] :
    Module.finrank K ↥((Z.map f).map (B.map f).mkQ) = Module.finrank K ↥(Z.map B.mkQ) := by
  have e1 := finrank_mkQ_inf Z B
  have e2 := finrank_mkQ_inf (Z.map f) (B.map f)
  rw [← Submodule.map_inf f hf, (Submodule.equivMapOfInjective f hf Z).symm.finrank_eq,
    (Submodule.equivMapOfInjective f hf (Z ⊓ B)).symm.finrank_eq] at e2
  omega

end

section

variable {K : Type} [Field K]

/-- Chains on nonempty sets of vertices with a property. -/
def partChains (K : Type) [Field K] (Q : ℕ → Prop) : Submodule K (List ℕ →₀ K) :=
  Finsupp.supported K K {s : List ℕ | s ≠ [] ∧ ∀ v ∈ s, Q v}

theorem partChains_disjoint {Q Q' : ℕ → Prop} (h : ∀ v, Q v → ¬ Q' v) :
    Disjoint (partChains K Q) (partChains K Q') := by
  refine Finsupp.disjoint_supported_supported ?_
  rw [Set.disjoint_left]
  rintro s ⟨h1, h2⟩ ⟨-, h3⟩
  obtain ⟨v, hv⟩ := List.exists_mem_of_ne_nil s h1
  exact h v (h2 v hv) (h3 v hv)

theorem faceSum_part {Q : ℕ → Prop} {s : List ℕ} (h : ∀ v ∈ s, Q v) : faceSum K s ∈ partChains K Q := by
  unfold faceSum
  split_ifs with h1
  · exact Submodule.zero_mem _
  · refine Submodule.sum_mem _ fun k hk => Submodule.smul_mem _ _ (Finsupp.single_mem_supported K _ ?_)
    refine ⟨fun h0 => ?_, fun v hv => h v (List.mem_of_mem_eraseIdx hv)⟩
    have := congrArg List.length h0
    rw [List.length_eraseIdx_of_lt (Finset.mem_range.1 hk)] at this
    simp at this
    omega

theorem simplicialBdry_part {Q : ℕ → Prop} {x : List ℕ →₀ K} (hx : x ∈ partChains K Q) :
    simplicialBdry K x ∈ partChains K Q := by
  unfold simplicialBdry
  rw [Finsupp.linearCombination_apply]
  refine Submodule.sum_mem _ fun s hs => Submodule.smul_mem _ _ (faceSum_part ?_)
  exact ((Finsupp.mem_supported K x).1 hx hs).2

/-- Renaming the vertices. -/
def shiftChain (K : Type) [Field K] (n : ℕ) : (List ℕ →₀ K) →ₗ[K] (List ℕ →₀ K) :=
  Finsupp.lmapDomain K K (List.map (n + ·))

theorem map_add_injective (n : ℕ) : Function.Injective (List.map (n + ·)) :=
  List.map_injective_iff.2 fun a b h => Nat.add_left_cancel h

theorem shiftChain_injective (n : ℕ) : Function.Injective (shiftChain K n) :=
  Finsupp.mapDomain_injective (map_add_injective n)

theorem shiftChain_single (n : ℕ) (s : List ℕ) (c : K) :
    shiftChain K n (Finsupp.single s c) = Finsupp.single (s.map (n + ·)) c := by
  unfold shiftChain
  rw [Finsupp.lmapDomain_apply, Finsupp.mapDomain_single]

theorem shiftChain_bdry (n : ℕ) (x : List ℕ →₀ K) :
    simplicialBdry K (shiftChain K n x) = shiftChain K n (simplicialBdry K x) := by
  have h : (simplicialBdry K).comp (shiftChain K n) = (shiftChain K n).comp (simplicialBdry K) := by
    refine Finsupp.lhom_ext fun s c => ?_
    rw [LinearMap.comp_apply, LinearMap.comp_apply, shiftChain_single]
    unfold simplicialBdry
    rw [Finsupp.linearCombination_single, Finsupp.linearCombination_single, map_smul]
    congr 1
    unfold faceSum
    rw [List.length_map]
    split_ifs
    · rw [map_zero]
    · rw [map_sum]
      refine Finset.sum_congr rfl fun k _ => ?_
      rw [map_smul, shiftChain_single, List.eraseIdx_map]
  exact LinearMap.congr_fun h x

end

variable {α : Type} [LinearOrder α] {p : ℕ}

/-- The ranks of a cloud in two parts which are further apart than the radius. -/
theorem rank_parts (hp : p.Prime) {dist dist1 dist2 : ℕ → ℕ → α} {n m : ℕ}
    (h1 : ∀ u < n, ∀ v < u, dist1 u v = dist u v) (h2 : ∀ u < m, ∀ v < u, dist2 u v = dist (n + u) (n + v))
    (e : ℕ) {s t : α} (hst : s ≤ t) (hfar : ∀ u < n, ∀ v < m, t < dist (n + v) u) :
    Module.finrank (ZMod p) (LinearMap.range (vrMap (ZMod p) dist (n + m) e hst)) =
      Module.finrank (ZMod p) (LinearMap.range (vrMap (ZMod p) dist1 n e hst)) +
      Module.finrank (ZMod p) (LinearMap.range (vrMap (ZMod p) dist2 m e hst)) := by
  have := Fact.mk hp
  have hset : ∀ e, ∀ r ≤ t, {x | VRSimplex dist (n + m) e r x} =
      {x | VRSimplex dist1 n e r x} ∪ List.map (n + ·) '' {x | VRSimplex dist2 m e r x} := by
    intro e r hr
    ext x
    constructor
    · rintro ⟨a1, a2, a3⟩
      have hinc : x.Pairwise (· < ·) := a3.imp fun h => h.1
      by_cases hx : ∀ v ∈ x, v < n
      · refine Or.inl ⟨a1, hx, (pairwise_iff_forall_lt hinc).2 fun u hu v hv huv => ⟨huv, ?_⟩⟩
        rw [h1 v (hx v hv) u huv]
        exact ((pairwise_iff_forall_lt hinc).1 a3 u hu v hv huv).2
      · right
        push Not at hx
        obtain ⟨w, hw, hnw⟩ := hx
        have hx : ∀ v ∈ x, n ≤ v := by
          intro v hv
          by_contra hlt
          push Not at hlt
          have := ((pairwise_iff_forall_lt hinc).1 a3 v hv w hw (by omega)).2
          have hf := hfar v hlt (w - n) (by have := a2 w hw; omega)
          rw [Nat.add_sub_cancel' hnw] at hf
          exact absurd (this.trans hr) (not_le.2 hf)
        have hback : (x.map (· - n)).map (n + ·) = x := by
          rw [List.map_map]
          conv_rhs => rw [← List.map_id x]
          exact List.map_congr_left fun v hv => by
            have := hx v hv
            simp only [Function.comp_apply, id_eq]
            omega
        refine ⟨x.map (· - n), ⟨by simpa using a1, ?_, ?_⟩, hback⟩
        · intro v hv
          obtain ⟨w, hw, rfl⟩ := List.mem_map.1 hv
          have := a2 w hw
          have := hx w hw
          omega
        · rw [List.pairwise_map]
          refine (pairwise_iff_forall_lt hinc).2 fun u hu v hv huv => ?_
          have := hx u hu
          have := hx v hv
          have := a2 v hv
          refine ⟨by omega, ?_⟩
          rw [h2 _ (by omega) _ (by omega), Nat.add_sub_cancel' (hx u hu), Nat.add_sub_cancel' (hx v hv)]
          exact ((pairwise_iff_forall_lt hinc).1 a3 u hu v hv huv).2
    · rintro (⟨a1, a2, a3⟩ | ⟨y, ⟨a1, a2, a3⟩, rfl⟩)
      · have hinc : x.Pairwise (· < ·) := a3.imp fun h => h.1
        refine ⟨a1, fun v hv => by have := a2 v hv; omega,
          (pairwise_iff_forall_lt hinc).2 fun u hu v hv huv => ⟨huv, ?_⟩⟩
        rw [← h1 v (a2 v hv) u huv]
        exact ((pairwise_iff_forall_lt hinc).1 a3 u hu v hv huv).2
      · have hinc : y.Pairwise (· < ·) := a3.imp fun h => h.1
        refine ⟨by simpa using a1, ?_, ?_⟩
        · intro v hv
          obtain ⟨w, hw, rfl⟩ := List.mem_map.1 hv
          have := a2 w hw
          omega
        · rw [List.pairwise_map]
          refine (pairwise_iff_forall_lt hinc).2 fun u hu v hv huv => ⟨by omega, ?_⟩
          rw [← h2 v (a2 v hv) u huv]
          exact ((pairwise_iff_forall_lt hinc).1 a3 u hu v hv huv).2
  have hch : ∀ e, ∀ r ≤ t, vrChains (ZMod p) dist (n + m) e r =
      vrChains (ZMod p) dist1 n e r ⊔ (vrChains (ZMod p) dist2 m e r).map (shiftChain (ZMod p) n) := by
    intro e r hr
    unfold vrChains shiftChain
    rw [hset e r hr, Finsupp.supported_union, Finsupp.lmapDomain_supported]
  have hP : ∀ e r, vrChains (ZMod p) dist1 n e r ≤ partChains (ZMod p) (· < n) := fun e r =>
    Finsupp.supported_mono fun x hx => ⟨fun h0 => by have := hx.1; rw [h0] at this; simp at this, hx.2.1⟩
  have hQ : ∀ e r, (vrChains (ZMod p) dist2 m e r).map (shiftChain (ZMod p) n) ≤ partChains (ZMod p) (n ≤ ·) := by
    intro e r
    unfold vrChains shiftChain
    rw [Finsupp.lmapDomain_supported]
    refine Finsupp.supported_mono ?_
    rintro _ ⟨x, hx, rfl⟩
    refine ⟨fun h0 => ?_, fun v hv => ?_⟩
    · have h0 := List.map_eq_nil_iff.1 h0
      have := hx.1; rw [h0] at this; simp at this
    · obtain ⟨w, -, rfl⟩ := List.mem_map.1 hv
      exact Nat.le_add_right _ _
  have hdis : Disjoint (partChains (ZMod p) (· < n)) (partChains (ZMod p) (n ≤ ·)) :=
    partChains_disjoint fun v h => not_le.2 h
  have hcyc : vrCycles (ZMod p) dist (n + m) e s =
      vrCycles (ZMod p) dist1 n e s ⊔ (vrCycles (ZMod p) dist2 m e s).map (shiftChain (ZMod p) n) := by
    apply le_antisymm
    · rintro x ⟨hx, hx0⟩
      have hx0 : simplicialBdry (ZMod p) x = 0 := hx0
      have hx : x ∈ vrChains (ZMod p) dist (n + m) e s := hx
      rw [hch e s hst] at hx
      obtain ⟨y, hy, _, ⟨z, hz, rfl⟩, rfl⟩ := Submodule.mem_sup.1 hx
      rw [map_add] at hx0
      have e0 : simplicialBdry (ZMod p) y = - simplicialBdry (ZMod p) (shiftChain (ZMod p) n z) :=
        eq_neg_of_add_eq_zero_left hx0
      have y0 : simplicialBdry (ZMod p) y = 0 := (Submodule.disjoint_def.1 hdis) _
        (simplicialBdry_part (hP e s hy))
        (e0 ▸ Submodule.neg_mem _ (simplicialBdry_part (hQ e s ⟨z, hz, rfl⟩)))
      rw [y0, zero_add, shiftChain_bdry] at hx0
      have z0 : simplicialBdry (ZMod p) z = 0 := shiftChain_injective n (by rw [hx0, map_zero])
      exact Submodule.add_mem_sup ⟨hy, y0⟩ ⟨z, ⟨hz, z0⟩, rfl⟩
    · refine sup_le ?_ ?_
      · rintro x ⟨hx, hx0⟩
        refine ⟨?_, hx0⟩
        change x ∈ vrChains (ZMod p) dist (n + m) e s
        rw [hch e s hst]
        exact Submodule.mem_sup_left hx
      · rintro _ ⟨x, ⟨hx, hx0⟩, rfl⟩
        have hx0 : simplicialBdry (ZMod p) x = 0 := hx0
        refine ⟨?_, ?_⟩
        · change shiftChain (ZMod p) n x ∈ vrChains (ZMod p) dist (n + m) e s
          rw [hch e s hst]
          exact Submodule.mem_sup_right ⟨x, hx, rfl⟩
        · change simplicialBdry (ZMod p) (shiftChain (ZMod p) n x) = 0
          rw [shiftChain_bdry, hx0, map_zero]
  have hshift : ∀ C : Submodule (ZMod p) (List ℕ →₀ ZMod p),
      (C.map (shiftChain (ZMod p) n)).map (simplicialBdry (ZMod p)) =
        (C.map (simplicialBdry (ZMod p))).map (shiftChain (ZMod p) n) := by
    intro C
    rw [← Submodule.map_comp, ← Submodule.map_comp]
    congr 1
    exact LinearMap.ext (shiftChain_bdry n)
  have hbd : vrBoundaries (ZMod p) dist (n + m) e t =
      vrBoundaries (ZMod p) dist1 n e t ⊔ (vrBoundaries (ZMod p) dist2 m e t).map (shiftChain (ZMod p) n) := by
    unfold vrBoundaries
    rw [hch (e + 1) t le_rfl, Submodule.map_sup, hshift]
  have f1 := vrCycles_finite (ZMod p) dist1 n e s
  have f2 := vrCycles_finite (ZMod p) dist2 m e s
  have g1 : vrCycles (ZMod p) dist1 n e s ≤ partChains (ZMod p) (· < n) := inf_le_left.trans (hP e s)
  have g2 : (vrCycles (ZMod p) dist2 m e s).map (shiftChain (ZMod p) n) ≤ partChains (ZMod p) (n ≤ ·) :=
    (Submodule.map_mono inf_le_left).trans (hQ e s)
  have g3 : vrBoundaries (ZMod p) dist1 n e t ≤ partChains (ZMod p) (· < n) := by
    rintro _ ⟨x, hx, rfl⟩
    exact simplicialBdry_part (hP _ t hx)
  have g4 : (vrBoundaries (ZMod p) dist2 m e t).map (shiftChain (ZMod p) n) ≤ partChains (ZMod p) (n ≤ ·) := by
    unfold vrBoundaries
    rw [← hshift]
    rintro _ ⟨x, hx, rfl⟩
    exact simplicialBdry_part (hQ _ t hx)
  rw [finrank_vrMap hp, finrank_vrMap hp, finrank_vrMap hp, hcyc, hbd, finrank_mkQ_sup hdis g1 g2 g3 g4,
    finrank_mkQ_injective (shiftChain_injective n)]

end

end Permaviss
