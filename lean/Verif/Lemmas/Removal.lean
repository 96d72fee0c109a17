import Verif.Lemmas.Clique
import Verif.Lemmas.LocalRanks
import Verif.Lemmas.Diam

/-!
# Removing the last point

If the neighbours of the last vertex of a graph span a complex without homology, the complex of the cliques has
the same homology without that vertex.
-/

namespace Permaviss

open Finset

attribute [-instance] instMulZeroClassOfSemiring

section

variable {K : Type} [CommRing K] {adj : ℕ → ℕ → Prop}

theorem augBdry_augBdry (x : List ℕ →₀ K) : augBdry K (augBdry K x) = 0 := by
  have : (augBdry K).comp (augBdry K) = 0 := by
    refine Finsupp.lhom_ext' fun s => LinearMap.ext_ring ?_
    change augBdry K (augBdry K (Finsupp.single s 1)) = 0
    induction s with
    | nil => rw [augBdry_single]; simp [augSum]
    | cons v s ih =>
      rw [← joinV_single, augBdry_joinV, map_sub, augBdry_joinV, ih, map_zero, sub_zero, sub_self]
  exact LinearMap.congr_fun this x

/-- `v` put at the end of every simplex. -/
noncomputable def joinR (K : Type) [CommRing K] (v : ℕ) : (List ℕ →₀ K) →ₗ[K] (List ℕ →₀ K) :=
  Finsupp.lmapDomain K K (· ++ [v])

theorem joinR_single (v : ℕ) (s : List ℕ) (c : K) :
    joinR K v (Finsupp.single s c) = Finsupp.single (s ++ [v]) c :=
  Finsupp.mapDomain_single

theorem joinR_injective (v : ℕ) : Function.Injective (joinR K v) :=
  Finsupp.mapDomain_injective (List.append_left_injective [v])

theorem augBdry_joinR (v : ℕ) {V : Finset ℕ} {m : ℕ} {x : List ℕ →₀ K} (hx : x ∈ cliqueChains K adj V m) :
    augBdry K (joinR K v x) = joinR K v (augBdry K x) + (-1 : K) ^ m • x := by
  have : cliqueChains K adj V m ≤ LinearMap.eqLocus ((augBdry K).comp (joinR K v))
      ((joinR K v).comp (augBdry K) + (-1 : K) ^ m • LinearMap.id) := by
    refine supported_induct fun s hs => ?_
    change augBdry K (joinR K v (Finsupp.single s 1)) =
      joinR K v (augBdry K (Finsupp.single s 1)) + (-1 : K) ^ m • Finsupp.single s 1
    rw [joinR_single, augBdry_single, augBdry_single]
    unfold augSum
    rw [List.length_append, List.length_singleton, Finset.sum_range_succ, map_sum]
    congr 1
    · refine Finset.sum_congr rfl fun k hk => ?_
      rw [map_smul, joinR_single, List.eraseIdx_append_of_lt_length (Finset.mem_range.1 hk)]
    · rw [List.eraseIdx_append_of_length_le le_rfl, hs.1]
      simp
  exact this hx

theorem joinR_meets (v : ℕ) (x : List ℕ →₀ K) : joinR K v x ∈ Finsupp.supported K K {s : List ℕ | v ∈ s} := by
  have : (⊤ : Submodule K (List ℕ →₀ K)) ≤ (Finsupp.supported K K {s : List ℕ | v ∈ s}).comap (joinR K v) := by
    rw [← Finsupp.supported_univ]
    refine supported_induct fun s _ => ?_
    rw [Submodule.mem_comap, joinR_single]
    exact Finsupp.single_mem_supported K _ (by simp)
  exact this Submodule.mem_top

theorem joinR_mem [DecidableRel adj] {V : Finset ℕ} {v : ℕ} (hv : v ∈ V) (hmax : ∀ u ∈ V, u ≤ v) {m : ℕ}
    {x : List ℕ →₀ K} (hx : x ∈ cliqueChains K adj ((V.erase v).filter fun u => adj u v) m) :
    joinR K v x ∈ cliqueChains K adj V (m + 1) := by
  have : cliqueChains K adj ((V.erase v).filter fun u => adj u v) m ≤
      (cliqueChains K adj V (m + 1)).comap (joinR K v) := by
    refine supported_induct fun s hs => ?_
    rw [Submodule.mem_comap, joinR_single]
    refine Finsupp.single_mem_supported K _ ⟨by rw [List.length_append, hs.1]; rfl, ?_, ?_⟩
    · intro u hu
      rcases List.mem_append.1 hu with hu | hu
      · exact Finset.mem_of_mem_erase (Finset.mem_filter.1 (hs.2.1 u hu)).1
      · rw [List.mem_singleton.1 hu]; exact hv
    · refine List.pairwise_append.2 ⟨hs.2.2, List.pairwise_singleton _ _, fun u hu w hw => ?_⟩
      rw [List.mem_singleton.1 hw]
      obtain ⟨h1, h2⟩ := Finset.mem_filter.1 (hs.2.1 u hu)
      obtain ⟨h3, h4⟩ := Finset.mem_erase.1 h1
      exact ⟨lt_of_le_of_ne (hmax u h4) h3, h2⟩
  exact this hx

/-- A chain is split into the simplices with the largest vertex and the others. -/
theorem clique_split_last [DecidableRel adj] {V : Finset ℕ} {v : ℕ} (hmax : ∀ u ∈ V, u ≤ v) {m : ℕ}
    {z : List ℕ →₀ K} (hz : z ∈ cliqueChains K adj V (m + 1)) :
    ∃ y ∈ cliqueChains K adj ((V.erase v).filter fun u => adj u v) m,
      ∃ w ∈ cliqueChains K adj (V.erase v) (m + 1), joinR K v y + w = z := by
  have : cliqueChains K adj V (m + 1) ≤
      (cliqueChains K adj ((V.erase v).filter fun u => adj u v) m).map (joinR K v) ⊔
        cliqueChains K adj (V.erase v) (m + 1) := by
    refine supported_induct fun s hs => ?_
    obtain ⟨h1, h2, h3⟩ := hs
    have hne : s ≠ [] := by rintro rfl; simp at h1
    obtain ⟨s, a, rfl⟩ : ∃ s' a, s = s' ++ [a] := ⟨_, _, (List.dropLast_append_getLast hne).symm⟩
    obtain ⟨h4, -, h5⟩ := List.pairwise_append.1 h3
    have h5' : ∀ u ∈ s, u < a ∧ adj u a := fun u hu => h5 u hu a (by simp)
    have hlt : ∀ u ∈ s, u < v := fun u hu => (h5' u hu).1.trans_le (hmax a (h2 a (by simp)))
    by_cases hav : a = v
    · subst hav
      refine Submodule.mem_sup_left ⟨Finsupp.single s 1, Finsupp.single_mem_supported K _ ⟨?_, ?_, h4⟩, ?_⟩
      · rw [List.length_append, List.length_singleton] at h1; omega
      · intro u hu
        exact Finset.mem_filter.2 ⟨Finset.mem_erase.2 ⟨(h5' u hu).1.ne, h2 u (by simp [hu])⟩, (h5' u hu).2⟩
      · exact joinR_single _ _ _
    · refine Submodule.mem_sup_right (Finsupp.single_mem_supported K _ ⟨h1, ?_, h3⟩)
      intro u hu
      refine Finset.mem_erase.2 ⟨?_, h2 u hu⟩
      rcases List.mem_append.1 hu with hu | hu
      · exact (hlt u hu).ne
      · rw [List.mem_singleton.1 hu]; exact hav
  obtain ⟨_, ⟨y, hy, rfl⟩, w, hw, e⟩ := Submodule.mem_sup.1 (this hz)
  exact ⟨y, hy, w, hw, e⟩

theorem sign_sq (m : ℕ) : (-1 : K) ^ m * (-1 : K) ^ m = 1 := by
  rw [← mul_pow, neg_one_mul, neg_neg, one_pow]

theorem split_last_cycle [DecidableRel adj] {V : Finset ℕ} {v : ℕ} {m : ℕ} {y w : List ℕ →₀ K}
    (hy : y ∈ cliqueChains K adj ((V.erase v).filter fun u => adj u v) m)
    (hw : w ∈ cliqueChains K adj (V.erase v) (m + 1))
    (ha : augBdry K (joinR K v y + w) ∈ Finsupp.supported K K {s : List ℕ | v ∉ s}) : augBdry K y = 0 := by
  have hvV : v ∉ V.erase v := Finset.notMem_erase v V
  have hy' := cliqueChains_avoid (fun hc => hvV (Finset.filter_subset _ _ hc)) hy
  have hw' := augBdry_avoid v (cliqueChains_avoid hvV hw)
  rw [map_add, augBdry_joinR v hy] at ha
  refine joinR_injective v ?_
  rw [map_zero]
  refine disjoint_avoid (v := v) ?_ (joinR_meets _ _)
  have e : joinR K v (augBdry K y) = joinR K v (augBdry K y) + (-1 : K) ^ m • y + augBdry K w -
      (-1 : K) ^ m • y - augBdry K w := by abel
  rw [e]
  exact Submodule.sub_mem _ (Submodule.sub_mem _ ha (Submodule.smul_mem _ _ hy')) hw'

/-- Every chain whose boundary avoids the last vertex is homologous to one that avoids it. -/
theorem removal_surj [DecidableRel adj] {V : Finset ℕ} {v : ℕ} (hv : v ∈ V) (hmax : ∀ u ∈ V, u ≤ v) {m : ℕ}
    (hL : AcycAt K adj ((V.erase v).filter fun u => adj u v) m) {z : List ℕ →₀ K}
    (hz : z ∈ cliqueChains K adj V (m + 1))
    (hd : augBdry K z ∈ Finsupp.supported K K {s : List ℕ | v ∉ s}) :
    ∃ z' ∈ cliqueChains K adj (V.erase v) (m + 1), ∃ u ∈ cliqueChains K adj V (m + 2), z = z' + augBdry K u := by
  obtain ⟨y, hy, w, hw, rfl⟩ := clique_split_last hmax hz
  obtain ⟨u1, hu1, e1⟩ := hL y hy (split_last_cycle hy hw hd)
  refine ⟨w - (-1 : K) ^ (m + 1) • u1, Submodule.sub_mem _ hw (Submodule.smul_mem _ _
    (cliqueChains_mono (Finset.filter_subset _ _) _ hu1)), joinR K v u1, joinR_mem hv hmax hu1, ?_⟩
  rw [augBdry_joinR v hu1, e1]
  abel

/-- A boundary that avoids the last vertex is the boundary of a chain that avoids it. -/
theorem removal_inj [DecidableRel adj] {V : Finset ℕ} {v : ℕ} (hmax : ∀ u ∈ V, u ≤ v) {m : ℕ}
    (hL : AcycAt K adj ((V.erase v).filter fun u => adj u v) m) {c : List ℕ →₀ K}
    (hc : c ∈ cliqueChains K adj V (m + 1))
    (hd : augBdry K c ∈ Finsupp.supported K K {s : List ℕ | v ∉ s}) :
    ∃ c' ∈ cliqueChains K adj (V.erase v) (m + 1), augBdry K c' = augBdry K c := by
  obtain ⟨y, hy, w, hw, rfl⟩ := clique_split_last hmax hc
  have hdy := split_last_cycle hy hw hd
  obtain ⟨u1, hu1, e1⟩ := hL y hy hdy
  refine ⟨w + (-1 : K) ^ m • u1, Submodule.add_mem _ hw (Submodule.smul_mem _ _
    (cliqueChains_mono (Finset.filter_subset _ _) _ hu1)), ?_⟩
  rw [map_add, map_add, map_smul, augBdry_joinR v hy, e1, hdy, map_zero]
  abel

end

section

variable {α : Type} [LinearOrder α] {p : ℕ}

/-- The last two of `n + 2` points are at distance zero and have the same distances to the others: the last one
may be removed. -/
theorem rank_twin [Zero α] (hp : p.Prime) {dist dist' : ℕ → ℕ → α} {n : ℕ}
    (hag : ∀ u < n + 1, ∀ v < u, dist' u v = dist u v) (htw : ∀ u < n, dist (n + 1) u = dist n u)
    (h0 : dist (n + 1) n ≤ 0) (e : ℕ) {s t : α} (hs : 0 ≤ s) (hst : s ≤ t) :
    Module.finrank (ZMod p) (LinearMap.range (vrMap (ZMod p) dist (n + 2) e hst)) =
      Module.finrank (ZMod p) (LinearMap.range (vrMap (ZMod p) dist' (n + 1) e hst)) := by
  have := Fact.mk hp
  rw [finrank_vrMap hp, finrank_vrMap hp]
  have her : (range (n + 2)).erase (n + 1) = range (n + 1) := by
    ext u; simp only [Finset.mem_erase, Finset.mem_range]; omega
  have hch : ∀ e r, vrChains (ZMod p) dist' (n + 1) e r =
      cliqueChains (ZMod p) (fun u v => dist v u ≤ r) ((range (n + 2)).erase (n + 1)) (e + 1) := by
    intro e r
    rw [her]
    unfold vrChains cliqueChains
    congr 1
    ext x
    simp only [VRSimplex, CliqueOn, Set.mem_setOf_eq, Finset.mem_range]
    refine and_congr_right fun _ => and_congr_right fun hx => ?_
    constructor
    · intro h
      have hinc : x.Pairwise (· < ·) := h.imp fun h => h.1
      refine (pairwise_iff_forall_lt hinc).2 fun u hu v hv huv => ⟨huv, ?_⟩
      rw [← hag v (hx v hv) u huv]
      exact ((pairwise_iff_forall_lt hinc).1 h u hu v hv huv).2
    · intro h
      have hinc : x.Pairwise (· < ·) := h.imp fun h => h.1
      refine (pairwise_iff_forall_lt hinc).2 fun u hu v hv huv => ⟨huv, ?_⟩
      rw [hag v (hx v hv) u huv]
      exact ((pairwise_iff_forall_lt hinc).1 h u hu v hv huv).2
  have hv : n + 1 ∈ range (n + 2) := by simp
  have hmax : ∀ u ∈ range (n + 2), u ≤ n + 1 := fun u hu => by
    have := Finset.mem_range.1 hu; omega
  have hL : ∀ r, 0 ≤ r → ∀ m, AcycAt (ZMod p) (fun u v => dist v u ≤ r)
      (((range (n + 2)).erase (n + 1)).filter fun u => dist (n + 1) u ≤ r) m := by
    intro r hr m
    rw [her]
    refine AcycAt.cone _ _ le_rfl (w := n) (Finset.mem_filter.2 ⟨by simp, h0.trans hr⟩) ?_ ?_ m
    · intro u hu hlt
      rw [← htw u hlt]
      exact (Finset.mem_filter.1 hu).2
    · intro u hu hlt
      have := Finset.mem_range.1 (Finset.mem_filter.1 hu).1
      omega
  have hav : ∀ {m r} {x : List ℕ →₀ ZMod p}, x ∈ cliqueChains (ZMod p) (fun u v => dist v u ≤ r)
      ((range (n + 2)).erase (n + 1)) m → x ∈ Finsupp.supported (ZMod p) (ZMod p) {s : List ℕ | n + 1 ∉ s} :=
    fun hx => cliqueChains_avoid (Finset.notMem_erase _ _) hx
  have hle : ∀ e r, vrChains (ZMod p) dist' (n + 1) e r ≤ vrChains (ZMod p) dist (n + 2) e r := by
    intro e r
    rw [hch, vrChains_clique]
    exact cliqueChains_mono (Finset.erase_subset _ _) _
  -- the cycles of the larger cloud, up to boundaries
  have h1 : (vrCycles (ZMod p) dist (n + 2) e s).map (vrBoundaries (ZMod p) dist (n + 2) e t).mkQ =
      (vrCycles (ZMod p) dist' (n + 1) e s).map (vrBoundaries (ZMod p) dist (n + 2) e t).mkQ := by
    refine le_antisymm ?_ (Submodule.map_mono (inf_le_inf_right _ (hle e s)))
    rintro _ ⟨z, ⟨hz, hdz⟩, rfl⟩
    have hz : z ∈ vrChains (ZMod p) dist (n + 2) e s := hz
    have hdz : simplicialBdry (ZMod p) z = 0 := hdz
    have hz2 := hz
    rw [vrChains_clique] at hz2
    have hd : augBdry (ZMod p) z ∈ Finsupp.supported (ZMod p) (ZMod p) {s : List ℕ | n + 1 ∉ s} := by
      cases e with
      | zero =>
        have : cliqueChains (ZMod p) (fun u v => dist v u ≤ s) (range (n + 2)) 1 ≤
            (Finsupp.supported (ZMod p) (ZMod p) {s : List ℕ | n + 1 ∉ s}).comap (augBdry (ZMod p)) := by
          refine supported_induct fun x hx => ?_
          rw [Submodule.mem_comap, augBdry_single]
          obtain ⟨a, rfl⟩ := List.length_eq_one_iff.1 hx.1
          refine Submodule.sum_mem _ fun k hk => Submodule.smul_mem _ _ (Finsupp.single_mem_supported _ _ ?_)
          have : k = 0 := by simpa using hk
          subst this
          simp
        exact this hz2
      | succ e =>
        rw [← simplicialBdry_eq_augBdry hz, hdz]
        exact Submodule.zero_mem _
    obtain ⟨z', hz', u, hu, rfl⟩ := removal_surj hv hmax (hL s hs e) hz2 hd
    have hu' : u ∈ vrChains (ZMod p) dist (n + 2) (e + 1) s := by rw [vrChains_clique]; exact hu
    refine ⟨z', ⟨by rw [← hch] at hz'; exact hz', ?_⟩, ?_⟩
    · have hz1 : z' ∈ vrChains (ZMod p) dist' (n + 1) e s := by rw [hch]; exact hz'
      cases e with
      | zero =>
        have := vrCycles_zero p dist' (n + 1) s
        rw [← this] at hz1
        exact hz1.2
      | succ e =>
        change simplicialBdry (ZMod p) z' = 0
        rw [simplicialBdry_eq_augBdry hz, map_add, augBdry_augBdry, add_zero] at hdz
        rw [simplicialBdry_eq_augBdry hz1, hdz]
    · rw [← simplicialBdry_eq_augBdry hu', map_add, left_eq_add, Submodule.mkQ_apply, Submodule.Quotient.mk_eq_zero]
      exact vrBoundaries_mono (ZMod p) dist (n + 2) e hst ⟨u, hu', rfl⟩
  rw [h1]
  refine finrank_map_eq _ _ _ fun x hx => ?_
  rw [Submodule.mkQ_apply, Submodule.mkQ_apply, Submodule.Quotient.mk_eq_zero, Submodule.Quotient.mk_eq_zero]
  constructor
  · rintro ⟨c, hc, rfl⟩
    have hc : c ∈ vrChains (ZMod p) dist (n + 2) (e + 1) t := hc
    have hc2 := hc
    rw [vrChains_clique] at hc2
    have hx1 : simplicialBdry (ZMod p) c ∈ vrChains (ZMod p) dist' (n + 1) e s := hx.1
    rw [hch] at hx1
    have hx2 := hav hx1
    rw [simplicialBdry_eq_augBdry hc] at hx2 ⊢
    obtain ⟨c', hc', e'⟩ := removal_inj hmax (hL t (hs.trans hst) (e + 1)) hc2 hx2
    have hc'' : c' ∈ vrChains (ZMod p) dist' (n + 1) (e + 1) t := by rw [hch]; exact hc'
    exact ⟨c', hc'', by rw [simplicialBdry_eq_augBdry hc'']; exact e'⟩
  · rintro ⟨c, hc, rfl⟩
    exact ⟨c, hle _ _ hc, rfl⟩

end

end Permaviss
