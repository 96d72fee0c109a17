import Verif.Spec.VRHomology
import Mathlib.Data.Finset.Max
import Mathlib.Tactic.Abel
import Mathlib.LinearAlgebra.Dimension.Finite

/-!
# Flag complexes without homology

The complex of the cliques of a graph has no homology in degree `e ≥ 1` if the graph has at most `2 e + 1`
vertices, if a vertex is joined to all the others, or if the larger neighbours of every vertex are joined to
each other.
-/

namespace Permaviss

open Finset

attribute [-instance] instMulZeroClassOfSemiring

section

variable {K : Type} [CommRing K] {adj : ℕ → ℕ → Prop}

/-- The boundary of a list of vertices, with the empty list as boundary of a vertex. -/
noncomputable def augSum (K : Type) [CommRing K] (s : List ℕ) : List ℕ →₀ K :=
  ∑ k ∈ range s.length, (-1 : K) ^ k • Finsupp.single (s.eraseIdx k) 1

noncomputable def augBdry (K : Type) [CommRing K] : (List ℕ →₀ K) →ₗ[K] (List ℕ →₀ K) :=
  Finsupp.linearCombination K (augSum K)

/-- `v` put in front of every simplex. -/
noncomputable def joinV (K : Type) [CommRing K] (v : ℕ) : (List ℕ →₀ K) →ₗ[K] (List ℕ →₀ K) :=
  Finsupp.lmapDomain K K (v :: ·)

theorem joinV_single (v : ℕ) (s : List ℕ) (c : K) : joinV K v (Finsupp.single s c) = Finsupp.single (v :: s) c :=
  Finsupp.mapDomain_single

theorem augBdry_single (s : List ℕ) : augBdry K (Finsupp.single s 1) = augSum K s := by
  simp [augBdry, Finsupp.linearCombination_single]

theorem augBdry_joinV (v : ℕ) (x : List ℕ →₀ K) : augBdry K (joinV K v x) = x - joinV K v (augBdry K x) := by
  have : (augBdry K).comp (joinV K v) = LinearMap.id - (joinV K v).comp (augBdry K) := by
    refine Finsupp.lhom_ext' fun s => LinearMap.ext_ring ?_
    simp only [LinearMap.comp_apply, Finsupp.lsingle_apply, LinearMap.sub_apply, LinearMap.id_apply]
    rw [joinV_single, augBdry_single, augBdry_single]
    unfold augSum
    rw [List.length_cons, Finset.sum_range_succ', map_sum, sub_eq_add_neg, ← Finset.sum_neg_distrib, add_comm]
    congr 1
    · simp
    · refine Finset.sum_congr rfl fun k _ => ?_
      rw [map_smul, joinV_single, List.eraseIdx_cons_succ, pow_succ, mul_neg, mul_one, neg_smul]
  exact LinearMap.congr_fun this x

/-- Cliques with `m` vertices from `V`. -/
def CliqueOn (adj : ℕ → ℕ → Prop) (V : Finset ℕ) (m : ℕ) (s : List ℕ) : Prop :=
  s.length = m ∧ (∀ v ∈ s, v ∈ V) ∧ s.Pairwise fun u v => u < v ∧ adj u v

def cliqueChains (K : Type) [CommRing K] (adj : ℕ → ℕ → Prop) (V : Finset ℕ) (m : ℕ) :
    Submodule K (List ℕ →₀ K) :=
  Finsupp.supported K K {s | CliqueOn adj V m s}

theorem supported_induct {A : Set (List ℕ)} {N : Submodule K (List ℕ →₀ K)}
    (h : ∀ s ∈ A, Finsupp.single s (1 : K) ∈ N) : Finsupp.supported K K A ≤ N := by
  rw [Finsupp.supported_eq_span_single, Submodule.span_le]
  rintro _ ⟨s, hs, rfl⟩
  exact h s hs

theorem cliqueChains_mono {V W : Finset ℕ} (h : V ⊆ W) (m : ℕ) : cliqueChains K adj V m ≤ cliqueChains K adj W m :=
  Finsupp.supported_mono fun _ hs => ⟨hs.1, fun v hv => h (hs.2.1 v hv), hs.2.2⟩

theorem augBdry_avoid (v : ℕ) {x : List ℕ →₀ K} (h : x ∈ Finsupp.supported K K {s : List ℕ | v ∉ s}) :
    augBdry K x ∈ Finsupp.supported K K {s : List ℕ | v ∉ s} := by
  have : Finsupp.supported K K {s : List ℕ | v ∉ s} ≤
      (Finsupp.supported K K {s : List ℕ | v ∉ s}).comap (augBdry K) := by
    refine supported_induct fun s hs => ?_
    rw [Submodule.mem_comap, augBdry_single]
    refine Submodule.sum_mem _ fun k _ => Submodule.smul_mem _ _ (Finsupp.single_mem_supported K _ ?_)
    exact fun hc => hs ((List.eraseIdx_sublist _ _).subset hc)
  exact this h

theorem joinV_mem [DecidableRel adj] {V : Finset ℕ} {v : ℕ} (hv : v ∈ V) (hmin : ∀ u ∈ V, v ≤ u) {m : ℕ} {x : List ℕ →₀ K}
    (hx : x ∈ cliqueChains K adj ((V.erase v).filter fun u => adj v u) m) : joinV K v x ∈ cliqueChains K adj V (m + 1) := by

  have : cliqueChains K adj ((V.erase v).filter fun u => adj v u) m ≤
      (cliqueChains K adj V (m + 1)).comap (joinV K v) := by
    refine supported_induct fun s hs => ?_
    rw [Submodule.mem_comap, joinV_single]
    refine Finsupp.single_mem_supported K _ ⟨by rw [List.length_cons, hs.1], ?_, ?_⟩
    · intro u hu
      rcases List.mem_cons.1 hu with rfl | hu
      · exact hv
      · exact Finset.mem_of_mem_erase (Finset.mem_filter.1 (hs.2.1 u hu)).1
    · refine List.pairwise_cons.2 ⟨fun u hu => ?_, hs.2.2⟩
      obtain ⟨h1, h2⟩ := Finset.mem_filter.1 (hs.2.1 u hu)
      obtain ⟨h3, h4⟩ := Finset.mem_erase.1 h1
      exact ⟨lt_of_le_of_ne (hmin u h4) (Ne.symm h3), h2⟩
  exact this hx

/-- A chain is split into the simplices with the smallest vertex and the others. -/
theorem clique_split [DecidableRel adj] {V : Finset ℕ} {v : ℕ} (hmin : ∀ u ∈ V, v ≤ u) {m : ℕ} {z : List ℕ →₀ K}
    (hz : z ∈ cliqueChains K adj V (m + 1)) :
    ∃ y ∈ cliqueChains K adj ((V.erase v).filter fun u => adj v u) m,
      ∃ w ∈ cliqueChains K adj (V.erase v) (m + 1), joinV K v y + w = z := by
  have : cliqueChains K adj V (m + 1) ≤
      (cliqueChains K adj ((V.erase v).filter fun u => adj v u) m).map (joinV K v) ⊔
        cliqueChains K adj (V.erase v) (m + 1) := by
    refine supported_induct fun s hs => ?_
    obtain ⟨h1, h2, h3⟩ := hs
    match s, h1 with
    | a :: s, h1 =>
      obtain ⟨h4, h5⟩ := List.pairwise_cons.1 h3
      have hge : ∀ u ∈ s, u ≠ v := fun u hu hc => by
        have := (h4 u hu).1
        have := hmin a (h2 a (by simp))
        omega
      by_cases ha : a = v
      · subst ha
        refine Submodule.mem_sup_left ⟨Finsupp.single s 1, ?_, joinV_single _ _ _⟩
        refine Finsupp.single_mem_supported K _ ⟨by simpa using h1, fun u hu => ?_, h5⟩
        exact Finset.mem_filter.2 ⟨Finset.mem_erase.2 ⟨hge u hu, h2 u (by simp [hu])⟩, (h4 u hu).2⟩
      · refine Submodule.mem_sup_right (Finsupp.single_mem_supported K _ ⟨h1, fun u hu => ?_, h3⟩)
        refine Finset.mem_erase.2 ⟨?_, h2 u hu⟩
        rcases List.mem_cons.1 hu with rfl | hu
        · exact ha
        · exact hge u hu
  obtain ⟨a, ⟨y, hy, rfl⟩, w, hw, e⟩ := Submodule.mem_sup.1 (this hz)
  exact ⟨y, hy, w, hw, e⟩

theorem cliqueChains_avoid {V : Finset ℕ} {v m : ℕ} (hv : v ∉ V) :
    cliqueChains K adj V m ≤ Finsupp.supported K K {s : List ℕ | v ∉ s} :=
  Finsupp.supported_mono fun _ hs hc => hv (hs.2.1 v hc)

/-- Cycles on cliques of `m` vertices are boundaries. -/
def AcycAt (K : Type) [CommRing K] (adj : ℕ → ℕ → Prop) (V : Finset ℕ) (m : ℕ) : Prop :=
  ∀ z ∈ cliqueChains K adj V m, augBdry K z = 0 → ∃ u ∈ cliqueChains K adj V (m + 1), augBdry K u = z

theorem disjoint_avoid {v : ℕ} {x : List ℕ →₀ K} (h1 : x ∈ Finsupp.supported K K {s : List ℕ | v ∉ s})
    (h2 : x ∈ Finsupp.supported K K {s : List ℕ | v ∈ s}) : x = 0 := by
  have hdis : Disjoint {s : List ℕ | v ∉ s} {s : List ℕ | v ∈ s} :=
    Set.disjoint_left.2 fun _ h1 h2 => h1 h2
  exact Submodule.disjoint_def.1 (Finsupp.disjoint_supported_supported (M := K) (R := K) hdis) _ h1 h2

theorem joinV_meets (v : ℕ) (x : List ℕ →₀ K) : joinV K v x ∈ Finsupp.supported K K {s : List ℕ | v ∈ s} := by
  have : (⊤ : Submodule K (List ℕ →₀ K)) ≤ (Finsupp.supported K K {s : List ℕ | v ∈ s}).comap (joinV K v) := by
    rw [← Finsupp.supported_univ]
    refine supported_induct fun s _ => ?_
    rw [Submodule.mem_comap, joinV_single]
    exact Finsupp.single_mem_supported K _ (by simp)
  exact this Submodule.mem_top

/-- A cycle, split at the smallest vertex. -/
theorem cycle_split [DecidableRel adj] {V : Finset ℕ} {v : ℕ} (hmin : ∀ u ∈ V, v ≤ u) {m : ℕ} {z : List ℕ →₀ K}
    (hz : z ∈ cliqueChains K adj V (m + 1)) (hdz : augBdry K z = 0) :
    ∃ y ∈ cliqueChains K adj ((V.erase v).filter fun u => adj v u) m,
      ∃ w ∈ cliqueChains K adj (V.erase v) (m + 1), joinV K v y + w = z ∧ augBdry K y = 0 ∧
        y + augBdry K w = 0 := by
  obtain ⟨y, hy, w, hw, e⟩ := clique_split hmin hz
  have hvV : v ∉ V.erase v := Finset.notMem_erase v V
  have hy' := cliqueChains_avoid (fun hc => hvV (Finset.filter_subset _ _ hc)) hy
  have hw' := cliqueChains_avoid hvV hw
  have hsum : y + augBdry K w = joinV K v (augBdry K y) := by
    rw [← e, map_add, augBdry_joinV] at hdz
    rw [← sub_eq_zero, ← hdz]
    abel
  have h0 : y + augBdry K w = 0 := by
    refine disjoint_avoid (v := v) (Submodule.add_mem _ hy' (augBdry_avoid v hw')) ?_
    rw [hsum]
    exact joinV_meets _ _
  refine ⟨y, hy, w, hw, e, ?_, h0⟩
  rw [h0] at hsum
  have hinj : Function.Injective (joinV K v) := Finsupp.mapDomain_injective (List.cons_injective)
  exact hinj (by rw [← hsum, map_zero])

/-- A vertex is added whose link has no homology. -/
theorem AcycAt.step [DecidableRel adj] {V : Finset ℕ} {v : ℕ} (hv : v ∈ V) (hmin : ∀ u ∈ V, v ≤ u) {m : ℕ}
    (hL : AcycAt K adj ((V.erase v).filter fun u => adj v u) m) (hW : AcycAt K adj (V.erase v) (m + 1)) :
    AcycAt K adj V (m + 1) := by
  intro z hz hdz
  obtain ⟨y, hy, w, hw, e, hdy, h0⟩ := cycle_split hmin hz hdz
  obtain ⟨u1, hu1, e1⟩ := hL y hy hdy
  obtain ⟨u2, hu2, e2⟩ := hW (w + u1)
    (Submodule.add_mem _ hw (cliqueChains_mono (Finset.filter_subset _ _) _ hu1))
    (by rw [map_add, e1, add_comm]; exact h0)
  refine ⟨u2 - joinV K v u1, Submodule.sub_mem _ (cliqueChains_mono (Finset.erase_subset _ _) _ hu2)
    (joinV_mem hv hmin hu1), ?_⟩
  rw [map_sub, e2, augBdry_joinV, e1, ← e]
  abel

/-- The smallest vertex is joined to all the others. -/
theorem AcycAt.cone_min [DecidableRel adj] {V : Finset ℕ} {v : ℕ} (hv : v ∈ V) (hmin : ∀ u ∈ V, v ≤ u)
    (hall : ∀ u ∈ V, v < u → adj v u) (m : ℕ) : AcycAt K adj V (m + 1) := by
  intro z hz hdz
  obtain ⟨y, hy, w, hw, e, -, h0⟩ := cycle_split hmin hz hdz
  have hW : (V.erase v).filter (fun u => adj v u) = V.erase v := by
    refine Finset.filter_true_of_mem fun u hu => ?_
    obtain ⟨h1, h2⟩ := Finset.mem_erase.1 hu
    exact hall u h2 (lt_of_le_of_ne (hmin u h2) (Ne.symm h1))
  refine ⟨joinV K v w, joinV_mem hv hmin (by rw [hW]; exact hw), ?_⟩
  rw [augBdry_joinV, ← e, show augBdry K w = -y from eq_neg_of_add_eq_zero_right h0, map_neg]
  abel

theorem AcycAt.empty (m : ℕ) : AcycAt K adj ∅ (m + 1) := by
  intro z hz _
  refine ⟨0, Submodule.zero_mem _, ?_⟩
  rw [map_zero]
  have : cliqueChains K adj ∅ (m + 1) ≤ ⊥ := supported_induct fun s hs => by
    obtain ⟨h1, h2, -⟩ := hs
    match s, h1 with
    | a :: s, _ => exact absurd (h2 a (by simp)) (by simp)
  exact ((Submodule.mem_bot K).1 (this hz)).symm

theorem AcycAt.zero {V : Finset ℕ} {w : ℕ} (hw : w ∈ V) : AcycAt K adj V 0 := by
  intro z hz _
  have : cliqueChains K adj V 0 ≤ (cliqueChains K adj V 1).map (augBdry K) := supported_induct fun s hs => by
    obtain rfl := List.length_eq_zero_iff.1 hs.1
    refine ⟨Finsupp.single [w] 1, Finsupp.single_mem_supported K _ ⟨rfl, by simpa using hw, by simp⟩, ?_⟩
    rw [augBdry_single]
    simp [augSum]
  exact this hz

/-- A vertex is joined to all the others. -/
theorem AcycAt.cone [DecidableRel adj] {w : ℕ} : ∀ (n : ℕ) (V : Finset ℕ), V.card ≤ n → w ∈ V →
    (∀ u ∈ V, u < w → adj u w) → (∀ u ∈ V, w < u → adj w u) → ∀ m, AcycAt K adj V m := by
  intro n
  induction n with
  | zero =>
    intro V hn hw
    rw [Finset.card_eq_zero.1 (by omega : V.card = 0)] at hw
    simp at hw
  | succ n ih =>
    intro V hn hw h1 h2 m
    cases m with
    | zero => exact AcycAt.zero hw
    | succ m =>
    have hV : V.Nonempty := ⟨w, hw⟩
    have hv : V.min' hV ∈ V := Finset.min'_mem V hV
    have hmin : ∀ u ∈ V, V.min' hV ≤ u := fun u hu => Finset.min'_le V u hu
    set v := V.min' hV with hvd
    have hcV : (V.erase v).card + 1 = V.card := Finset.card_erase_add_one hv
    by_cases hvw : v = w
    · exact AcycAt.cone_min hv hmin (fun u hu hlt => by rw [hvw] at hlt ⊢; exact h2 u hu hlt) m
    · have hvw' : v < w := lt_of_le_of_ne (hmin w hw) hvw
      have hwV : w ∈ V.erase v := Finset.mem_erase.2 ⟨fun hc => hvw hc.symm, hw⟩
      refine AcycAt.step hv hmin (ih _ ?_ (Finset.mem_filter.2 ⟨hwV, h1 v hv hvw'⟩) ?_ ?_ m)
        (ih _ (by omega) hwV ?_ ?_ (m + 1))
      · exact le_trans (Finset.card_le_card (Finset.filter_subset _ _)) (by omega)
      · exact fun u hu => h1 u (Finset.mem_of_mem_erase (Finset.mem_filter.1 hu).1)
      · exact fun u hu => h2 u (Finset.mem_of_mem_erase (Finset.mem_filter.1 hu).1)
      · exact fun u hu => h1 u (Finset.mem_of_mem_erase hu)
      · exact fun u hu => h2 u (Finset.mem_of_mem_erase hu)

/-- Cycles on cliques of at least half of the vertices are boundaries. -/
theorem clique_acyclic [DecidableRel adj] : ∀ (n : ℕ) (V : Finset ℕ) (m : ℕ), V.card ≤ n → V.card ≤ 2 * m + 1 →
    AcycAt K adj V (m + 1) := by
  intro n
  induction n with
  | zero =>
    intro V m hn _
    rw [Finset.card_eq_zero.1 (by omega : V.card = 0)]
    exact AcycAt.empty m
  | succ n ih =>
    intro V m hn hm
    by_cases hV : V.Nonempty
    swap
    · rw [Finset.not_nonempty_iff_eq_empty.1 hV]
      exact AcycAt.empty m
    have hv : V.min' hV ∈ V := Finset.min'_mem V hV
    have hmin : ∀ u ∈ V, V.min' hV ≤ u := fun u hu => Finset.min'_le V u hu
    set v := V.min' hV with hvd
    have hcV : (V.erase v).card + 1 = V.card := Finset.card_erase_add_one hv
    by_cases hall : ∀ u ∈ V, v < u → adj v u
    · exact AcycAt.cone_min hv hmin hall m
    · have hlt : ((V.erase v).filter fun u => adj v u).card < (V.erase v).card := by
        push Not at hall
        obtain ⟨u, hu, hlt, hnot⟩ := hall
        refine Finset.card_lt_card (Finset.filter_ssubset.2 ⟨u, Finset.mem_erase.2 ⟨hlt.ne', hu⟩, hnot⟩)
      obtain ⟨m, rfl⟩ : ∃ m', m = m' + 1 := ⟨m - 1, by omega⟩
      exact AcycAt.step hv hmin (ih _ m (by omega) (by omega)) (ih _ (m + 1) (by omega) (by omega))

/-- If the larger neighbours of every vertex are joined to each other, there is no homology in positive
degrees. -/
theorem chordal_acyclic [DecidableRel adj] (hch : ∀ v u w, v < u → u < w → adj v u → adj v w → adj u w) :
    ∀ (n : ℕ) (V : Finset ℕ) (m : ℕ), V.card ≤ n → AcycAt K adj V (m + 2) := by
  intro n
  induction n with
  | zero =>
    intro V m hn
    rw [Finset.card_eq_zero.1 (by omega : V.card = 0)]
    exact AcycAt.empty _
  | succ n ih =>
    intro V m hn
    by_cases hV : V.Nonempty
    swap
    · rw [Finset.not_nonempty_iff_eq_empty.1 hV]
      exact AcycAt.empty _
    have hv : V.min' hV ∈ V := Finset.min'_mem V hV
    have hmin : ∀ u ∈ V, V.min' hV ≤ u := fun u hu => Finset.min'_le V u hu
    set v := V.min' hV with hvd
    have hcV : (V.erase v).card + 1 = V.card := Finset.card_erase_add_one hv
    refine AcycAt.step hv hmin ?_ (ih _ m (by omega))
    by_cases hL : ((V.erase v).filter fun u => adj v u).Nonempty
    · obtain ⟨w, hw⟩ := hL
      have hlk : ∀ u ∈ (V.erase v).filter (fun u => adj v u), v < u ∧ adj v u := by
        intro u hu
        obtain ⟨h1, h2⟩ := Finset.mem_filter.1 hu
        obtain ⟨h3, h4⟩ := Finset.mem_erase.1 h1
        exact ⟨lt_of_le_of_ne (hmin u h4) (Ne.symm h3), h2⟩
      exact AcycAt.cone _ _ le_rfl hw
        (fun u hu hlt => hch v u w (hlk u hu).1 hlt (hlk u hu).2 (hlk w hw).2)
        (fun u hu hlt => hch v w u (hlk w hw).1 hlt (hlk w hw).2 (hlk u hu).2) _
    · rw [Finset.not_nonempty_iff_eq_empty.1 hL]
      exact AcycAt.empty m

end

section

variable {α : Type} [LinearOrder α] {K : Type} [CommRing K]

theorem simplicialBdry_eq_augBdry {dist : ℕ → ℕ → α} {n e : ℕ} {t : α} {x : List ℕ →₀ K}
    (hx : x ∈ vrChains K dist n (e + 1) t) : simplicialBdry K x = augBdry K x := by
  have : vrChains K dist n (e + 1) t ≤ LinearMap.eqLocus (simplicialBdry K) (augBdry K) := by
    refine supported_induct fun s hs => ?_
    have hl : ¬ s.length ≤ 1 := by rw [hs.1]; omega
    change simplicialBdry K _ = augBdry K _
    rw [augBdry_single, simplicialBdry, Finsupp.linearCombination_single, one_smul, faceSum, if_neg hl]
    rfl
  exact this hx

theorem vrChains_clique (dist : ℕ → ℕ → α) (n m : ℕ) (t : α) :
    vrChains K dist n m t = cliqueChains K (fun u v => dist v u ≤ t) (range n) (m + 1) := by
  unfold vrChains cliqueChains
  congr 1
  ext s
  simp only [VRSimplex, CliqueOn, Set.mem_setOf_eq, Finset.mem_range]

theorem vrCycles_le_of_acyc (dist : ℕ → ℕ → α) {n e : ℕ} (he : 1 ≤ e) {t : α}
    (h : AcycAt K (fun u v => dist v u ≤ t) (range n) (e + 1)) :
    vrCycles K dist n e t ≤ vrBoundaries K dist n e t := by
  obtain ⟨e, rfl⟩ : ∃ e', e = e' + 1 := ⟨e - 1, by omega⟩
  rintro z ⟨hz, hd⟩
  have hd' : augBdry K z = 0 := by rw [← simplicialBdry_eq_augBdry hz]; exact hd
  have hz' : z ∈ vrChains K dist n (e + 1) t := hz
  rw [vrChains_clique] at hz'
  obtain ⟨u, hu, e1⟩ := h z hz' hd'
  rw [← vrChains_clique] at hu
  exact ⟨u, hu, by rw [simplicialBdry_eq_augBdry hu]; exact e1⟩

/-- At most `2 e + 1` points have no Vietoris-Rips homology in degree `e ≥ 1`. -/
theorem vrCycles_le_boundaries (dist : ℕ → ℕ → α) {n e : ℕ} (he : 1 ≤ e) (hn : n ≤ 2 * e + 1) (t : α) :
    vrCycles K dist n e t ≤ vrBoundaries K dist n e t :=
  vrCycles_le_of_acyc dist he (clique_acyclic n (range n) e (by simp) (by simpa using hn))

/-- The rank of the maps in homology is zero when the cycles are boundaries. -/
theorem vrMap_rank_zero {K : Type} [Field K] {dist : ℕ → ℕ → α} {n e : ℕ} {s t : α} (hst : s ≤ t)
    (h : vrCycles K dist n e t ≤ vrBoundaries K dist n e t) :
    Module.finrank K (LinearMap.range (vrMap K dist n e hst)) = 0 := by
  have hsub : Subsingleton (vrHomology K dist n e t) := by
    refine ⟨fun x y => ?_⟩
    obtain ⟨x, rfl⟩ := Submodule.Quotient.mk_surjective _ x
    obtain ⟨y, rfl⟩ := Submodule.Quotient.mk_surjective _ y
    rw [Submodule.Quotient.eq]
    exact h (x - y).2
  exact Module.finrank_zero_of_subsingleton

end

end Permaviss
