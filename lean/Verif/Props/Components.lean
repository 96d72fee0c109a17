import Verif.Lemmas.DegreeZero
import Verif.Props.PageTwo
import Verif.Props.LocalPH

/-!
# The barcode of connected components (C61)
-/

namespace Permaviss

open Finset

section

variable {K : Type} [Field K] [LinearOrder K] [FloorRing K] [IsStrictOrderedRing K]
  {pdist : List (List K) → List (List K)} {d : List K → List K → K} {argsort : List K → List Nat}
  {rnd : K → K} {maxR : K} {maxDim maxDiv dim : ℕ} {overlap : K} {cloud : List (List K)} {p : ℕ}
  {lo hi : ℕ → K} {side : K}

theorem MVInput.coverOK (h : MVInput pdist d argsort maxR maxDiv dim cloud p lo hi side)
    (hw : ∀ i < dim, lo i < hi i) (ho : maxR ≤ overlap)
    (hcoord : ∀ a ∈ cloud, ∀ b ∈ cloud, ∀ i < dim, |a.getD i 0 - b.getD i 0| ≤ d a b) {E : SSEnv K}
    (hE : createEnv pdist argsort rnd maxR maxDim maxDiv overlap dim cloud p = .ok E) :
    ∃ D, CoverOK E (diam d fun v => cloud.getD v []) cloud.length D ∧
      ∀ n, n + 1 < E.columns.length → ∀ l < E.spx (n + 1), ∃ k < E.spx n, ∀ pts pts',
        E.pts n k = .ok pts → E.pts (n + 1) l = .ok pts' → pts' ⊆ pts :=
  createEnv_coverOK h.prime h.dist h.sort h.radius h.points h.dim_pos h.div_pos h.box h.side_pos hw ho
    hcoord hE

theorem cloudDist_eq (hd : IsDistTable pdist d) {u v : ℕ} (hu : u < cloud.length) (hv : v < cloud.length) :
    cloudDist pdist cloud v u = d (cloud.getD v []) (cloud.getD u []) := by
  unfold cloudDist
  rw [if_neg (by omega)]
  have e : cloud = (List.range cloud.length).map fun v => cloud.getD v [] := by
    apply List.ext_getElem (by simp)
    intro i i1 i2
    simp [List.getD_eq_getElem?_getD, i1]
  have := hd.distAt (fun v => cloud.getD v []) (List.range cloud.length) (a := v) (b := u)
    (by simpa using hv) (by simpa using hu)
  rw [← e] at this
  rw [this]
  simp [List.getD_eq_getElem?_getD, hu, hv]

theorem homRank_zero_of_dead (hp : p.Prime) {D : List Mat} {Base : List (Basis K)} {n : ℕ} {s t : K}
    (h : ∀ i, ¬ AliveBar (barsAt Base n) i t) : homRank p D Base n s t = 0 := by
  have := Fact.mk hp
  have e : barRestr p (barsAt Base n) t = 0 := by
    ext x i
    exact restr_apply_neg (h i)
  unfold homRank quotRank
  rw [e, LinearMap.comp_zero, Submodule.map_zero]
  exact finrank_bot _ _

theorem homRank_column_zero {D : List Mat} {Base : List (Basis K)} (s t : K) :
    homRank p D Base 0 s t = Module.finrank (ZMod p) ((barModule p (barsAt Base 0) s).map
      ((imAt p (barsAt Base 1) (barsAt Base 0) (diffAt D 1) t).mkQ ∘ₗ barRestr p (barsAt Base 0) t)) := rfl

theorem homRank_zero_of_unborn (hp : p.Prime) {D : List Mat} {Base : List (Basis K)} {s t : K}
    (h : ∀ i, ¬ AliveBar (barsAt Base 0) i s) : homRank p D Base 0 s t = 0 := by
  have := Fact.mk hp
  have e : barModule p (barsAt Base 0) s = ⊥ := by
    unfold barModule
    rw [LinearMap.range_eq_bot]
    ext x i
    exact restr_apply_neg (h i)
  rw [homRank_column_zero, e, Submodule.map_bot]
  exact finrank_bot _ _

theorem MVInput.coveredEnv (h : MVInput pdist d argsort maxR maxDiv dim cloud p lo hi side)
    (hw : ∀ i < dim, lo i < hi i) (ho : maxR ≤ overlap)
    (hcoord : ∀ a ∈ cloud, ∀ b ∈ cloud, ∀ i < dim, |a.getD i 0 - b.getD i 0| ≤ d a b) {E : SSEnv K}
    (hE : createEnv pdist argsort rnd maxR maxDim maxDiv overlap dim cloud p = .ok E) :
    CoveredEnv pdist d argsort rnd maxR maxDim dim cloud p E :=
  ⟨h.runEnv hE, h.coverOK hw ho hcoord hE, createEnv_nerveOK h.prime h.dist h.sort h.radius h.points h.dim_pos
    h.div_pos h.box h.side_pos hw hE⟩

/-- The components, for any cover; see `C61_components_rank`. -/
theorem CoveredEnv.components_rank {out : MVOut K} (h : CoveredEnv pdist d argsort rnd maxR maxDim dim cloud p out.env) (hrun : out.Run rnd)
    (hround : ∀ n m, ∀ a ∈ out.env.firstBars 0 n, ∀ b ∈ out.env.firstBars 0 m,
      ∀ x, x = a.1 ∨ x = a.2 → ∀ y, y = b.1 ∨ y = b.2 → rnd x ≤ rnd y → x ≤ y) :
    ∃ B, out.persistentHomology[0]? = some B ∧ (∀ b ∈ B.barcode, 0 ≤ b.1 ∧ b.1 < b.2 ∧ b.2 ≤ maxR) ∧
      ∀ s t (hst : s ≤ t), 0 ≤ s → t < maxR →
        barsThrough B.barcode s t = Module.finrank (ZMod p) (LinearMap.range
          (vrMap (ZMod p) (cloudDist pdist cloud) cloud.length 0 hst)) := by
  obtain ⟨hS, hph⟩ := id hrun
  obtain ⟨hOK, h1, h2, h3, h4⟩ := h.facts
  have h5 := h.pages
  have h6 := h.numbers
  subst h1
  obtain ⟨D0, hC, hfaces⟩ := h.cover
  have hpow : 2 ≤ 2 ^ dim := by
    calc 2 = 2 ^ 1 := by norm_num
      _ ≤ 2 ^ dim := Nat.pow_le_pow_right (by omega) h.dim_pos
  -- the first entry
  have hrows : 0 < out.env.rows := by
    by_contra hc
    unfold persistentList at hph
    rw [if_pos (by omega)] at hph
    exact absurd hph (by simp)
  have hfirst : out.persistentHomology[0]? =
      some (out.pages.hom (out.env.noPages - 1) 0 0).basis := by
    unfold persistentList at hph
    rw [if_neg (by omega), bind_ok] at hph
    obtain ⟨rest, -, hph⟩ := hph
    rw [← Except.ok.inj hph]
    rfl
  obtain ⟨D, Base, hrow, -, hpage⟩ := h.second_page hrun 0 (by omega) hround
  have hb : ∀ n, n < out.env.columns.length → barsAt Base n = out.env.firstBars 0 n := by
    intro n hn
    rw [hrow.bars, if_pos hn]
  obtain ⟨hlt, hcount⟩ := hpage 0 (by omega)
  replace hcount := hcount.2 fun hc => absurd hc.1 (lt_irrefl 0)
  have hperm := allPages_zero (N := out.env.spxNumber.length - 1) (by omega) (by omega) hrows hS hlt
    (out.env.noPages - 1) (by omega) (by omega)
  have hfb : ∀ b ∈ out.env.firstBars 0 0, 0 ≤ b.1 ∧ b.2 ≤ maxR := by
    intro b hb
    refine ⟨?_, ?_⟩
    · obtain ⟨_, _, _, _, e⟩ := hOK.birth_radius (by omega) hrows hb
      rw [e]; exact diam_nonneg _ _ _
    · rw [← h2]; exact (hOK.firstBars_lt (by omega) hrows b hb).2
  refine ⟨_, hfirst, ?_, ?_⟩
  · intro b hbm
    have hbm' := hperm.mem_iff.1 hbm
    refine ⟨?_, hlt b hbm', ?_⟩
    · by_contra hneg
      have hz := hcount b.1 b.1 le_rfl
      rw [homRank_zero_of_unborn h.prime] at hz
      · have := (barsThrough_pos (bars := (out.pages.hom 1 0 0).basis.barcode)
          (s := b.1) (t := b.1)).2 ⟨b, hbm', le_rfl, hlt b hbm'⟩
        omega
      · rintro i ⟨c, hc, hc1, -⟩
        rw [hb 0 (by omega)] at hc
        exact hneg ((hfb c (List.mem_of_getElem? hc)).1.trans hc1)
    · by_contra hneg
      push Not at hneg
      have hz := hcount (max b.1 maxR) (max b.1 maxR) le_rfl
      rw [homRank_zero_of_dead h.prime] at hz
      · have := (barsThrough_pos (bars := (out.pages.hom 1 0 0).basis.barcode)
          (s := max b.1 maxR) (t := max b.1 maxR)).2
          ⟨b, hbm', le_max_left _ _, max_lt (hlt b hbm') hneg⟩
        omega
      · rintro i ⟨c, hc, -, hc2⟩
        rw [hb 0 (by omega)] at hc
        exact absurd ((le_max_right _ _).trans_lt hc2) (not_lt.2 (hfb c (List.mem_of_getElem? hc)).2)
  · intro s t hst hs ht
    rw [barsThrough_perm hperm, hcount s t hst]
    rw [homRank_column_zero, hb 0 (by omega), hb 1 (by omega)]
    have hr := rank_row_zero hOK hC hrows (hrow.diff 0 (by omega)) hst (by rw [h2]; exact ht)
    rw [hr, finrank_vrMap h.prime, vrCycles_zero]
    unfold vrBoundaries
    have e : ∀ e t, 0 ≤ t → vrChains (ZMod out.env.p) (cloudDist pdist cloud) cloud.length e t =
        out.env.chG (diam d fun v => cloud.getD v []) cloud.length e t := by
      intro e t ht
      refine vrChains_eq ?_ ht
      intro u hu v hv
      exact cloudDist_eq h.dist hu hv
    rw [e 0 s hs, e (0 + 1) t (hs.trans hst)]

/-- **C61**, in terms of homology.  The first barcode of the persistent homology computed by
`create_MV_ss` counts connected components: for `0 ≤ s ≤ t < max_r` the number of its bars that contain
`s` and `t` is the rank of the map from `H_0` of the Vietoris-Rips complex at `s` to the one at `t`. -/
theorem C61_components_rank (h : MVInput pdist d argsort maxR maxDiv dim cloud p lo hi side)
    (hw : ∀ i < dim, lo i < hi i) (ho : maxR ≤ overlap)
    (hcoord : ∀ a ∈ cloud, ∀ b ∈ cloud, ∀ i < dim, |a.getD i 0 - b.getD i 0| ≤ d a b)
    (out : MVOut K) (hrun : createMVss pdist argsort rnd maxR maxDim maxDiv overlap dim cloud p = .ok out)
    (hround : ∀ n m, ∀ a ∈ out.env.firstBars 0 n, ∀ b ∈ out.env.firstBars 0 m,
      ∀ x, x = a.1 ∨ x = a.2 → ∀ y, y = b.1 ∨ y = b.2 → rnd x ≤ rnd y → x ≤ y) :
    ∃ B, out.persistentHomology[0]? = some B ∧ (∀ b ∈ B.barcode, 0 ≤ b.1 ∧ b.1 < b.2 ∧ b.2 ≤ maxR) ∧
      ∀ s t (hst : s ≤ t), 0 ≤ s → t < maxR →
        barsThrough B.barcode s t = Module.finrank (ZMod p) (LinearMap.range
          (vrMap (ZMod p) (cloudDist pdist cloud) cloud.length 0 hst)) := by
  exact (h.coveredEnv hw ho hcoord (createMVss_parts hrun).1).components_rank (createMVss_run hrun) hround

/-- The components, for any cover; see `C61_components`. -/
theorem CoveredEnv.components {out : MVOut K} (h : CoveredEnv pdist d argsort rnd maxR maxDim dim cloud p out.env) (hrun : out.Run rnd)
    (hround : ∀ n m, ∀ a ∈ out.env.firstBars 0 n, ∀ b ∈ out.env.firstBars 0 m,
      ∀ x, x = a.1 ∨ x = a.2 → ∀ y, y = b.1 ∨ y = b.2 → rnd x ≤ rnd y → x ≤ y) :
    ∃ B L B', out.persistentHomology[0]? = some B ∧
      localPersistentHomology pdist argsort rnd cloud maxR maxDim p = .ok L ∧
      L.ph.hom[0]? = some B' ∧ B.barcode.Perm B'.barcode := by
  obtain ⟨B, hB, hwf, hrank⟩ := h.components_rank hrun hround
  have e : cloud = (List.range cloud.length).map fun v => cloud.getD v [] := by
    apply List.ext_getElem (by simp)
    intro i i1 i2
    simp [List.getD_eq_getElem?_getD, i1]
  obtain ⟨L, hL, hP, hlen, hhl, -⟩ := local_piece h.prime h.dist h.sort rnd (fun v => cloud.getD v [])
    (pts := List.range cloud.length) List.pairwise_lt_range h.radius maxDim
  rw [← e] at hL
  obtain ⟨B', hB'⟩ : ∃ B', L.ph.hom[0]? = some B' := ⟨_, List.getElem?_eq_getElem (by omega)⟩
  refine ⟨B, L, B', hB, hL, hB', ?_⟩
  have hwf' := (C26_barcodes_well_formed h.prime rnd hP.filt L.ph hP.run 0 B' hB').1
  have hpos' : ∀ b ∈ B'.barcode, 0 ≤ b.1 := by
    intro b hb
    have := birth_mem h.prime hP.filt hP.run hB' b hb
    rw [hP.rad 0 (by omega)] at this
    obtain ⟨s, -, es⟩ := List.mem_map.1 this
    rw [← es]; exact diam_nonneg _ _ _
  refine perm_of_barsThrough (fun b hb => (hwf b hb).2.1) (fun b hb => (hwf' b hb).1) fun s t hst => ?_
  by_cases hs : 0 ≤ s
  · by_cases ht : t < maxR
    · obtain ⟨B'', hB'', hr⟩ := C27_local_persistent_betti h.prime pdist h.dist.isPdist argsort h.sort rnd
        cloud maxR h.radius maxDim L hL 0 (by omega) s t hs hst ht
      rw [hB'] at hB''
      obtain rfl := Option.some.inj hB''
      rw [hrank s t hst hs ht, hr]
      unfold barsThrough
      rw [List.countP_eq_length_filter]
      congr 1
      apply List.filter_congr
      intro b _
      rw [Bool.decide_and]
    · have z1 : ¬ 0 < barsThrough B.barcode s t := fun hc => by
        obtain ⟨b, hb, -, h2⟩ := barsThrough_pos.1 hc
        exact ht (h2.trans_le (hwf b hb).2.2)
      have z2 : ¬ 0 < barsThrough B'.barcode s t := fun hc => by
        obtain ⟨b, hb, -, h2⟩ := barsThrough_pos.1 hc
        exact ht (h2.trans_le (hwf' b hb).2)
      omega
  · have z1 : ¬ 0 < barsThrough B.barcode s t := fun hc => by
      obtain ⟨b, hb, h1, -⟩ := barsThrough_pos.1 hc
      exact hs ((hwf b hb).1.trans h1)
    have z2 : ¬ 0 < barsThrough B'.barcode s t := fun hc => by
      obtain ⟨b, hb, h1, -⟩ := barsThrough_pos.1 hc
      exact hs ((hpos' b hb).trans h1)
    omega

/-- **C61.** If `create_MV_ss` returns, the first barcode of its persistent homology is the barcode in
degree zero of the ordinary computation on the whole cloud, up to the order of the bars.  The distance
must bound the differences of coordinates (as all the `p`-norms do), `overlap` must be at least `max_r`,
the cloud must not be contained in a coordinate hyperplane, and rounding must not put two ends of bars
of degree zero of the pieces in the wrong order. -/
theorem C61_components (h : MVInput pdist d argsort maxR maxDiv dim cloud p lo hi side)
    (hw : ∀ i < dim, lo i < hi i) (ho : maxR ≤ overlap)
    (hcoord : ∀ a ∈ cloud, ∀ b ∈ cloud, ∀ i < dim, |a.getD i 0 - b.getD i 0| ≤ d a b)
    (out : MVOut K) (hrun : createMVss pdist argsort rnd maxR maxDim maxDiv overlap dim cloud p = .ok out)
    (hround : ∀ n m, ∀ a ∈ out.env.firstBars 0 n, ∀ b ∈ out.env.firstBars 0 m,
      ∀ x, x = a.1 ∨ x = a.2 → ∀ y, y = b.1 ∨ y = b.2 → rnd x ≤ rnd y → x ≤ y) :
    ∃ B L B', out.persistentHomology[0]? = some B ∧
      localPersistentHomology pdist argsort rnd cloud maxR maxDim p = .ok L ∧
      L.ph.hom[0]? = some B' ∧ B.barcode.Perm B'.barcode := by
  exact (h.coveredEnv hw ho hcoord (createMVss_parts hrun).1).components (createMVss_run hrun) hround

end

/-- The hypotheses are met: the four corners of a rectangle, with `max_r = 6` and `overlap = 7`.  The
bars of degree zero are `(0, 3)` twice, `(0, 4)` and `(0, 6)`. -/
example : MVInput rectDist rectD stableArgsort 6 2 2 rectCloud 5 (fun _ => 0) (fun d => 3 + d) 2 ∧
    (∀ i : ℕ, i < 2 → (0 : ℚ) < 3 + (i : ℚ)) ∧ (6 : ℚ) ≤ 7 ∧
    (∀ a ∈ rectCloud, ∀ b ∈ rectCloud, ∀ i < 2, |a.getD i 0 - b.getD i 0| ≤ rectD a b) ∧
    (rectRun.map fun o => o.persistentHomology.map fun B => B.barcode) =
      .ok [[(0, 6), (0, 4), (0, 3), (0, 3)], [(4, 5)]] := by
  refine ⟨rect_input, ?_, by norm_num, ?_, ?_⟩
  · intro i _
    have : (0 : ℚ) ≤ (i : ℚ) := Nat.cast_nonneg i
    linarith
  · decide +kernel
  · decide +kernel

end Permaviss
