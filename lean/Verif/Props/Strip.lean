import Verif.Lemmas.Thin
import Verif.Props.Components

/-!
# The barcodes computed for cubes in a line, or without triple intersections (C54)
-/

namespace Permaviss

open Finset

section

variable {K : Type} [Field K] [LinearOrder K] [FloorRing K] [IsStrictOrderedRing K]
  {pdist : List (List K) → List (List K)} {d : List K → List K → K} {argsort : List K → List Nat}
  {rnd : K → K} {maxR : K} {maxDim maxDiv dim : ℕ} {overlap : K} {cloud : List (List K)} {p : ℕ}
  {lo hi : ℕ → K} {side : K}

theorem filterMap_getD {β : Type} (l : List (Option β)) :
    l.filterMap id = (List.range l.length).filterMap fun i => l.getD i none := by
  have e : l = (List.range l.length).map fun i => l.getD i none := by
    apply List.ext_getElem (by simp)
    intro i i1 i2
    simp [List.getD_eq_getElem?_getD, i1]
  conv_lhs => rw [e]
  rw [List.filterMap_map]
  rfl

/-- What a diagonal with the ranks of the whole complex says of the cloud. -/
theorem RunEnv.degree_of_diagonal {E : SSEnv K}
    (h : RunEnv pdist d argsort rnd maxR maxDim dim cloud p E) {e : ℕ}
    {o : Option (Basis K)} (hF : Fact E.p.Prime)
    (key : (o = none ∧ ∀ s t, s ≤ t → t < E.maxR →
        rankThrough (E.ZG (diam d fun v => cloud.getD v []) cloud.length (e + 1))
          (E.BG (diam d fun v => cloud.getD v []) cloud.length (e + 1)) s t = 0) ∨
      ∃ Q, o = some Q ∧ (∀ b ∈ Q.barcode, b.1 < b.2) ∧
        (∀ s t, s ≤ t → t < E.maxR → barsThrough Q.barcode s t =
          rankThrough (E.ZG (diam d fun v => cloud.getD v []) cloud.length (e + 1))
            (E.BG (diam d fun v => cloud.getD v []) cloud.length (e + 1)) s t) ∧
        ∀ s t, s ≤ t → E.maxR ≤ t → barsThrough Q.barcode s t = 0) :
    (∀ Q, o = some Q → (∀ b ∈ Q.barcode, 0 ≤ b.1 ∧ b.1 < b.2 ∧ b.2 ≤ maxR) ∧
      ∀ s t (hst : s ≤ t), 0 ≤ s → t < maxR →
        barsThrough Q.barcode s t = Module.finrank (ZMod p) (LinearMap.range
          (vrMap (ZMod p) (cloudDist pdist cloud) cloud.length (e + 1) hst))) ∧
    (o = none → ∀ s t (hst : s ≤ t), 0 ≤ s → t < maxR →
      Module.finrank (ZMod p) (LinearMap.range
        (vrMap (ZMod p) (cloudDist pdist cloud) cloud.length (e + 1) hst)) = 0) := by
  obtain ⟨hOK, h1, h2, h3, h4⟩ := h.facts
  subst h1
  have hvr : ∀ s t (hst : s ≤ t), 0 ≤ s → t < maxR →
      Module.finrank (ZMod E.p) (LinearMap.range
        (vrMap (ZMod E.p) (cloudDist pdist cloud) cloud.length (e + 1) hst)) =
      haveI := Fact.mk hOK.prime
      rankThrough (E.ZG (diam d fun v => cloud.getD v []) cloud.length (e + 1))
        (E.BG (diam d fun v => cloud.getD v []) cloud.length (e + 1)) s t := by
    intro s t hst hs ht
    rw [finrank_vrMap h.prime]
    have e : ∀ e t, 0 ≤ t → vrChains (ZMod E.p) (cloudDist pdist cloud) cloud.length e t =
        E.chG (diam d fun v => cloud.getD v []) cloud.length e t := by
      intro e t ht
      refine vrChains_eq ?_ ht
      intro u hu v hv
      exact cloudDist_eq h.dist hu hv
    unfold vrCycles vrBoundaries
    rw [e _ s hs, e _ t (hs.trans hst)]
    rfl
  rw [← h2]
  obtain ⟨hn, hzero⟩ | ⟨Q, hQ, q1, q2, q3⟩ := key
  · refine ⟨fun Q hQ => ?_, fun _ s t hst hs ht => ?_⟩
    · rw [hn] at hQ; cases hQ
    · rw [hvr s t hst hs (h2 ▸ ht), hzero s t hst ht]
  · refine ⟨fun Q' hQ' => ?_, fun hc => ?_⟩
    swap
    · rw [hQ] at hc; cases hc
    rw [hQ] at hQ'
    cases hQ'
    refine ⟨fun b hb => ⟨?_, q1 b hb, ?_⟩, fun s t hst hs ht => ?_⟩
    · by_contra hneg
      push Not at hneg
      have hR : b.1 < E.maxR := hneg.trans (h2 ▸ h.radius)
      have hpos := (barsThrough_pos (bars := Q.barcode) (s := b.1) (t := b.1)).2 ⟨b, hb, le_rfl, q1 b hb⟩
      rw [q2 _ _ le_rfl hR] at hpos
      have h0 : E.ZG (diam d fun v => cloud.getD v []) cloud.length (e + 1) b.1 = ⊥ := by
        unfold SSEnv.ZG
        have : E.chG (diam d fun v => cloud.getD v []) cloud.length (e + 1) b.1 = ⊥ := by
          unfold SSEnv.chG
          rw [show {s : List ℕ | s.length = e + 1 + 1 ∧ s.Pairwise (· < ·) ∧ (∀ v ∈ s, v < cloud.length) ∧
            diam d (fun v => cloud.getD v []) s ≤ b.1} = ∅ from ?_]
          · exact Finsupp.supported_empty
          · ext s
            simp only [Set.mem_setOf_eq, Set.mem_empty_iff_false, iff_false]
            rintro ⟨-, -, -, hle⟩
            exact absurd (hle.trans_lt hneg) (not_lt.2 (diam_nonneg _ _ _))
        rw [this, bot_inf_eq]
      have := Fact.mk hOK.prime
      unfold rankThrough at hpos
      rw [h0, Submodule.map_bot, finrank_bot] at hpos
      exact lt_irrefl _ hpos
    · by_contra hneg
      push Not at hneg
      have hm := q3 (max b.1 E.maxR) _ le_rfl (le_max_right _ _)
      have := (barsThrough_pos (bars := Q.barcode) (s := max b.1 E.maxR) (t := max b.1 E.maxR)).2
        ⟨b, hb, le_max_left _ _, max_lt (q1 b hb) hneg⟩
      omega
    · rw [hvr s t hst hs (h2 ▸ ht), q2 s t hst ht]

/-- A result with the ranks of the cloud has the bars of the ordinary computation. -/
theorem barcodes_of_degree (hp : p.Prime) (hdist : IsDistTable pdist d) (ha : IsArgsort argsort)
    (hmax : 0 < maxR) {e : ℕ}
    (he : e + 1 < maxDim) {o : Option (Basis K)}
    (hsome : ∀ Q, o = some Q → (∀ b ∈ Q.barcode, 0 ≤ b.1 ∧ b.1 < b.2 ∧ b.2 ≤ maxR) ∧
      ∀ s t (hst : s ≤ t), 0 ≤ s → t < maxR →
        barsThrough Q.barcode s t = Module.finrank (ZMod p) (LinearMap.range
          (vrMap (ZMod p) (cloudDist pdist cloud) cloud.length (e + 1) hst)))
    (hnone : o = none → ∀ s t (hst : s ≤ t), 0 ≤ s → t < maxR →
      Module.finrank (ZMod p) (LinearMap.range
        (vrMap (ZMod p) (cloudDist pdist cloud) cloud.length (e + 1) hst)) = 0) {L : LocalOut K}
    (hL : localPersistentHomology pdist argsort rnd cloud maxR maxDim p = .ok L) :
    ∃ B', L.ph.hom[e + 1]? = some B' ∧
      (∀ Q, o = some Q → Q.barcode.Perm B'.barcode) ∧ (o = none → B'.barcode = []) := by
  have e0 : cloud = (List.range cloud.length).map fun v => cloud.getD v [] := by
    apply List.ext_getElem (by simp)
    intro i i1 i2
    simp [List.getD_eq_getElem?_getD, i1]
  obtain ⟨L', hL', hP, hlen, hhl, -⟩ := local_piece hp hdist ha rnd (fun v => cloud.getD v [])
    (pts := List.range cloud.length) List.pairwise_lt_range hmax maxDim
  rw [← e0, hL] at hL'
  obtain rfl := Except.ok.inj hL'
  obtain ⟨B', hB'⟩ : ∃ B', L.ph.hom[e + 1]? = some B' := ⟨_, List.getElem?_eq_getElem (by omega)⟩
  refine ⟨B', hB', ?_⟩
  have hwf' := (C26_barcodes_well_formed hp rnd hP.filt L.ph hP.run (e + 1) B' hB').1
  have hpos' : ∀ b ∈ B'.barcode, 0 ≤ b.1 := by
    intro b hb
    have := birth_mem hp hP.filt hP.run hB' b hb
    rw [hP.rad (e + 1) (by omega)] at this
    obtain ⟨s, -, es⟩ := List.mem_map.1 this
    rw [← es]; exact diam_nonneg _ _ _
  have hcount : ∀ s t (hst : s ≤ t), 0 ≤ s → t < maxR → Module.finrank (ZMod p) (LinearMap.range
      (vrMap (ZMod p) (cloudDist pdist cloud) cloud.length (e + 1) hst)) = barsThrough B'.barcode s t := by
    intro s t hst hs ht
    obtain ⟨B'', hB'', hr⟩ := C27_local_persistent_betti hp pdist hdist.isPdist argsort ha rnd
      cloud maxR hmax maxDim L hL (e + 1) (by omega) s t hs hst ht
    rw [hB'] at hB''
    obtain rfl := Option.some.inj hB''
    rw [hr]
    unfold barsThrough
    rw [List.countP_eq_length_filter]
    congr 1
    apply List.filter_congr
    intro b _
    rw [Bool.decide_and]
  constructor
  · intro Q hQ
    obtain ⟨hwf, hrank⟩ := hsome Q hQ
    refine perm_of_barsThrough (fun b hb => (hwf b hb).2.1) (fun b hb => (hwf' b hb).1) fun s t hst => ?_
    by_cases hs : 0 ≤ s
    · by_cases ht : t < maxR
      · rw [hrank s t hst hs ht, hcount s t hst hs ht]
      · have z1 : ¬ 0 < barsThrough Q.barcode s t := fun hc => by
          obtain ⟨b, hb, -, h2⟩ := barsThrough_pos.1 hc
          exact ht (h2.trans_le (hwf b hb).2.2)
        have z2 : ¬ 0 < barsThrough B'.barcode s t := fun hc => by
          obtain ⟨b, hb, -, h2⟩ := barsThrough_pos.1 hc
          exact ht (h2.trans_le (hwf' b hb).2)
        omega
    · have z1 : ¬ 0 < barsThrough Q.barcode s t := fun hc => by
        obtain ⟨b, hb, h1, -⟩ := barsThrough_pos.1 hc
        exact hs ((hwf b hb).1.trans h1)
      have z2 : ¬ 0 < barsThrough B'.barcode s t := fun hc => by
        obtain ⟨b, hb, h1, -⟩ := barsThrough_pos.1 hc
        exact hs ((hpos' b hb).trans h1)
      omega
  · intro hn
    by_contra hne
    obtain ⟨b, hb⟩ := List.exists_mem_of_ne_nil _ hne
    have h1 := (barsThrough_pos (bars := B'.barcode) (s := b.1) (t := b.1)).2 ⟨b, hb, le_rfl, (hwf' b hb).1⟩
    have hR : b.1 < maxR := (hwf' b hb).1.trans_le (hwf' b hb).2
    rw [← hcount b.1 b.1 le_rfl (hpos' b hb) hR, hnone hn b.1 b.1 le_rfl (hpos' b hb) hR] at h1
    exact lt_irrefl _ h1

/-- A result with the ranks of the cloud has the bars of the ordinary computation. -/
theorem MVInput.barcodes_of_degree (h : MVInput pdist d argsort maxR maxDiv dim cloud p lo hi side) {e : ℕ}
    (he : e + 1 < maxDim) {o : Option (Basis K)}
    (hsome : ∀ Q, o = some Q → (∀ b ∈ Q.barcode, 0 ≤ b.1 ∧ b.1 < b.2 ∧ b.2 ≤ maxR) ∧
      ∀ s t (hst : s ≤ t), 0 ≤ s → t < maxR →
        barsThrough Q.barcode s t = Module.finrank (ZMod p) (LinearMap.range
          (vrMap (ZMod p) (cloudDist pdist cloud) cloud.length (e + 1) hst)))
    (hnone : o = none → ∀ s t (hst : s ≤ t), 0 ≤ s → t < maxR →
      Module.finrank (ZMod p) (LinearMap.range
        (vrMap (ZMod p) (cloudDist pdist cloud) cloud.length (e + 1) hst)) = 0) {L : LocalOut K}
    (hL : localPersistentHomology pdist argsort rnd cloud maxR maxDim p = .ok L) :
    ∃ B', L.ph.hom[e + 1]? = some B' ∧
      (∀ Q, o = some Q → Q.barcode.Perm B'.barcode) ∧ (o = none → B'.barcode = []) := by
  exact Permaviss.barcodes_of_degree h.prime h.dist h.sort h.radius he hsome hnone hL

/-- The homology computed when the columns from the third one are zero. -/
theorem CoveredEnv.thin_degree {out : MVOut K} (h : CoveredEnv pdist d argsort rnd maxR maxDim dim cloud p out.env) (hrun : out.Run rnd)
    (hthin : (∀ n deg, 2 ≤ n → out.env.firstBars deg n = []) ∧ ∀ D, out.env.nerveDiff[0]? = some D →
      out.env.CechInj (diam d fun v => cloud.getD v []) D) :
    ∃ (B0 : Basis K) (B : ℕ → Option (Basis K)),
      out.persistentHomology = B0 :: (List.range (maxDim - 1)).filterMap B ∧
      ∀ e, e + 1 < maxDim →
        (out.env.firstBars e 1 ≠ [] → ∀ k < out.env.spx 0, out.env.classes 0 e k = 0 → out.env.G 0 k e = []) →
        (∀ i j, i = e ∨ i = e + 1 → j = e ∨ j = e + 1 → ∀ n m, ∀ a ∈ out.env.firstBars i n,
          ∀ b ∈ out.env.firstBars j m, ∀ x, x = a.1 ∨ x = a.2 → ∀ y, y = b.1 ∨ y = b.2 →
            rnd x ≤ rnd y → x ≤ y) →
        (∀ Q, B e = some Q → (∀ b ∈ Q.barcode, 0 ≤ b.1 ∧ b.1 < b.2 ∧ b.2 ≤ maxR) ∧
          ∀ s t (hst : s ≤ t), 0 ≤ s → t < maxR →
            barsThrough Q.barcode s t = Module.finrank (ZMod p) (LinearMap.range
              (vrMap (ZMod p) (cloudDist pdist cloud) cloud.length (e + 1) hst))) ∧
        (B e = none → ∀ s t (hst : s ≤ t), 0 ≤ s → t < maxR →
          Module.finrank (ZMod p) (LinearMap.range
            (vrMap (ZMod p) (cloudDist pdist cloud) cloud.length (e + 1) hst)) = 0) := by
  obtain ⟨hS, hph⟩ := hrun
  obtain ⟨hOK, h1, h2, h3, h4⟩ := h.facts
  have h5 := h.pages
  have h6 := h.numbers
  subst h1
  obtain ⟨D, hC, hfaces⟩ := h.cover
  obtain ⟨hzb, hinj⟩ := hthin
  have hpos : 0 < out.env.spx 0 := by
    obtain ⟨k, hk, -⟩ := hC.cover [0] (by simp) (by simp) (by simp)
      (by simpa using List.length_pos_of_ne_nil h.points) (diam_lt_iff.2 ⟨hOK.maxR, by simp⟩)
    omega
  have hcols := hC.cols
  unfold persistentList at hph
  split at hph
  · cases hph
  rw [bind_ok] at hph
  obtain ⟨rest, hrest, hph⟩ := hph
  have hph := (Except.ok.inj hph).symm
  obtain ⟨l1, l2⟩ := mapM_ok_spec hrest
  rw [List.length_map, List.length_range] at l1
  refine ⟨(out.pages.hom (out.env.noPages - 1) 0 0).basis, fun i => rest.getD i none, ?_, ?_⟩
  · rw [hph, filterMap_getD, l1, h3]
  intro e he hskip hround
  have hi : e < rest.length := by omega
  have hd : diagonal rnd out.env out.pages out.env.spxNumber.length (e + 1) = .ok (rest.getD e none) := by
    have := l2 e (by simp; omega) hi
    rw [List.getElem_map, List.getElem_range] at this
    rw [List_getD_eq_getElem _ _ hi]
    exact this
  have hSS : allPages rnd out.env out.env.columns.length = .ok out.pages := by
    rw [h6, Nat.add_sub_cancel, ← h4] at hS
    exact hS
  have key := strip_diagonal hOK hC (hinj D hC.diff) (by omega) hpos (by omega) (by omega) hzb hSS
    (by omega) hround (gap_of_skip hOK (by omega) hcols (hfaces 0 hcols) hskip) hskip
    (by omega) hd
  exact h.degree_of_diagonal _ key

/-- The homology computed when the columns from the third one are zero. -/
theorem thin_degree (h : MVInput pdist d argsort maxR maxDiv dim cloud p lo hi side)
    (hw : ∀ i < dim, lo i < hi i) (ho : maxR ≤ overlap)
    (hcoord : ∀ a ∈ cloud, ∀ b ∈ cloud, ∀ i < dim, |a.getD i 0 - b.getD i 0| ≤ d a b)
    (out : MVOut K) (hrun : createMVss pdist argsort rnd maxR maxDim maxDiv overlap dim cloud p = .ok out)
    (hthin : (∀ n deg, 2 ≤ n → out.env.firstBars deg n = []) ∧ ∀ D, out.env.nerveDiff[0]? = some D →
      out.env.CechInj (diam d fun v => cloud.getD v []) D) :
    ∃ (B0 : Basis K) (B : ℕ → Option (Basis K)),
      out.persistentHomology = B0 :: (List.range (maxDim - 1)).filterMap B ∧
      ∀ e, e + 1 < maxDim →
        (out.env.firstBars e 1 ≠ [] → ∀ k < out.env.spx 0, out.env.classes 0 e k = 0 → out.env.G 0 k e = []) →
        (∀ i j, i = e ∨ i = e + 1 → j = e ∨ j = e + 1 → ∀ n m, ∀ a ∈ out.env.firstBars i n,
          ∀ b ∈ out.env.firstBars j m, ∀ x, x = a.1 ∨ x = a.2 → ∀ y, y = b.1 ∨ y = b.2 →
            rnd x ≤ rnd y → x ≤ y) →
        (∀ Q, B e = some Q → (∀ b ∈ Q.barcode, 0 ≤ b.1 ∧ b.1 < b.2 ∧ b.2 ≤ maxR) ∧
          ∀ s t (hst : s ≤ t), 0 ≤ s → t < maxR →
            barsThrough Q.barcode s t = Module.finrank (ZMod p) (LinearMap.range
              (vrMap (ZMod p) (cloudDist pdist cloud) cloud.length (e + 1) hst))) ∧
        (B e = none → ∀ s t (hst : s ≤ t), 0 ≤ s → t < maxR →
          Module.finrank (ZMod p) (LinearMap.range
            (vrMap (ZMod p) (cloudDist pdist cloud) cloud.length (e + 1) hst)) = 0) := by
  exact (h.coveredEnv hw ho hcoord (createMVss_parts hrun).1).thin_degree (createMVss_run hrun) hthin

/-- The barcodes computed when the columns from the third one are zero. -/
theorem thin_barcodes (h : MVInput pdist d argsort maxR maxDiv dim cloud p lo hi side)
    (hw : ∀ i < dim, lo i < hi i) (ho : maxR ≤ overlap)
    (hcoord : ∀ a ∈ cloud, ∀ b ∈ cloud, ∀ i < dim, |a.getD i 0 - b.getD i 0| ≤ d a b)
    (out : MVOut K) (hrun : createMVss pdist argsort rnd maxR maxDim maxDiv overlap dim cloud p = .ok out)
    (hthin : (∀ n deg, 2 ≤ n → out.env.firstBars deg n = []) ∧ ∀ D, out.env.nerveDiff[0]? = some D →
      out.env.CechInj (diam d fun v => cloud.getD v []) D) :
    ∃ (L : LocalOut K) (B0 : Basis K) (B : ℕ → Option (Basis K)),
      localPersistentHomology pdist argsort rnd cloud maxR maxDim p = .ok L ∧
      out.persistentHomology = B0 :: (List.range (maxDim - 1)).filterMap B ∧
      ∀ e, e + 1 < maxDim →
        (out.env.firstBars e 1 ≠ [] → ∀ k < out.env.spx 0, out.env.classes 0 e k = 0 → out.env.G 0 k e = []) →
        (∀ i j, i = e ∨ i = e + 1 → j = e ∨ j = e + 1 → ∀ n m, ∀ a ∈ out.env.firstBars i n,
          ∀ b ∈ out.env.firstBars j m, ∀ x, x = a.1 ∨ x = a.2 → ∀ y, y = b.1 ∨ y = b.2 →
            rnd x ≤ rnd y → x ≤ y) →
        ∃ B', L.ph.hom[e + 1]? = some B' ∧
          (∀ Q, B e = some Q → Q.barcode.Perm B'.barcode) ∧ (B e = none → B'.barcode = []) := by
  obtain ⟨B0, B, hB, hmain⟩ := thin_degree h hw ho hcoord out hrun hthin
  have e0 : cloud = (List.range cloud.length).map fun v => cloud.getD v [] := by
    apply List.ext_getElem (by simp)
    intro i i1 i2
    simp [List.getD_eq_getElem?_getD, i1]
  obtain ⟨L, hL, hP, hlen, hhl, -⟩ := local_piece h.prime h.dist h.sort rnd (fun v => cloud.getD v [])
    (pts := List.range cloud.length) List.pairwise_lt_range h.radius maxDim
  rw [← e0] at hL
  refine ⟨L, B0, B, hL, hB, fun e he hskip hround => ?_⟩
  obtain ⟨hsome, hnone⟩ := hmain e he hskip hround
  exact h.barcodes_of_degree he hsome hnone hL

/-- The barcode in degree one computed when the columns from the third one are zero. -/
theorem thin_one (h : MVInput pdist d argsort maxR maxDiv dim cloud p lo hi side)
    (hw : ∀ i < dim, lo i < hi i) (ho : maxR ≤ overlap)
    (hcoord : ∀ a ∈ cloud, ∀ b ∈ cloud, ∀ i < dim, |a.getD i 0 - b.getD i 0| ≤ d a b)
    (out : MVOut K) (hrun : createMVss pdist argsort rnd maxR maxDim maxDiv overlap dim cloud p = .ok out)
    (hthin : (∀ n deg, 2 ≤ n → out.env.firstBars deg n = []) ∧ ∀ D, out.env.nerveDiff[0]? = some D →
      out.env.CechInj (diam d fun v => cloud.getD v []) D)
    (hdim : 2 ≤ maxDim)
    (hround : ∀ i < 2, ∀ j < 2, ∀ n m, ∀ a ∈ out.env.firstBars i n, ∀ b ∈ out.env.firstBars j m,
      ∀ x, x = a.1 ∨ x = a.2 → ∀ y, y = b.1 ∨ y = b.2 → rnd x ≤ rnd y → x ≤ y) :
    ∃ L B', localPersistentHomology pdist argsort rnd cloud maxR maxDim p = .ok L ∧
      L.ph.hom[1]? = some B' ∧
      ((∃ Q, out.persistentHomology[1]? = some Q ∧ Q.barcode.Perm B'.barcode) ∨
        (out.persistentHomology.length < maxDim ∧ B'.barcode = [])) := by
  obtain ⟨L, B0, B, hL, hB, hmain⟩ := thin_barcodes h hw ho hcoord out hrun hthin
  obtain ⟨hE, -, -⟩ := createMVss_parts hrun
  obtain ⟨hOK, -, -, h3, h4⟩ := h.env hE
  obtain ⟨B', hB', h1, h2⟩ := hmain 0 (by omega)
    (fun _ k hk hc => skip_zero hOK (by omega) (by rw [h4]; positivity) hk hc)
    (fun i j hi hj => hround i (by omega) j (by omega))
  refine ⟨L, B', hL, hB', ?_⟩
  cases hb : B 0 with
  | some Q =>
    left
    refine ⟨Q, ?_, h1 Q hb⟩
    obtain ⟨m, rfl⟩ : ∃ m, maxDim = m + 2 := ⟨maxDim - 2, by omega⟩
    rw [hB, show m + 2 - 1 = m + 1 by omega, List.range_succ_eq_map, List.filterMap_cons, hb]
    rfl
  | none =>
    right
    refine ⟨?_, h2 hb⟩
    obtain ⟨m, rfl⟩ : ∃ m, maxDim = m + 2 := ⟨maxDim - 2, by omega⟩
    rw [hB, show m + 2 - 1 = m + 1 by omega, List.range_succ_eq_map, List.filterMap_cons, hb]
    have := List.length_filterMap_le B ((List.range m).map Nat.succ)
    rw [List.length_map, List.length_range] at this
    rw [List.length_cons]
    dsimp only
    omega

/-- The conditions hold for cubes in a line. -/
theorem MVInput.line (h : MVInput pdist d argsort maxR maxDiv dim cloud p lo hi side)
    (hw : ∀ i < dim, lo i < hi i) {i0 : ℕ} (hline : ∀ i < dim, i ≠ i0 → hi i - lo i ≤ side)
    (out : MVOut K) (hrun : createMVss pdist argsort rnd maxR maxDim maxDiv overlap dim cloud p = .ok out) :
    (∀ n deg, 2 ≤ n → out.env.firstBars deg n = []) ∧ ∀ D, out.env.nerveDiff[0]? = some D →
      out.env.CechInj (diam d fun v => cloud.getD v []) D := by
  obtain ⟨hE, -, -⟩ := createMVss_parts hrun
  obtain ⟨hOK, -⟩ := h.env hE
  obtain ⟨-, hz, hinj⟩ := createEnv_line h.prime h.dist h.sort h.radius h.points h.dim_pos h.div_pos
    h.box h.side_pos hw hline hE
  refine ⟨fun n deg hn => ?_, hinj⟩
  by_cases hc : n < out.env.columns.length
  · exact hOK.firstBars_empty hc (hz n hn)
  · unfold SSEnv.firstBars
    rw [List.getElem?_eq_none (by omega)]

/-- The conditions hold when no point lies in three cubes next to each other. -/
theorem MVInput.thin (h : MVInput pdist d argsort maxR maxDiv dim cloud p lo hi side)
    (hw : ∀ i < dim, lo i < hi i) (hthin : NoTriple dim lo hi side overlap cloud)
    (out : MVOut K) (hrun : createMVss pdist argsort rnd maxR maxDim maxDiv overlap dim cloud p = .ok out) :
    (∀ n deg, 2 ≤ n → out.env.firstBars deg n = []) ∧ ∀ D, out.env.nerveDiff[0]? = some D →
      out.env.CechInj (diam d fun v => cloud.getD v []) D :=
  (createEnv_thin h.prime h.dist h.sort h.radius h.points h.dim_pos h.div_pos h.box h.side_pos hw hthin
    (createMVss_parts hrun).1).2

/-- **C54**, for cubes in a line, in terms of homology.  All but one of the coordinates of the cloud fit in
one cube (`hline`).  If `create_MV_ss` returns, its persistent homology is a first entry followed by the
results for the degrees `1, …, max_dim - 1`, without those that are empty.  In a degree `e + 1` the result
counts homology classes: for `0 ≤ s ≤ t < max_r` the number of its bars that contain `s` and `t` is the
rank of the map from `H_{e+1}` of the Vietoris-Rips complex at `s` to the one at `t`, and all these ranks
are zero when the result is missing.

The distance must bound the differences of coordinates (as all the `p`-norms do), `overlap` must be at least
`max_r`, the cloud must not be contained in a coordinate hyperplane, if an intersection of two cubes has
homology in degree `e` then a cube without homology in degree `e` must not have simplices in degree `e` (see
C48) and rounding must not put two ends of bars of degree `e` or
`e + 1` of the pieces in the wrong order. -/
theorem C54_strip_degree_partial (h : MVInput pdist d argsort maxR maxDiv dim cloud p lo hi side)
    (hw : ∀ i < dim, lo i < hi i) {i0 : ℕ} (hline : ∀ i < dim, i ≠ i0 → hi i - lo i ≤ side)
    (ho : maxR ≤ overlap)
    (hcoord : ∀ a ∈ cloud, ∀ b ∈ cloud, ∀ i < dim, |a.getD i 0 - b.getD i 0| ≤ d a b)
    (out : MVOut K) (hrun : createMVss pdist argsort rnd maxR maxDim maxDiv overlap dim cloud p = .ok out) :
    ∃ (B0 : Basis K) (B : ℕ → Option (Basis K)),
      out.persistentHomology = B0 :: (List.range (maxDim - 1)).filterMap B ∧
      ∀ e, e + 1 < maxDim →
        (out.env.firstBars e 1 ≠ [] → ∀ k < out.env.spx 0, out.env.classes 0 e k = 0 → out.env.G 0 k e = []) →
        (∀ i j, i = e ∨ i = e + 1 → j = e ∨ j = e + 1 → ∀ n m, ∀ a ∈ out.env.firstBars i n,
          ∀ b ∈ out.env.firstBars j m, ∀ x, x = a.1 ∨ x = a.2 → ∀ y, y = b.1 ∨ y = b.2 →
            rnd x ≤ rnd y → x ≤ y) →
        (∀ Q, B e = some Q → (∀ b ∈ Q.barcode, 0 ≤ b.1 ∧ b.1 < b.2 ∧ b.2 ≤ maxR) ∧
          ∀ s t (hst : s ≤ t), 0 ≤ s → t < maxR →
            barsThrough Q.barcode s t = Module.finrank (ZMod p) (LinearMap.range
              (vrMap (ZMod p) (cloudDist pdist cloud) cloud.length (e + 1) hst))) ∧
        (B e = none → ∀ s t (hst : s ≤ t), 0 ≤ s → t < maxR →
          Module.finrank (ZMod p) (LinearMap.range
            (vrMap (ZMod p) (cloudDist pdist cloud) cloud.length (e + 1) hst)) = 0) :=
  thin_degree h hw ho hcoord out hrun (h.line hw hline out hrun)

/-- **C54**, for cubes in a line: every barcode returned is the barcode of the ordinary computation on the
whole cloud, up to the order of the bars, and the barcodes which are left out are empty.  The hypotheses are
those of `C54_strip_degree_partial`. -/
theorem C54_strip_barcodes_partial (h : MVInput pdist d argsort maxR maxDiv dim cloud p lo hi side)
    (hw : ∀ i < dim, lo i < hi i) {i0 : ℕ} (hline : ∀ i < dim, i ≠ i0 → hi i - lo i ≤ side)
    (ho : maxR ≤ overlap)
    (hcoord : ∀ a ∈ cloud, ∀ b ∈ cloud, ∀ i < dim, |a.getD i 0 - b.getD i 0| ≤ d a b)
    (out : MVOut K) (hrun : createMVss pdist argsort rnd maxR maxDim maxDiv overlap dim cloud p = .ok out) :
    ∃ (L : LocalOut K) (B0 : Basis K) (B : ℕ → Option (Basis K)),
      localPersistentHomology pdist argsort rnd cloud maxR maxDim p = .ok L ∧
      out.persistentHomology = B0 :: (List.range (maxDim - 1)).filterMap B ∧
      ∀ e, e + 1 < maxDim →
        (out.env.firstBars e 1 ≠ [] → ∀ k < out.env.spx 0, out.env.classes 0 e k = 0 → out.env.G 0 k e = []) →
        (∀ i j, i = e ∨ i = e + 1 → j = e ∨ j = e + 1 → ∀ n m, ∀ a ∈ out.env.firstBars i n,
          ∀ b ∈ out.env.firstBars j m, ∀ x, x = a.1 ∨ x = a.2 → ∀ y, y = b.1 ∨ y = b.2 →
            rnd x ≤ rnd y → x ≤ y) →
        ∃ B', L.ph.hom[e + 1]? = some B' ∧
          (∀ Q, B e = some Q → Q.barcode.Perm B'.barcode) ∧ (B e = none → B'.barcode = []) :=
  thin_barcodes h hw ho hcoord out hrun (h.line hw hline out hrun)

/-- **C54**, degree one, for cubes in a line: if `create_MV_ss` returns and `max_dim ≥ 2`, the barcode in
degree one is that of the ordinary computation on the whole cloud, up to the order of the bars; an entry of
the result may be missing only if that barcode is empty. -/
theorem C54_strip_partial (h : MVInput pdist d argsort maxR maxDiv dim cloud p lo hi side)
    (hw : ∀ i < dim, lo i < hi i) {i0 : ℕ} (hline : ∀ i < dim, i ≠ i0 → hi i - lo i ≤ side)
    (ho : maxR ≤ overlap)
    (hcoord : ∀ a ∈ cloud, ∀ b ∈ cloud, ∀ i < dim, |a.getD i 0 - b.getD i 0| ≤ d a b)
    (out : MVOut K) (hrun : createMVss pdist argsort rnd maxR maxDim maxDiv overlap dim cloud p = .ok out)
    (hdim : 2 ≤ maxDim)
    (hround : ∀ i < 2, ∀ j < 2, ∀ n m, ∀ a ∈ out.env.firstBars i n, ∀ b ∈ out.env.firstBars j m,
      ∀ x, x = a.1 ∨ x = a.2 → ∀ y, y = b.1 ∨ y = b.2 → rnd x ≤ rnd y → x ≤ y) :
    ∃ L B', localPersistentHomology pdist argsort rnd cloud maxR maxDim p = .ok L ∧
      L.ph.hom[1]? = some B' ∧
      ((∃ Q, out.persistentHomology[1]? = some Q ∧ Q.barcode.Perm B'.barcode) ∨
        (out.persistentHomology.length < maxDim ∧ B'.barcode = [])) :=
  thin_one h hw ho hcoord out hrun (h.line hw hline out hrun) hdim hround

/-- **C54**, when no point lies in three cubes next to each other (`hthin`), in terms of homology.  There is
no condition on the number of directions in which the cloud is cut into cubes: a cloud around an empty centre
covered by four squares is allowed.  The conclusion and the other hypotheses are those of
`C54_strip_degree_partial`. -/
theorem C54_thin_degree_partial (h : MVInput pdist d argsort maxR maxDiv dim cloud p lo hi side)
    (hw : ∀ i < dim, lo i < hi i) (hthin : NoTriple dim lo hi side overlap cloud)
    (ho : maxR ≤ overlap)
    (hcoord : ∀ a ∈ cloud, ∀ b ∈ cloud, ∀ i < dim, |a.getD i 0 - b.getD i 0| ≤ d a b)
    (out : MVOut K) (hrun : createMVss pdist argsort rnd maxR maxDim maxDiv overlap dim cloud p = .ok out) :
    ∃ (B0 : Basis K) (B : ℕ → Option (Basis K)),
      out.persistentHomology = B0 :: (List.range (maxDim - 1)).filterMap B ∧
      ∀ e, e + 1 < maxDim →
        (out.env.firstBars e 1 ≠ [] → ∀ k < out.env.spx 0, out.env.classes 0 e k = 0 → out.env.G 0 k e = []) →
        (∀ i j, i = e ∨ i = e + 1 → j = e ∨ j = e + 1 → ∀ n m, ∀ a ∈ out.env.firstBars i n,
          ∀ b ∈ out.env.firstBars j m, ∀ x, x = a.1 ∨ x = a.2 → ∀ y, y = b.1 ∨ y = b.2 →
            rnd x ≤ rnd y → x ≤ y) →
        (∀ Q, B e = some Q → (∀ b ∈ Q.barcode, 0 ≤ b.1 ∧ b.1 < b.2 ∧ b.2 ≤ maxR) ∧
          ∀ s t (hst : s ≤ t), 0 ≤ s → t < maxR →
            barsThrough Q.barcode s t = Module.finrank (ZMod p) (LinearMap.range
              (vrMap (ZMod p) (cloudDist pdist cloud) cloud.length (e + 1) hst))) ∧
        (B e = none → ∀ s t (hst : s ≤ t), 0 ≤ s → t < maxR →
          Module.finrank (ZMod p) (LinearMap.range
            (vrMap (ZMod p) (cloudDist pdist cloud) cloud.length (e + 1) hst)) = 0) :=
  thin_degree h hw ho hcoord out hrun (h.thin hw hthin out hrun)

/-- **C54**, when no point lies in three cubes next to each other: every barcode returned is the barcode of
the ordinary computation on the whole cloud, up to the order of the bars, and the barcodes which are left out
are empty.  The other hypotheses are those of `C54_strip_degree_partial`. -/
theorem C54_thin_barcodes_partial (h : MVInput pdist d argsort maxR maxDiv dim cloud p lo hi side)
    (hw : ∀ i < dim, lo i < hi i) (hthin : NoTriple dim lo hi side overlap cloud)
    (ho : maxR ≤ overlap)
    (hcoord : ∀ a ∈ cloud, ∀ b ∈ cloud, ∀ i < dim, |a.getD i 0 - b.getD i 0| ≤ d a b)
    (out : MVOut K) (hrun : createMVss pdist argsort rnd maxR maxDim maxDiv overlap dim cloud p = .ok out) :
    ∃ (L : LocalOut K) (B0 : Basis K) (B : ℕ → Option (Basis K)),
      localPersistentHomology pdist argsort rnd cloud maxR maxDim p = .ok L ∧
      out.persistentHomology = B0 :: (List.range (maxDim - 1)).filterMap B ∧
      ∀ e, e + 1 < maxDim →
        (out.env.firstBars e 1 ≠ [] → ∀ k < out.env.spx 0, out.env.classes 0 e k = 0 → out.env.G 0 k e = []) →
        (∀ i j, i = e ∨ i = e + 1 → j = e ∨ j = e + 1 → ∀ n m, ∀ a ∈ out.env.firstBars i n,
          ∀ b ∈ out.env.firstBars j m, ∀ x, x = a.1 ∨ x = a.2 → ∀ y, y = b.1 ∨ y = b.2 →
            rnd x ≤ rnd y → x ≤ y) →
        ∃ B', L.ph.hom[e + 1]? = some B' ∧
          (∀ Q, B e = some Q → Q.barcode.Perm B'.barcode) ∧ (B e = none → B'.barcode = []) :=
  thin_barcodes h hw ho hcoord out hrun (h.thin hw hthin out hrun)

/-- **C54**, degree one, when no point lies in three cubes next to each other: if `create_MV_ss` returns and
`max_dim ≥ 2`, the barcode in degree one is that of the ordinary computation on the whole cloud, up to the
order of the bars; an entry of the result may be missing only if that barcode is empty. -/
theorem C54_thin_partial (h : MVInput pdist d argsort maxR maxDiv dim cloud p lo hi side)
    (hw : ∀ i < dim, lo i < hi i) (hthin : NoTriple dim lo hi side overlap cloud)
    (ho : maxR ≤ overlap)
    (hcoord : ∀ a ∈ cloud, ∀ b ∈ cloud, ∀ i < dim, |a.getD i 0 - b.getD i 0| ≤ d a b)
    (out : MVOut K) (hrun : createMVss pdist argsort rnd maxR maxDim maxDiv overlap dim cloud p = .ok out)
    (hdim : 2 ≤ maxDim)
    (hround : ∀ i < 2, ∀ j < 2, ∀ n m, ∀ a ∈ out.env.firstBars i n, ∀ b ∈ out.env.firstBars j m,
      ∀ x, x = a.1 ∨ x = a.2 → ∀ y, y = b.1 ∨ y = b.2 → rnd x ≤ rnd y → x ≤ y) :
    ∃ L B', localPersistentHomology pdist argsort rnd cloud maxR maxDim p = .ok L ∧
      L.ph.hom[1]? = some B' ∧
      ((∃ Q, out.persistentHomology[1]? = some Q ∧ Q.barcode.Perm B'.barcode) ∨
        (out.persistentHomology.length < maxDim ∧ B'.barcode = [])) :=
  thin_one h hw ho hcoord out hrun (h.thin hw hthin out hrun) hdim hround

end

/-! ### A ladder covered by two squares -/

/-- Ten points: `(±8, ±2)`, `(±4, ±5/2)` and `(0, ±5/2)`. -/
def ladderCloud : List (List ℚ) :=
  [[-8, 2], [-8, -2], [-4, 5/2], [-4, -5/2], [0, 5/2], [0, -5/2], [4, 5/2], [4, -5/2], [8, 2], [8, -2]]

/-- The sum of the differences of coordinates. -/
def ladderD (a b : List ℚ) : ℚ := |a.getD 0 0 - b.getD 0 0| + |a.getD 1 0 - b.getD 1 0|

def ladderDist (c : List (List ℚ)) : List (List ℚ) := c.map fun a => c.map (ladderD a)

def ladderRun : Except PyErr (MVOut ℚ) :=
  createMVss ladderDist stableArgsort id 7 2 2 7 2 ladderCloud 5

theorem ladder_input : MVInput ladderDist ladderD stableArgsort 7 2 2 ladderCloud 5
    (fun i => if i = 0 then -8 else -5/2) (fun i => if i = 0 then 8 else 5/2) 8 where
  prime := by decide
  dist := ⟨fun c => rfl, fun a b => by unfold ladderD; positivity⟩
  sort := stableArgsort_isArgsort
  radius := by norm_num
  points := by simp [ladderCloud]
  dim_pos := by norm_num
  div_pos := by norm_num
  box := by
    refine ⟨?_, ?_, ⟨⟨0, by omega, by norm_num⟩, ?_⟩⟩
    · intro d hd
      have : d = 0 ∨ d = 1 := by omega
      rcases this with rfl | rfl
      · refine ⟨⟨[-8, 2], by simp [ladderCloud], by simp⟩, ?_⟩
        rintro x ⟨pt, hpt, rfl⟩
        simp only [ladderCloud, List.mem_cons, List.not_mem_nil, or_false] at hpt
        rcases hpt with rfl | rfl | rfl | rfl | rfl | rfl | rfl | rfl | rfl | rfl <;> norm_num
      · refine ⟨⟨[-4, -5/2], by simp [ladderCloud], by simp⟩, ?_⟩
        rintro x ⟨pt, hpt, rfl⟩
        simp only [ladderCloud, List.mem_cons, List.not_mem_nil, or_false] at hpt
        rcases hpt with rfl | rfl | rfl | rfl | rfl | rfl | rfl | rfl | rfl | rfl <;> norm_num
    · intro d hd
      have : d = 0 ∨ d = 1 := by omega
      rcases this with rfl | rfl
      · refine ⟨⟨[8, 2], by simp [ladderCloud], by simp⟩, ?_⟩
        rintro x ⟨pt, hpt, rfl⟩
        simp only [ladderCloud, List.mem_cons, List.not_mem_nil, or_false] at hpt
        rcases hpt with rfl | rfl | rfl | rfl | rfl | rfl | rfl | rfl | rfl | rfl <;> norm_num
      · refine ⟨⟨[-4, 5/2], by simp [ladderCloud], by simp⟩, ?_⟩
        rintro x ⟨pt, hpt, rfl⟩
        simp only [ladderCloud, List.mem_cons, List.not_mem_nil, or_false] at hpt
        rcases hpt with rfl | rfl | rfl | rfl | rfl | rfl | rfl | rfl | rfl | rfl <;> norm_num
    · rintro x ⟨d, hd, rfl⟩
      have : d = 0 ∨ d = 1 := by omega
      rcases this with rfl | rfl <;> norm_num
  side_pos := by norm_num

/-- The hypotheses are met by the ladder, whose extension problem is not trivial: the cycle which goes around
the ladder has the bar `(9/2, 5)` on the second page and becomes at `5` a difference of cycles of the squares;
in the result its bar is `(9/2, 7)`. -/
example : MVInput ladderDist ladderD stableArgsort 7 2 2 ladderCloud 5
      (fun i => if i = 0 then -8 else -5/2) (fun i => if i = 0 then 8 else 5/2) 8 ∧
    (∀ i < 2, (if i = 0 then -8 else -5/2 : ℚ) < (if i = 0 then 8 else 5/2)) ∧
    (∀ i < 2, i ≠ 0 → (if i = 0 then 8 else 5/2 : ℚ) - (if i = 0 then -8 else -5/2) ≤ 8) ∧
    (∀ a ∈ ladderCloud, ∀ b ∈ ladderCloud, ∀ i < 2, |a.getD i 0 - b.getD i 0| ≤ ladderD a b) ∧
    (∀ x y : ℚ, id x ≤ id y → x ≤ y) ∧
    (ladderRun.map fun o => o.persistentHomology.map fun B => B.barcode) =
      .ok [[(0, 7), (0, 9/2), (0, 9/2), (0, 9/2), (0, 4), (0, 4), (0, 4), (0, 4), (0, 4), (0, 4)],
        [(9/2, 7), (5, 7), (5, 7), (5, 7)]] ∧
    (ladderRun.map fun o => [(o.pages.hom 1 0 1).basis.barcode, (o.pages.hom 1 1 0).basis.barcode]) =
      .ok [[(5, 7), (5, 7), (5, 7), (5, 7)], [(9/2, 5)]] ∧
    (ladderRun.bind fun o => (extension id o.env o.pages 1 0).map fun l => l.map fun M => M.cols) =
      .ok [[[0]], [[0, 1, 4, 0]]] := by
  refine ⟨ladder_input, ?_, ?_, ?_, fun x y h => h, ?_, ?_, ?_⟩
  · intro i _; split <;> norm_num
  · intro i _ hi; rw [if_neg hi, if_neg hi]; norm_num
  · decide +kernel
  · decide +kernel
  · decide +kernel
  · decide +kernel

end Permaviss
