import Verif.Lemmas.PlaneDiag
import Verif.Lemmas.NerveRows
import Verif.Props.Strip
import Verif.Props.Total

/-!
# The barcode in degree one computed with any cover (C54)
-/

namespace Permaviss

open Finset

section

variable {K : Type} [Field K] [LinearOrder K] [FloorRing K] [IsStrictOrderedRing K]
  {pdist : List (List K) → List (List K)} {d : List K → List K → K} {argsort : List K → List Nat}
  {rnd : K → K} {maxR : K} {maxDim maxDiv dim : ℕ} {overlap : K} {cloud : List (List K)} {p : ℕ}
  {lo hi : ℕ → K} {side : K}

/-- At radius zero cycles of edges are boundaries, because points at distance zero from the same point are at
distance zero from each other. -/
theorem zero_cycles (hd : ∀ a b, 0 ≤ d a b)
    (hzero : ∀ a ∈ cloud, ∀ b ∈ cloud, ∀ c ∈ cloud, d a c = 0 → d b c = 0 → d a b = 0) (E : SSEnv K) :
    E.ZG (diam d fun v => cloud.getD v []) cloud.length 1 0 ≤
      E.BG (diam d fun v => cloud.getD v []) cloud.length 1 0 := by
  classical
  set dist : ℕ → ℕ → K := fun u v => if u < cloud.length ∧ v < cloud.length then
    d (cloud.getD u []) (cloud.getD v []) else 0 with hdist
  have e : ∀ e, vrChains (ZMod E.p) dist cloud.length e 0 =
      E.chG (diam d fun v => cloud.getD v []) cloud.length e 0 := by
    intro e
    refine vrChains_eq ?_ le_rfl
    intro u hu v hv
    rw [hdist]
    exact if_pos ⟨hv, hu⟩
  unfold SSEnv.ZG SSEnv.BG
  rw [← e, ← e]
  refine vrCycles_le_of_acyc dist (n := cloud.length) (e := 1) le_rfl (t := 0) ?_
  refine chordal_acyclic (fun v u w hvu huw h1 h2 => ?_) _ _ 0 le_rfl
  rw [hdist] at h1 h2 ⊢
  dsimp only at h1 h2 ⊢
  split
  · next hc =>
    rw [if_pos ⟨hc.2, by omega⟩] at h1
    rw [if_pos ⟨hc.1, by omega⟩] at h2
    have hmem : ∀ i < cloud.length, cloud.getD i [] ∈ cloud := fun i hi => by
      rw [List_getD_eq_getElem _ _ hi]; exact List.getElem_mem hi
    exact (hzero _ (hmem w hc.1) _ (hmem u hc.2) _ (hmem v (by omega)) (le_antisymm h2 (hd _ _))
      (le_antisymm h1 (hd _ _))).le
  · exact le_rfl

/-- Degree one, for any cover; see `C54_plane_degree_partial`. -/
theorem CoveredEnv.plane_degree {out : MVOut K} (h : CoveredEnv pdist d argsort rnd maxR maxDim dim cloud p out.env)
    (hzero : ∀ a ∈ cloud, ∀ b ∈ cloud, ∀ c ∈ cloud, d a c = 0 → d b c = 0 → d a b = 0)
    (hround : ∀ x y, BarEnd d maxR cloud x → BarEnd d maxR cloud y → rnd x ≤ rnd y → x ≤ y)
    (hrun : out.Run rnd)
    (hdim : 2 ≤ maxDim) :
    ∃ (B0 : Basis K) (B : ℕ → Option (Basis K)),
      out.persistentHomology = B0 :: (List.range (maxDim - 1)).filterMap B ∧
        (∀ Q, B 0 = some Q → (∀ b ∈ Q.barcode, 0 ≤ b.1 ∧ b.1 < b.2 ∧ b.2 ≤ maxR) ∧
          ∀ s t (hst : s ≤ t), 0 ≤ s → t < maxR →
            barsThrough Q.barcode s t = Module.finrank (ZMod p) (LinearMap.range
              (vrMap (ZMod p) (cloudDist pdist cloud) cloud.length 1 hst))) ∧
        (B 0 = none → ∀ s t (hst : s ≤ t), 0 ≤ s → t < maxR →
          Module.finrank (ZMod p) (LinearMap.range
            (vrMap (ZMod p) (cloudDist pdist cloud) cloud.length 1 hst)) = 0) := by
  obtain ⟨hS, hph⟩ := id hrun
  obtain ⟨hOK, h1, h2, h3, h4⟩ := h.facts
  have h5 := h.pages
  have h6 := h.numbers
  obtain ⟨N, S, adj, H⟩ := h.nerve
  have hrd : ∀ i j, i < 2 → j < 2 → ∀ n m, ∀ a ∈ out.env.firstBars i n,
      ∀ b ∈ out.env.firstBars j m, ∀ x, x = a.1 ∨ x = a.2 → ∀ y, y = b.1 ∨ y = b.2 → rnd x ≤ rnd y → x ≤ y := by
    intro i j hi hj n m a ha b hb x hx y hy
    have hA := h.bar_ends i (by omega) n a ha
    have hB := h.bar_ends j (by omega) m b hb
    refine hround x y ?_ ?_
    · rcases hx with rfl | rfl
      · exact hA.1
      · exact hA.2
    · rcases hy with rfl | rfl
      · exact hB.1
      · exact hB.2
  by_cases hd1 : dim = 1
  · subst hd1
    obtain ⟨B0, B, hB, hmain⟩ := h.thin_degree hrun ⟨fun n deg hn => by
      unfold SSEnv.firstBars
      rw [List.getElem?_eq_none (by omega)], fun D hD => H.cechInj hOK (by omega) D hD⟩
    obtain ⟨q1, q2⟩ := hmain 0 (by omega)
      (fun _ k hk hc => skip_zero hOK (by omega) (by rw [h4]; positivity) hk hc)
      (fun i j hi hj => hrd i j (by omega) (by omega))
    exact ⟨B0, B, hB, q1, q2⟩
  have hdpos := h.dim_pos
  have hpow : 4 ≤ 2 ^ dim := by
    calc 4 = 2 ^ 2 := rfl
      _ ≤ 2 ^ dim := Nat.pow_le_pow_right (by omega) (by omega)
  obtain ⟨D, hC, hfaces⟩ := h.cover
  have hpos : 0 < out.env.spx 0 := by
    obtain ⟨k, hk, -⟩ := hC.cover [0] (by simp) (by simp) (by simp)
      (by simpa using List.length_pos_of_ne_nil h.points) (diam_lt_iff.2 ⟨hOK.maxR, by simp⟩)
    omega
  unfold persistentList at hph
  split at hph
  · cases hph
  rw [bind_ok] at hph
  obtain ⟨rest, hrest, hph⟩ := hph
  have hph := (Except.ok.inj hph).symm
  obtain ⟨l1, l2⟩ := mapM_ok_spec hrest
  rw [List.length_map, List.length_range] at l1
  refine ⟨(out.pages.hom (out.env.noPages - 1) 0 0).basis, fun i => rest.getD i none, ?_, ?_⟩
  · rw [hph, filterMap_getD, l1, h3]
  have hi : 0 < rest.length := by omega
  have hd : diagonal rnd out.env out.pages out.env.spxNumber.length 1 = .ok (rest.getD 0 none) := by
    have := l2 0 (by simp; omega) hi
    rw [List.getElem_map, List.getElem_range] at this
    rw [List_getD_eq_getElem _ _ hi]
    exact this
  have hSS : allPages rnd out.env out.env.columns.length = .ok out.pages := by
    rw [h6, Nat.add_sub_cancel, ← h4] at hS
    exact hS
  obtain ⟨D', hD'⟩ := hOK.hasDiff 1 (by omega)
  have key := plane_diagonal hOK hC
    (fun deg hdeg t c hc hz => cech_exact_succ hOK H (n := 0) (by omega) hdeg hC.diff hD' hc hz)
    (by omega) hpos (by omega) (by omega) (by omega) hD' (by rw [h2]; exact h.radius)
    (fun n h0 => by
      by_cases hn : n + 1 < out.env.columns.length
      · exact row_zero_gap hOK (by omega) hn (hfaces n hn) h0
      · unfold SSEnv.firstBars
        rw [List.getElem?_eq_none (by omega)])
    (fun n hn a ha => by
      obtain ⟨l, hl, s, hs, e⟩ := hOK.birth_radius hn (by omega) ha
      obtain ⟨o, pts, -, hpts, -⟩ := hOK.piece n hn l hl
      obtain ⟨m1, -⟩ := (hOK.mem n hn l hl pts hpts 0 (by omega) s).1 hs
      rw [e]
      obtain ⟨v, rfl⟩ := List.length_eq_one_iff.1 m1
      simp [diam])
    (zero_cycles h.dist.nonneg hzero out.env)
    hrd hSS (by omega) hd
  exact h.degree_of_diagonal _ key

/-- **C54**, degree one, for any cover, in terms of homology.  Nothing is asked of the number of cubes that
contain a point.  If `create_MV_ss` returns and `max_dim ≥ 2`, its persistent homology is a first entry
followed by the results for the degrees `1, …, max_dim - 1`, without those that are empty.  The result of
degree one counts homology classes: for `0 ≤ s ≤ t < max_r` the number of its bars that contain `s` and `t` is
the rank of the map from `H_1` of the Vietoris-Rips complex at `s` to the one at `t`, and all these ranks are
zero when the result is missing.

The distance must bound the differences of coordinates (as all the `p`-norms do), points at
distance zero from the same point must be at distance zero from each other (as for every metric; points may be
repeated), `overlap` must be at least `max_r`, the cloud must not be contained in a
coordinate hyperplane, and rounding must not put two distances in the wrong order. -/
theorem C54_plane_degree_partial (h : MVInput pdist d argsort maxR maxDiv dim cloud p lo hi side)
    (hw : ∀ i < dim, lo i < hi i) (ho : maxR ≤ overlap)
    (hcoord : ∀ a ∈ cloud, ∀ b ∈ cloud, ∀ i < dim, |a.getD i 0 - b.getD i 0| ≤ d a b)
    (hzero : ∀ a ∈ cloud, ∀ b ∈ cloud, ∀ c ∈ cloud, d a c = 0 → d b c = 0 → d a b = 0)
    (hround : ∀ x y, BarEnd d maxR cloud x → BarEnd d maxR cloud y → rnd x ≤ rnd y → x ≤ y)
    (out : MVOut K) (hrun : createMVss pdist argsort rnd maxR maxDim maxDiv overlap dim cloud p = .ok out)
    (hdim : 2 ≤ maxDim) :
    ∃ (B0 : Basis K) (B : ℕ → Option (Basis K)),
      out.persistentHomology = B0 :: (List.range (maxDim - 1)).filterMap B ∧
        (∀ Q, B 0 = some Q → (∀ b ∈ Q.barcode, 0 ≤ b.1 ∧ b.1 < b.2 ∧ b.2 ≤ maxR) ∧
          ∀ s t (hst : s ≤ t), 0 ≤ s → t < maxR →
            barsThrough Q.barcode s t = Module.finrank (ZMod p) (LinearMap.range
              (vrMap (ZMod p) (cloudDist pdist cloud) cloud.length 1 hst))) ∧
        (B 0 = none → ∀ s t (hst : s ≤ t), 0 ≤ s → t < maxR →
          Module.finrank (ZMod p) (LinearMap.range
            (vrMap (ZMod p) (cloudDist pdist cloud) cloud.length 1 hst)) = 0) := by
  exact (h.coveredEnv hw ho hcoord (createMVss_parts hrun).1).plane_degree hzero hround (createMVss_run hrun) hdim

/-- Degree one, for any cover; see `C54_plane_partial`. -/
theorem CoveredEnv.plane {out : MVOut K} (h : CoveredEnv pdist d argsort rnd maxR maxDim dim cloud p out.env)
    (hzero : ∀ a ∈ cloud, ∀ b ∈ cloud, ∀ c ∈ cloud, d a c = 0 → d b c = 0 → d a b = 0)
    (hround : ∀ x y, BarEnd d maxR cloud x → BarEnd d maxR cloud y → rnd x ≤ rnd y → x ≤ y)
    (hrun : out.Run rnd)
    (hdim : 2 ≤ maxDim) :
    ∃ L B', localPersistentHomology pdist argsort rnd cloud maxR maxDim p = .ok L ∧
      L.ph.hom[1]? = some B' ∧
      ((∃ Q, out.persistentHomology[1]? = some Q ∧ Q.barcode.Perm B'.barcode) ∨
        (out.persistentHomology.length < maxDim ∧ B'.barcode = [])) := by
  obtain ⟨B0, B, hB, q1, q2⟩ := h.plane_degree hzero hround hrun hdim
  have e0 : cloud = (List.range cloud.length).map fun v => cloud.getD v [] := by
    apply List.ext_getElem (by simp)
    intro i i1 i2
    simp [List.getD_eq_getElem?_getD, i1]
  obtain ⟨L, hL, -⟩ := local_piece h.prime h.dist h.sort rnd (fun v => cloud.getD v [])
    (pts := List.range cloud.length) List.pairwise_lt_range h.radius maxDim
  rw [← e0] at hL
  obtain ⟨B', hB', h1, h2⟩ := barcodes_of_degree h.prime h.dist h.sort h.radius (e := 0) (by omega) q1 q2 hL
  refine ⟨L, B', hL, hB', ?_⟩
  cases hb : B 0 with
  | some Q =>
    left
    refine ⟨Q, ?_, h1 Q hb⟩
    obtain ⟨m, rfl⟩ : ∃ m, maxDim = m + 2 := ⟨maxDim - 2, by omega⟩
    rw [hB, show m + 2 - 1 = m + 1 by omega, List.range_succ_eq_map, List.filterMap_cons, hb]
    rfl
  | none =>
    right
    refine ⟨?_, h2 hb⟩
    obtain ⟨m, rfl⟩ : ∃ m, maxDim = m + 2 := ⟨maxDim - 2, by omega⟩
    rw [hB, show m + 2 - 1 = m + 1 by omega, List.range_succ_eq_map, List.filterMap_cons, hb]
    have := List.length_filterMap_le B ((List.range m).map Nat.succ)
    rw [List.length_map, List.length_range] at this
    rw [List.length_cons]
    dsimp only
    omega

/-- **C54**, degree one, for any cover: if `create_MV_ss` returns and `max_dim ≥ 2`, the barcode in degree one
is that of the ordinary computation on the whole cloud, up to the order of the bars; an entry of the result
may be missing only if that barcode is empty.  The hypotheses are those of `C54_plane_degree_partial`. -/
theorem C54_plane_partial (h : MVInput pdist d argsort maxR maxDiv dim cloud p lo hi side)
    (hw : ∀ i < dim, lo i < hi i) (ho : maxR ≤ overlap)
    (hcoord : ∀ a ∈ cloud, ∀ b ∈ cloud, ∀ i < dim, |a.getD i 0 - b.getD i 0| ≤ d a b)
    (hzero : ∀ a ∈ cloud, ∀ b ∈ cloud, ∀ c ∈ cloud, d a c = 0 → d b c = 0 → d a b = 0)
    (hround : ∀ x y, BarEnd d maxR cloud x → BarEnd d maxR cloud y → rnd x ≤ rnd y → x ≤ y)
    (out : MVOut K) (hrun : createMVss pdist argsort rnd maxR maxDim maxDiv overlap dim cloud p = .ok out)
    (hdim : 2 ≤ maxDim) :
    ∃ L B', localPersistentHomology pdist argsort rnd cloud maxR maxDim p = .ok L ∧
      L.ph.hom[1]? = some B' ∧
      ((∃ Q, out.persistentHomology[1]? = some Q ∧ Q.barcode.Perm B'.barcode) ∨
        (out.persistentHomology.length < maxDim ∧ B'.barcode = [])) := by
  exact (h.coveredEnv hw ho hcoord (createMVss_parts hrun).1).plane hzero hround (createMVss_run hrun) hdim

/-- The barcode of an entry of a result; a missing entry stands for an empty barcode. -/
def entryBars (l : List (Basis K)) (i : ℕ) : List (K × K) := (l[i]?.map Basis.barcode).getD []

/-- The case `max_dim = 2`, for any cover; see `C75_two_degrees`. -/
theorem CoveredEnv.two_degrees {out : MVOut K} (h : CoveredEnv pdist d argsort rnd maxR 2 dim cloud p out.env)
    (hzero : ∀ a ∈ cloud, ∀ b ∈ cloud, ∀ c ∈ cloud, d a c = 0 → d b c = 0 → d a b = 0)
    (hround : ∀ x y, BarEnd d maxR cloud x → BarEnd d maxR cloud y → rnd x ≤ rnd y → x ≤ y)
    (hrun : out.Run rnd) :
    out.persistentHomology.length ≤ 2 ∧
      ∃ L, localPersistentHomology pdist argsort rnd cloud maxR 2 p = .ok L ∧
        ∀ i < 2, ∃ B, L.ph.hom[i]? = some B ∧ (entryBars out.persistentHomology i).Perm B.barcode := by
  obtain ⟨B0, L, B0', r1, r2, r3, r4⟩ := h.components_input hround hrun
  obtain ⟨L', B1', s1, s2, s3⟩ := h.plane hzero hround hrun le_rfl
  obtain ⟨Bz, B, hB, -⟩ := h.plane_degree hzero hround hrun le_rfl
  rw [r2] at s1
  obtain rfl := Except.ok.inj s1
  have hlen : out.persistentHomology.length ≤ 2 := by
    rw [hB, List.length_cons]
    have := List.length_filterMap_le B (List.range (2 - 1))
    rw [List.length_range] at this
    omega
  refine ⟨hlen, L, r2, fun i hi => ?_⟩
  have : i = 0 ∨ i = 1 := by omega
  rcases this with rfl | rfl
  · refine ⟨B0', r3, ?_⟩
    unfold entryBars
    rw [r1]; exact r4
  · refine ⟨B1', s2, ?_⟩
    unfold entryBars
    rcases s3 with ⟨Q, hQ, hp⟩ | ⟨hl, h0⟩
    · rw [hQ]; exact hp
    · rw [List.getElem?_eq_none (by omega), h0]; exact List.Perm.refl _

/-- **C75**: with `max_dim = 2`, whenever `create_MV_ss` returns, its result has the barcodes of the ordinary
computation in both degrees, up to the order of the bars; a missing second entry stands for an empty
barcode.  The cover is arbitrary. -/
theorem C75_two_degrees (h : MVInput pdist d argsort maxR maxDiv dim cloud p lo hi side)
    (hw : ∀ i < dim, lo i < hi i) (ho : maxR ≤ overlap)
    (hcoord : ∀ a ∈ cloud, ∀ b ∈ cloud, ∀ i < dim, |a.getD i 0 - b.getD i 0| ≤ d a b)
    (hzero : ∀ a ∈ cloud, ∀ b ∈ cloud, ∀ c ∈ cloud, d a c = 0 → d b c = 0 → d a b = 0)
    (hround : ∀ x y, BarEnd d maxR cloud x → BarEnd d maxR cloud y → rnd x ≤ rnd y → x ≤ y)
    (out : MVOut K) (hrun : createMVss pdist argsort rnd maxR 2 maxDiv overlap dim cloud p = .ok out) :
    out.persistentHomology.length ≤ 2 ∧
      ∃ L, localPersistentHomology pdist argsort rnd cloud maxR 2 p = .ok L ∧
        ∀ i < 2, ∃ B, L.ph.hom[i]? = some B ∧ (entryBars out.persistentHomology i).Perm B.barcode := by
  exact (h.coveredEnv hw ho hcoord (createMVss_parts hrun).1).two_degrees hzero hround (createMVss_run hrun)

/-- **C75**: two covers give the same barcodes.  The number of divisions and the overlap may be different. -/
theorem C75_cover_irrelevant {maxDiv' : ℕ} {overlap' : K} {lo' hi' : ℕ → K} {side' : K}
    (h : MVInput pdist d argsort maxR maxDiv dim cloud p lo hi side)
    (h' : MVInput pdist d argsort maxR maxDiv' dim cloud p lo' hi' side')
    (hw : ∀ i < dim, lo i < hi i) (hw' : ∀ i < dim, lo' i < hi' i) (ho : maxR ≤ overlap) (ho' : maxR ≤ overlap')
    (hcoord : ∀ a ∈ cloud, ∀ b ∈ cloud, ∀ i < dim, |a.getD i 0 - b.getD i 0| ≤ d a b)
    (hzero : ∀ a ∈ cloud, ∀ b ∈ cloud, ∀ c ∈ cloud, d a c = 0 → d b c = 0 → d a b = 0)
    (hround : ∀ x y, BarEnd d maxR cloud x → BarEnd d maxR cloud y → rnd x ≤ rnd y → x ≤ y)
    (out out' : MVOut K) (hrun : createMVss pdist argsort rnd maxR 2 maxDiv overlap dim cloud p = .ok out)
    (hrun' : createMVss pdist argsort rnd maxR 2 maxDiv' overlap' dim cloud p = .ok out') :
    ∀ i, (entryBars out.persistentHomology i).Perm (entryBars out'.persistentHomology i) := by
  obtain ⟨l, L, r1, r2⟩ := C75_two_degrees h hw ho hcoord hzero hround out hrun
  obtain ⟨l', L', s1, s2⟩ := C75_two_degrees h' hw' ho' hcoord hzero hround out' hrun'
  rw [r1] at s1
  obtain rfl := Except.ok.inj s1
  intro i
  by_cases hi : i < 2
  · obtain ⟨B, b1, b2⟩ := r2 i hi
    obtain ⟨B', c1, c2⟩ := s2 i hi
    rw [b1] at c1
    obtain rfl := Option.some.inj c1
    exact b2.trans c2.symm
  · unfold entryBars
    rw [List.getElem?_eq_none (by omega), List.getElem?_eq_none (by omega)]

end

/-- Six points: two of them, `(-9, -9)` and `(9, 9)`, lie in all four squares of the cover, and each of the
others connects them in one strip where two squares meet. -/
def crossCloud : List (List ℚ) := [[-9, -9], [9, 9], [-9, 12], [-12, 9], [12, -9], [9, -12]]

def crossRun : Except PyErr (MVOut ℚ) :=
  createMVss ladderDist stableArgsort id 22 2 2 22 2 crossCloud 5

theorem cross_input : MVInput ladderDist ladderD stableArgsort 22 2 2 crossCloud 5
    (fun _ => -12) (fun _ => 12) 12 where
  prime := by decide
  dist := ⟨fun c => rfl, fun a b => by unfold ladderD; positivity⟩
  sort := stableArgsort_isArgsort
  radius := by norm_num
  points := by simp [crossCloud]
  dim_pos := by norm_num
  div_pos := by norm_num
  box := by
    have hall : ∀ pt ∈ crossCloud, ∀ d < 2, -12 ≤ pt.getD d 0 ∧ pt.getD d 0 ≤ 12 := by decide +kernel
    refine ⟨?_, ?_, ⟨⟨0, by omega, by norm_num⟩, ?_⟩⟩
    · intro d hd
      refine ⟨?_, ?_⟩
      · have : d = 0 ∨ d = 1 := by omega
        rcases this with rfl | rfl
        · exact ⟨[-12, 9], by simp [crossCloud], by simp⟩
        · exact ⟨[9, -12], by simp [crossCloud], by simp⟩
      · rintro x ⟨pt, hpt, rfl⟩
        exact (hall pt hpt d hd).1
    · intro d hd
      refine ⟨?_, ?_⟩
      · have : d = 0 ∨ d = 1 := by omega
        rcases this with rfl | rfl
        · exact ⟨[12, -9], by simp [crossCloud], by simp⟩
        · exact ⟨[-9, 12], by simp [crossCloud], by simp⟩
      · rintro x ⟨pt, hpt, rfl⟩
        exact (hall pt hpt d hd).2
    · rintro x ⟨d, hd, rfl⟩
      norm_num
  side_pos := by norm_num

/-- The hypotheses are met by the six points, two of which lie in four squares.  On the second page there are
two cycles, one in each of two squares, and a class in the intersections of three squares.  The second
differential identifies the two cycles: one is left on the third page, and it is the bar of the result. -/
example : MVInput ladderDist ladderD stableArgsort 22 2 2 crossCloud 5 (fun _ => -12) (fun _ => 12) 12 ∧
    (∀ i < 2, (fun _ => (-12 : ℚ)) i < (fun _ => (12 : ℚ)) i) ∧
    (∀ a ∈ crossCloud, ∀ b ∈ crossCloud, ∀ i < 2, |a.getD i 0 - b.getD i 0| ≤ ladderD a b) ∧
    (∀ a ∈ crossCloud, ∀ b ∈ crossCloud, ∀ c ∈ crossCloud, ladderD a c = 0 → ladderD b c = 0 → ladderD a b = 0) ∧
    (∀ x y : ℚ, BarEnd ladderD 22 crossCloud x → BarEnd ladderD 22 crossCloud y → id x ≤ id y → x ≤ y) ∧
    (crossRun.map fun o => (o.persistentHomology.map fun B => B.barcode).drop 1 ++
        [(o.pages.hom 1 0 1).basis.barcode, (o.pages.hom 1 2 0).basis.barcode,
          (o.pages.hom 2 0 1).basis.barcode]) =
      .ok [[(21, 22)], [(21, 22), (21, 22)], [(21, 22)], [(21, 22)]] := by
  refine ⟨cross_input, fun i _ => by norm_num, ?_, ?_, fun x y _ _ h => h, ?_⟩
  · decide +kernel
  · decide +kernel
  · decide +kernel

end Permaviss
