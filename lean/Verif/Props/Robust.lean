import Verif.Props.Clusters
import Verif.Props.Plane

/-!
# What the result of `create_MV_ss` depends on (C86)

C75 identifies the result with the ordinary computation, so that the properties of the latter hold for
`create_MV_ss`: the cover disappears from all of them.
-/

namespace Permaviss

section

variable {K : Type} [Field K] [LinearOrder K] [FloorRing K] [IsStrictOrderedRing K]
  {pdist pdist' : List (List K) → List (List K)} {d d' : List K → List K → K}
  {argsort argsort' : List K → List Nat} {rnd rnd' : K → K} {maxR maxR' : K} {maxDiv maxDiv' dim dim' : ℕ}
  {overlap overlap' : K} {cloud cloud' : List (List K)} {p p' : ℕ} {lo hi lo' hi' : ℕ → K} {side side' : K}
  {out out' : MVOut K}

/-- A run of `create_MV_ss` with `max_dim = 2` that returns `out`, and the conditions of C75. -/
structure CoverRun (pdist : List (List K) → List (List K)) (d : List K → List K → K)
    (argsort : List K → List Nat) (rnd : K → K) (maxR : K) (maxDiv : ℕ) (overlap : K) (dim : ℕ)
    (cloud : List (List K)) (p : ℕ) (lo hi : ℕ → K) (side : K) (out : MVOut K) : Prop where
  input : MVInput pdist d argsort maxR maxDiv dim cloud p lo hi side
  wide : ∀ i < dim, lo i < hi i
  overlap_le : maxR ≤ overlap
  coord : ∀ a ∈ cloud, ∀ b ∈ cloud, ∀ i < dim, |a.getD i 0 - b.getD i 0| ≤ d a b
  zero : ∀ a ∈ cloud, ∀ b ∈ cloud, ∀ c ∈ cloud, d a c = 0 → d b c = 0 → d a b = 0
  round : ∀ x y, BarEnd d maxR cloud x → BarEnd d maxR cloud y → rnd x ≤ rnd y → x ≤ y
  run : createMVss pdist argsort rnd maxR 2 maxDiv overlap dim cloud p = .ok out

theorem CoverRun.direct
    (h : CoverRun pdist d argsort rnd maxR maxDiv overlap dim cloud p lo hi side out) :
    out.persistentHomology.length ≤ 2 ∧ ∃ L, localPersistentHomology pdist argsort rnd cloud maxR 2 p = .ok L ∧
      ∀ i < 2, ∃ B, L.ph.hom[i]? = some B ∧ (entryBars out.persistentHomology i).Perm B.barcode :=
  C75_two_degrees h.input h.wide h.overlap_le h.coord h.zero h.round out h.run

/-- **C86**: isometries and the order of the points.  If the points of `cloud'`, in some order, have the mutual
distances of the points of `cloud`, both runs give the same bars in degrees zero and one.  The dimensions of the
spaces, the covers, the roundings and the sorting routines may be different. -/
theorem C86_isometry (h : CoverRun pdist d argsort rnd maxR maxDiv overlap dim cloud p lo hi side out)
    (h' : CoverRun pdist' d' argsort' rnd' maxR maxDiv' overlap' dim' cloud' p lo' hi' side' out')
    (hsym' : ∀ a b, d' a b = d' b a) {moved : List (List K)} (hperm : moved.Perm cloud')
    (hlen : moved.length = cloud.length)
    (hdist : ∀ u (hu : u < cloud.length) v (hv : v < u), d' moved[u] moved[v] = d cloud[u] cloud[v]) :
    ∀ i < 2, (entryBars out.persistentHomology i).Perm (entryBars out'.persistentHomology i) := by
  intro i hi2
  obtain ⟨-, L, r1, r2⟩ := h.direct
  obtain ⟨-, L', s1, s2⟩ := h'.direct
  obtain ⟨B, b1, b2⟩ := r2 i hi2
  obtain ⟨B', c1, c2⟩ := s2 i hi2
  have he : (i : Int) < max 2 1 := by rw [max_eq_left (by norm_num)]; exact_mod_cast hi2
  obtain ⟨L'', hL'', -⟩ := C27_local_persistent_homology_total h'.input.prime pdist' h'.input.dist.isPdist argsort'
    h'.input.sort rnd' moved maxR h'.input.radius 2
  obtain ⟨X, X', x1, x2, x3⟩ := C67_units h.input.prime (OrderIso.refl K) rfl h.input.dist.isPdist
    h'.input.dist.isPdist h.input.sort h'.input.sort rnd rnd' cloud moved hlen.symm
    (by
      intro u hu v hv
      rw [cloudDist_getElem h.input.dist hu (hv.trans hu), cloudDist_getElem h'.input.dist (hlen ▸ hu)
        (hlen ▸ (hv.trans hu))]
      exact hdist u hu v hv) h.input.radius 2 r1 hL'' i he
  obtain ⟨Y, Y', y1, y2, y3⟩ := C63_point_order h'.input.prime h'.input.dist hsym' h'.input.sort h'.input.sort
    rnd' rnd' hperm h'.input.radius 2 hL'' s1 i he
  rw [b1] at x1; rw [c1] at y2; rw [x2] at y1
  obtain rfl := Option.some.inj x1
  obtain rfl := Option.some.inj y2
  obtain rfl := Option.some.inj y1
  have hid : (B.barcode.map fun b => ((OrderIso.refl K) b.1, (OrderIso.refl K) b.2)) = B.barcode :=
    List.map_id _
  rw [hid] at x3
  exact b2.trans (x3.symm.trans (y3.trans c2.symm))

/-- **C86**: noise.  If the distances of two clouds differ by at most `ε`, a bar of one result that contains
`[s, t + 2ε]` corresponds to a bar of the other one that contains `[s + ε, t + ε]`. -/
theorem C86_noise (h : CoverRun pdist d argsort rnd maxR maxDiv overlap dim cloud p lo hi side out)
    (h' : CoverRun pdist' d' argsort' rnd' maxR maxDiv' overlap' dim' cloud' p lo' hi' side' out')
    (hlen : cloud.length = cloud'.length) {ε : K} (hε0 : 0 ≤ ε)
    (hε : ∀ u (hu : u < cloud.length) v (hv : v < u), |d cloud[u] cloud[v] - d' cloud'[u] cloud'[v]| ≤ ε) :
    ∀ i < 2, ∀ s t, 0 ≤ s → s ≤ t → t + (ε + ε) < maxR →
      barsThrough (entryBars out.persistentHomology i) s (t + (ε + ε)) ≤
        barsThrough (entryBars out'.persistentHomology i) (s + ε) (t + ε) := by
  intro i hi2 s t hs hst ht
  obtain ⟨-, L, r1, r2⟩ := h.direct
  obtain ⟨-, L', s1, s2⟩ := h'.direct
  obtain ⟨B, b1, b2⟩ := r2 i hi2
  obtain ⟨B', c1, c2⟩ := s2 i hi2
  have he : (i : Int) < max 2 1 := by rw [max_eq_left (by norm_num)]; exact_mod_cast hi2
  obtain ⟨X, X', x1, x2, x3⟩ := C65_noise h.input.prime h.input.dist.isPdist h'.input.dist.isPdist h.input.sort
    h'.input.sort rnd rnd' cloud cloud' hlen
    (by
      intro u hu v hv
      rw [cloudDist_getElem h.input.dist hu (hv.trans hu), cloudDist_getElem h'.input.dist (hlen ▸ hu)
        (hlen ▸ (hv.trans hu))]
      exact hε u hu v hv) hε0 h.input.radius 2 r1 s1 i he
  rw [b1] at x1; rw [c1] at x2
  obtain rfl := Option.some.inj x1
  obtain rfl := Option.some.inj x2
  rw [barsThrough_perm b2, barsThrough_perm c2]
  exact x3 s t hs hst ht

/-- **C86**: a smaller maximal radius cuts the bars. -/
theorem C86_radius (h : CoverRun pdist d argsort rnd maxR maxDiv overlap dim cloud p lo hi side out)
    (h' : CoverRun pdist d argsort' rnd' maxR' maxDiv' overlap' dim cloud p lo' hi' side' out')
    (hle : maxR ≤ maxR') :
    ∀ i < 2, (entryBars out.persistentHomology i).Perm (cutBars maxR (entryBars out'.persistentHomology i)) := by
  intro i hi2
  obtain ⟨-, L, r1, r2⟩ := h.direct
  obtain ⟨-, L', s1, s2⟩ := h'.direct
  obtain ⟨B, b1, b2⟩ := r2 i hi2
  obtain ⟨B', c1, c2⟩ := s2 i hi2
  have he : (i : Int) < max 2 1 := by rw [max_eq_left (by norm_num)]; exact_mod_cast hi2
  obtain ⟨X, X', x1, x2, x3⟩ := C64_max_radius h.input.prime h.input.dist.isPdist h.input.sort h'.input.sort
    rnd rnd' cloud h.input.radius hle 2 2 r1 s1 i he he
  rw [b1] at x1; rw [c1] at x2
  obtain rfl := Option.some.inj x1
  obtain rfl := Option.some.inj x2
  refine b2.trans (x3.trans ?_)
  unfold cutBars
  exact (c2.symm.filter _).map _

/-- **C86**: clusters.  If the points of `cloud` are those of `A` and `B`, at distances at least `max_r`, the bars in
degrees zero and one are those of the two ordinary computations together. -/
theorem C86_clusters (h : CoverRun pdist d argsort rnd maxR maxDiv overlap dim cloud p lo hi side out)
    (hsym : ∀ a b, d a b = d b a) {A B : List (List K)} (hperm : cloud.Perm (A ++ B))
    (hfar : ∀ a ∈ A, ∀ b ∈ B, maxR ≤ d a b) {LA LB : LocalOut K}
    (hLA : localPersistentHomology pdist argsort rnd A maxR 2 p = .ok LA)
    (hLB : localPersistentHomology pdist argsort rnd B maxR 2 p = .ok LB) :
    ∀ i < 2, ∃ XA XB, LA.ph.hom[i]? = some XA ∧ LB.ph.hom[i]? = some XB ∧
      (entryBars out.persistentHomology i).Perm (XA.barcode ++ XB.barcode) := by
  intro i hi2
  obtain ⟨-, L, r1, r2⟩ := h.direct
  obtain ⟨X, b1, b2⟩ := r2 i hi2
  have he : (i : Int) < max 2 1 := by rw [max_eq_left (by norm_num)]; exact_mod_cast hi2
  obtain ⟨X', XA, XB, x1, x2, x3, x4⟩ := C85_two_clusters h.input.prime h.input.dist hsym h.input.sort
    h.input.sort h.input.sort rnd rnd rnd hperm h.input.radius hfar 2 r1 hLA hLB i he
  rw [b1] at x1
  obtain rfl := Option.some.inj x1
  exact ⟨XA, XB, x2, x3, b2.trans x4⟩

/-- **C86**: the bars of degree zero do not depend on the prime. -/
theorem C86_prime (h : CoverRun pdist d argsort rnd maxR maxDiv overlap dim cloud p lo hi side out)
    (h' : CoverRun pdist d argsort rnd maxR maxDiv' overlap' dim cloud p' lo' hi' side' out')
    (hsym : ∀ a b, d a b = d b a) :
    (entryBars out.persistentHomology 0).Perm (entryBars out'.persistentHomology 0) := by
  obtain ⟨-, L, r1, r2⟩ := h.direct
  obtain ⟨-, L', s1, s2⟩ := h'.direct
  obtain ⟨B, b1, b2⟩ := r2 0 (by norm_num)
  obtain ⟨B', c1, c2⟩ := s2 0 (by norm_num)
  obtain ⟨X, X', x1, x2, x3⟩ := C66_components_prime h.input.prime h'.input.prime h.input.dist hsym h.input.sort
    rnd cloud h.input.radius 2 r1 s1
  rw [b1] at x1; rw [c1] at x2
  obtain rfl := Option.some.inj x1
  obtain rfl := Option.some.inj x2
  exact b2.trans (x3.trans c2.symm)

end

/-- The distance of numbers. -/
def numD (a b : List ℚ) : ℚ := |a.getD 0 0 - b.getD 0 0|

def numDist (c : List (List ℚ)) : List (List ℚ) := c.map fun a => c.map (numD a)

theorem num_input {cloud : List (List ℚ)} (h0 : [0] ∈ cloud) (h3 : [3] ∈ cloud)
    (hall : ∀ pt ∈ cloud, 0 ≤ pt.getD 0 0 ∧ pt.getD 0 0 ≤ 3) :
    MVInput numDist numD stableArgsort 2 2 1 cloud 5 (fun _ => 0) (fun _ => 3) (3 / 2) where
  prime := by decide
  dist := ⟨fun c => rfl, fun a b => abs_nonneg _⟩
  sort := stableArgsort_isArgsort
  radius := by norm_num
  points := List.ne_nil_of_mem h0
  dim_pos := by norm_num
  div_pos := by norm_num
  box := by
    refine ⟨?_, ?_, ⟨⟨0, by omega, by norm_num⟩, ?_⟩⟩
    · intro d hd
      obtain rfl : d = 0 := by omega
      refine ⟨⟨[0], h0, rfl⟩, ?_⟩
      rintro x ⟨pt, hpt, rfl⟩
      exact (hall pt hpt).1
    · intro d hd
      obtain rfl : d = 0 := by omega
      refine ⟨⟨[3], h3, rfl⟩, ?_⟩
      rintro x ⟨pt, hpt, rfl⟩
      exact (hall pt hpt).2
    · rintro x ⟨d, hd, rfl⟩
      norm_num
  side_pos := by norm_num

theorem num_coverRun {cloud : List (List ℚ)} (h0 : [0] ∈ cloud) (h3 : [3] ∈ cloud)
    (hall : ∀ pt ∈ cloud, 0 ≤ pt.getD 0 0 ∧ pt.getD 0 0 ≤ 3) {overlap : ℚ} (ho : 2 ≤ overlap)
    (hrun : (createMVss numDist stableArgsort id 2 2 2 overlap 1 cloud 5).isOk = true) :
    ∃ out, CoverRun numDist numD stableArgsort id 2 2 overlap 1 cloud 5 (fun _ => 0) (fun _ => 3) (3 / 2) out := by
  cases h : createMVss numDist stableArgsort id 2 2 2 overlap 1 cloud 5 with
  | error e => rw [h] at hrun; cases hrun
  | ok out =>
    refine ⟨out, num_input h0 h3 hall, fun i _ => by norm_num, ho, ?_, ?_, fun x y _ _ h => h, h⟩
    · intro a _ b _ i hi
      obtain rfl : i = 0 := by omega
      exact le_rfl
    · intro a _ b _ c _ h1 h2
      unfold numD at *
      rw [abs_eq_zero] at *
      linarith

/-- The hypotheses are met by the points `0, 1, 3` of a line and by the points `0, 2, 3`, which are a reflection of
them, with another overlap; in the order of the lists the distances differ by one at most. -/
example : (∃ out out', CoverRun numDist numD stableArgsort id 2 2 2 1 [[0], [1], [3]] 5
      (fun _ => 0) (fun _ => 3) (3 / 2) out ∧
      CoverRun numDist numD stableArgsort id 2 2 3 1 [[0], [2], [3]] 5 (fun _ => 0) (fun _ => 3) (3 / 2) out') ∧
    (∀ a b, numD a b = numD b a) ∧
    ([[3], [2], [0]] : List (List ℚ)).Perm [[0], [2], [3]] ∧
    (∀ u < 3, ∀ v < u, numD (([[3], [2], [0]] : List (List ℚ)).getD u [])
        (([[3], [2], [0]] : List (List ℚ)).getD v []) =
      numD (([[0], [1], [3]] : List (List ℚ)).getD u []) (([[0], [1], [3]] : List (List ℚ)).getD v [])) ∧
    (∀ u < 3, ∀ v < u, |numD (([[0], [1], [3]] : List (List ℚ)).getD u [])
        (([[0], [1], [3]] : List (List ℚ)).getD v []) -
      numD (([[0], [2], [3]] : List (List ℚ)).getD u []) (([[0], [2], [3]] : List (List ℚ)).getD v [])| ≤ 1) := by
  obtain ⟨out, h⟩ := num_coverRun (cloud := [[0], [1], [3]]) (overlap := 2) (by simp) (by simp)
    (by decide +kernel) (by norm_num) (by decide +kernel)
  obtain ⟨out', h'⟩ := num_coverRun (cloud := [[0], [2], [3]]) (overlap := 3) (by simp) (by simp)
    (by decide +kernel) (by norm_num) (by decide +kernel)
  exact ⟨⟨out, out', h, h'⟩, fun a b => abs_sub_comm _ _, by decide +kernel, by decide +kernel, by decide +kernel⟩

end Permaviss
