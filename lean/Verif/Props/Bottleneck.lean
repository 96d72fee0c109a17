import Verif.Lemmas.Bottleneck
import Verif.Props.Collapse
import Verif.Props.Robust
import Mathlib.Data.List.Dedup

/-!
# Stability of the barcodes (C65, C86, C87)

The distance between barcodes is `BarsWithin` of `Verif.Spec.Bottleneck`.
-/

namespace Permaviss

attribute [-instance] instMulZeroClassOfSemiring

section

variable {K : Type} [Field K] [LinearOrder K] [IsStrictOrderedRing K] {p : ℕ} {Pt Pt' : Type}

theorem cloudDist_nonneg {pdist : List Pt → List (List K)} (hd : IsPdist pdist) (cloud : List Pt) (u v : ℕ) :
    0 ≤ cloudDist pdist cloud u v := by
  unfold cloudDist
  refine distAt_nonneg ?_ u v
  split_ifs with h
  · intro row hrow
    simp at hrow
  · exact hd.pos cloud fun h' => h (by rw [h', List.length_nil])

/-- **C65**: stability.  If the distances of two clouds of the same size differ by at most `ε`, their barcodes are
at bottleneck distance at most `ε`, in every degree: the bars are matched so that the ends of matched bars differ
by at most `ε` and the others are not longer than `2ε`. -/
theorem C65_stability (hp : p.Prime) {pdist : List Pt → List (List K)} {pdist' : List Pt' → List (List K)}
    (hd : IsPdist pdist) (hd' : IsPdist pdist') {argsort argsort' : List K → List Nat}
    (ha : IsArgsort argsort) (ha' : IsArgsort argsort') (rnd rnd' : K → K) (cloud : List Pt)
    (cloud' : List Pt') (hlen : cloud.length = cloud'.length) {ε : K}
    (hε : ∀ u < cloud.length, ∀ v < u, |cloudDist pdist cloud u v - cloudDist pdist' cloud' u v| ≤ ε)
    (hε0 : 0 ≤ ε) {maxR : K} (hmax : 0 < maxR) (maxDim : Int) {L L' : LocalOut K}
    (hL : localPersistentHomology pdist argsort rnd cloud maxR maxDim p = .ok L)
    (hL' : localPersistentHomology pdist' argsort' rnd' cloud' maxR maxDim p = .ok L')
    (e : ℕ) (he : (e : Int) < max maxDim 1) :
    ∃ B B', L.ph.hom[e]? = some B ∧ L'.ph.hom[e]? = some B' ∧ BarsWithin ε B.barcode B'.barcode := by
  obtain ⟨B, hB, h1⟩ := local_isBars hp hd ha hmax hL he
  obtain ⟨B', hB', h2⟩ := local_isBars hp hd' ha' hmax hL' he
  rw [← hlen] at h2
  exact ⟨B, B', hB, hB', within_of_close hp hmax (cloudDist_nonneg hd cloud) (cloudDist_nonneg hd' cloud') hε0 hε
    h1 h2⟩

/-! ## Clouds of different sizes -/

open Classical in
theorem rank_dedup (hp : p.Prime) {pdist : List Pt → List (List K)} {d : Pt → Pt → K}
    (hd : IsDistTable pdist d) (hsym : ∀ a b, d a b = d b a) (e : ℕ) {s t : K} (hs : 0 ≤ s) (hst : s ≤ t)
    (l : List Pt) : ∀ pre : List Pt, (∀ a ∈ pre ++ l, d a a = 0) →
    Module.finrank (ZMod p) (LinearMap.range (vrMap (ZMod p) (cloudDist pdist (pre ++ l))
      (pre ++ l).length e hst)) =
    Module.finrank (ZMod p) (LinearMap.range (vrMap (ZMod p) (cloudDist pdist (pre ++ l.dedup))
      (pre ++ l.dedup).length e hst)) := by
  induction l with
  | nil => intro pre _; rfl
  | cons x l ih =>
    intro pre h0
    by_cases hx : x ∈ l
    · rw [List.dedup_cons_of_mem hx, ← ih pre fun a ha => h0 a (by
        rcases List.mem_append.1 ha with ha | ha
        · exact List.mem_append_left _ ha
        · exact List.mem_append_right _ (List.mem_cons_of_mem _ ha))]
      exact (rank_repeat hp hd hsym (List.mem_append_right pre hx)
        (h0 x (List.mem_append_right _ List.mem_cons_self)) List.perm_middle e hs hst).symm
    · rw [List.dedup_cons_of_notMem hx]
      have := ih (pre ++ [x]) (by rw [← List.append_cons]; exact h0)
      rwa [← List.append_cons, ← List.append_cons] at this

/-- Lists with the same points have the same barcodes. -/
theorem IsBars.same_points (hp : p.Prime) {pdist : List Pt → List (List K)} {d : Pt → Pt → K}
    (hd : IsDistTable pdist d) (hsym : ∀ a b, d a b = d b a) {l l' : List Pt} (h0 : ∀ a ∈ l, d a a = 0)
    (hl : ∀ a, a ∈ l ↔ a ∈ l') {e : ℕ} {maxR : K} {A : List (K × K)}
    (h : IsBars p (cloudDist pdist l) l.length e maxR A) : IsBars p (cloudDist pdist l') l'.length e maxR A := by
  classical
  refine ⟨h.ends, fun s t hst hs ht => ?_⟩
  rw [h.ranks s t hst hs ht]
  have r1 := rank_dedup hp hd hsym e hs hst l [] (by simpa using h0)
  have r2 := rank_dedup hp hd hsym e hs hst l' [] (by
    intro a ha
    exact h0 a ((hl a).2 (by simpa using ha)))
  have hperm : l.dedup.Perm l'.dedup := by
    rw [List.perm_ext_iff_of_nodup (List.nodup_dedup l) (List.nodup_dedup l')]
    intro a
    rw [List.mem_dedup, List.mem_dedup, hl]
  have r3 := rank_perm hp hd hsym hperm e hst []
  rw [List.nil_append, List.nil_append] at r1 r2 r3
  rw [r1, r2, r3]

/-- **C73**: only the set of points matters.  Two clouds with the same points, repeated any number of times and in
any order, have the same bars. -/
theorem C73_same_points (hp : p.Prime) {pdist : List Pt → List (List K)} {d : Pt → Pt → K}
    (hd : IsDistTable pdist d) (hsym : ∀ a b, d a b = d b a) {argsort argsort' : List K → List Nat}
    (ha : IsArgsort argsort) (ha' : IsArgsort argsort') (rnd rnd' : K → K) {cloud cloud' : List Pt}
    (h0 : ∀ a ∈ cloud, d a a = 0) (hset : ∀ a, a ∈ cloud ↔ a ∈ cloud') {maxR : K} (hmax : 0 < maxR)
    (maxDim : Int) {L L' : LocalOut K}
    (hL : localPersistentHomology pdist argsort rnd cloud maxR maxDim p = .ok L)
    (hL' : localPersistentHomology pdist argsort' rnd' cloud' maxR maxDim p = .ok L')
    (e : ℕ) (he : (e : Int) < max maxDim 1) :
    ∃ B B', L.ph.hom[e]? = some B ∧ L'.ph.hom[e]? = some B' ∧ B.barcode.Perm B'.barcode := by
  obtain ⟨B, hB, h1⟩ := local_isBars hp hd.isPdist ha hmax hL he
  obtain ⟨B', hB', h2⟩ := local_isBars hp hd.isPdist ha' hmax hL' he
  exact ⟨B, B', hB, hB', (h1.same_points hp hd hsym h0 hset).perm hp h2 fun _ _ _ _ => rfl⟩

theorem within_of_correspondence (hp : p.Prime) {pdist : List Pt → List (List K)}
    {pdist' : List Pt' → List (List K)} {d : Pt → Pt → K} {d' : Pt' → Pt' → K} (hd : IsDistTable pdist d)
    (hd' : IsDistTable pdist' d') (hsym : ∀ a b, d a b = d b a) (hsym' : ∀ a b, d' a b = d' b a)
    {cloud : List Pt} {cloud' : List Pt'} (h0 : ∀ a ∈ cloud, d a a = 0) (h0' : ∀ a ∈ cloud', d' a a = 0)
    (pairs : List (Pt × Pt')) (hl : ∀ a, a ∈ cloud ↔ ∃ b, (a, b) ∈ pairs)
    (hr : ∀ b, b ∈ cloud' ↔ ∃ a, (a, b) ∈ pairs) {ε : K} (hε0 : 0 ≤ ε)
    (hε : ∀ x ∈ pairs, ∀ y ∈ pairs, |d x.1 y.1 - d' x.2 y.2| ≤ ε) {maxR : K} (hmax : 0 < maxR) {e : ℕ}
    {A B : List (K × K)} (hA : IsBars p (cloudDist pdist cloud) cloud.length e maxR A)
    (hB : IsBars p (cloudDist pdist' cloud') cloud'.length e maxR B) : BarsWithin ε A B := by
  have h1 := hA.same_points hp hd hsym (l' := pairs.map Prod.fst) h0 fun a => by
    rw [hl]
    simp
  have h2 := hB.same_points hp hd' hsym' (l' := pairs.map Prod.snd) h0' fun a => by
    rw [hr]
    simp
  rw [List.length_map] at h1 h2
  refine within_of_close hp hmax (cloudDist_nonneg hd.isPdist _) (cloudDist_nonneg hd'.isPdist _) hε0 ?_ h1 h2
  intro u hu v hv
  rw [cloudDist_getElem hd (by simpa using hu) (by simpa using hv.trans hu),
    cloudDist_getElem hd' (by simpa using hu) (by simpa using hv.trans hu)]
  simp only [List.getElem_map]
  exact hε _ (List.getElem_mem _) _ (List.getElem_mem _)

/-- **C87**: two clouds, of any sizes and in different spaces.  If the points can be paired, so that every point of
either cloud is in some pair and the distances between the first entries of two pairs differ by at most `ε` from the
distances between the second entries, the barcodes are at distance at most `ε`. -/
theorem C87_correspondence (hp : p.Prime) {pdist : List Pt → List (List K)} {pdist' : List Pt' → List (List K)}
    {d : Pt → Pt → K} {d' : Pt' → Pt' → K} (hd : IsDistTable pdist d) (hd' : IsDistTable pdist' d')
    (hsym : ∀ a b, d a b = d b a) (hsym' : ∀ a b, d' a b = d' b a) {argsort argsort' : List K → List Nat}
    (ha : IsArgsort argsort) (ha' : IsArgsort argsort') (rnd rnd' : K → K)
    {cloud : List Pt} {cloud' : List Pt'} (h0 : ∀ a ∈ cloud, d a a = 0) (h0' : ∀ a ∈ cloud', d' a a = 0)
    (pairs : List (Pt × Pt')) (hl : ∀ a, a ∈ cloud ↔ ∃ b, (a, b) ∈ pairs)
    (hr : ∀ b, b ∈ cloud' ↔ ∃ a, (a, b) ∈ pairs) {ε : K} (hε0 : 0 ≤ ε)
    (hε : ∀ x ∈ pairs, ∀ y ∈ pairs, |d x.1 y.1 - d' x.2 y.2| ≤ ε) {maxR : K} (hmax : 0 < maxR)
    (maxDim : Int) {L L' : LocalOut K}
    (hL : localPersistentHomology pdist argsort rnd cloud maxR maxDim p = .ok L)
    (hL' : localPersistentHomology pdist' argsort' rnd' cloud' maxR maxDim p = .ok L')
    (e : ℕ) (he : (e : Int) < max maxDim 1) :
    ∃ B B', L.ph.hom[e]? = some B ∧ L'.ph.hom[e]? = some B' ∧ BarsWithin ε B.barcode B'.barcode := by
  obtain ⟨B, hB, h1⟩ := local_isBars hp hd.isPdist ha hmax hL he
  obtain ⟨B', hB', h2⟩ := local_isBars hp hd'.isPdist ha' hmax hL' he
  exact ⟨B, B', hB, hB', within_of_correspondence hp hd hd' hsym hsym' h0 h0' pairs hl hr hε0 hε hmax h1 h2⟩

/-- The pairs of points at distance at most `δ`. -/
theorem near_pairs {d : Pt → Pt → K} {cloud cloud' : List Pt} {δ : K}
    (hn : ∀ a ∈ cloud, ∃ b ∈ cloud', d a b ≤ δ) (hn' : ∀ b ∈ cloud', ∃ a ∈ cloud, d a b ≤ δ) :
    ∃ pairs : List (Pt × Pt), (∀ a, a ∈ cloud ↔ ∃ b, (a, b) ∈ pairs) ∧
      (∀ b, b ∈ cloud' ↔ ∃ a, (a, b) ∈ pairs) ∧ ∀ x ∈ pairs, x.1 ∈ cloud ∧ x.2 ∈ cloud' ∧ d x.1 x.2 ≤ δ := by
  classical
  have key : ∀ x, x ∈ (cloud.product cloud').filter (fun x => decide (d x.1 x.2 ≤ δ)) ↔
      x.1 ∈ cloud ∧ x.2 ∈ cloud' ∧ d x.1 x.2 ≤ δ := by
    rintro ⟨a, b⟩
    rw [List.mem_filter, List.pair_mem_product, decide_eq_true_eq, and_assoc]
  refine ⟨_, fun a => ?_, fun b => ?_, fun x hx => (key x).1 hx⟩
  · constructor
    · intro h
      obtain ⟨b, hb, hab⟩ := hn a h
      exact ⟨b, (key (a, b)).2 ⟨h, hb, hab⟩⟩
    · rintro ⟨b, hb⟩
      exact ((key (a, b)).1 hb).1
  · constructor
    · intro h
      obtain ⟨a, ha, hab⟩ := hn' b h
      exact ⟨a, (key (a, b)).2 ⟨ha, h, hab⟩⟩
    · rintro ⟨a, ha⟩
      exact ((key (a, b)).1 ha).2.1

theorem near_distortion {d : Pt → Pt → K} (hsym : ∀ a b, d a b = d b a)
    (htri : ∀ a b c, d a c ≤ d a b + d b c) {a b a' b' : Pt} {δ : K} (h : d a a' ≤ δ) (h' : d b b' ≤ δ) :
    |d a b - d a' b'| ≤ δ + δ := by
  have t1 := htri a a' b
  have t2 := htri a' b' b
  have t3 := htri a' a b'
  have t4 := htri a b b'
  have s1 := hsym b' b
  have s2 := hsym a' a
  rw [abs_le]
  constructor <;> linarith

/-- **C87**: samples.  For a distance with the triangle inequality, if every point of either cloud is at distance at
most `δ` of some point of the other one, the barcodes are at distance at most `2δ`.  In particular a dense sample of
the points can replace them. -/
theorem C87_samples (hp : p.Prime) {pdist : List Pt → List (List K)} {d : Pt → Pt → K} (hd : IsDistTable pdist d)
    (hsym : ∀ a b, d a b = d b a) (h0 : ∀ a, d a a = 0) (htri : ∀ a b c, d a c ≤ d a b + d b c)
    {argsort argsort' : List K → List Nat} (ha : IsArgsort argsort) (ha' : IsArgsort argsort') (rnd rnd' : K → K)
    {cloud cloud' : List Pt} {δ : K} (hδ : 0 ≤ δ) (hn : ∀ a ∈ cloud, ∃ b ∈ cloud', d a b ≤ δ)
    (hn' : ∀ b ∈ cloud', ∃ a ∈ cloud, d a b ≤ δ) {maxR : K} (hmax : 0 < maxR) (maxDim : Int) {L L' : LocalOut K}
    (hL : localPersistentHomology pdist argsort rnd cloud maxR maxDim p = .ok L)
    (hL' : localPersistentHomology pdist argsort' rnd' cloud' maxR maxDim p = .ok L')
    (e : ℕ) (he : (e : Int) < max maxDim 1) :
    ∃ B B', L.ph.hom[e]? = some B ∧ L'.ph.hom[e]? = some B' ∧ BarsWithin (δ + δ) B.barcode B'.barcode := by
  obtain ⟨pairs, h1, h2, h3⟩ := near_pairs hn hn'
  exact C87_correspondence hp hd hd hsym hsym ha ha' rnd rnd' (fun a _ => h0 a) (fun a _ => h0 a) pairs h1 h2
    (add_nonneg hδ hδ) (fun x hx y hy => near_distortion hsym htri (h3 x hx).2.2 (h3 y hy).2.2) hmax maxDim hL hL'
    e he

end

/-! ## `create_MV_ss` -/

section

variable {K : Type} [Field K] [LinearOrder K] [FloorRing K] [IsStrictOrderedRing K]
  {pdist pdist' : List (List K) → List (List K)} {d d' : List K → List K → K}
  {argsort argsort' : List K → List Nat} {rnd rnd' : K → K} {maxR : K} {maxDiv maxDiv' dim dim' : ℕ}
  {overlap overlap' : K} {cloud cloud' : List (List K)} {p : ℕ} {lo hi lo' hi' : ℕ → K} {side side' : K}
  {out out' : MVOut K}

theorem CoverRun.isBars (h : CoverRun pdist d argsort rnd maxR maxDiv overlap dim cloud p lo hi side out)
    {i : ℕ} (hi2 : i < 2) :
    IsBars p (cloudDist pdist cloud) cloud.length i maxR (entryBars out.persistentHomology i) := by
  obtain ⟨-, L, r1, r2⟩ := h.direct
  obtain ⟨B, b1, b2⟩ := r2 i hi2
  have he : (i : Int) < max 2 1 := by rw [max_eq_left (by norm_num)]; exact_mod_cast hi2
  obtain ⟨B', c1, c2⟩ := local_isBars h.input.prime h.input.dist.isPdist h.input.sort h.input.radius r1 he
  rw [b1] at c1
  obtain rfl := Option.some.inj c1
  refine ⟨fun b hb => c2.ends b (b2.subset hb), fun s t hst hs ht => ?_⟩
  rw [barsThrough_perm b2, c2.ranks s t hst hs ht]

/-- **C86**: stability.  If the distances of two clouds of the same size differ by at most `ε`, the results are at
distance at most `ε` in degrees zero and one, whatever the covers. -/
theorem C86_stability (h : CoverRun pdist d argsort rnd maxR maxDiv overlap dim cloud p lo hi side out)
    (h' : CoverRun pdist' d' argsort' rnd' maxR maxDiv' overlap' dim' cloud' p lo' hi' side' out')
    (hlen : cloud.length = cloud'.length) {ε : K} (hε0 : 0 ≤ ε)
    (hε : ∀ u (hu : u < cloud.length) v (hv : v < u), |d cloud[u] cloud[v] - d' cloud'[u] cloud'[v]| ≤ ε) :
    ∀ i < 2, BarsWithin ε (entryBars out.persistentHomology i) (entryBars out'.persistentHomology i) := by
  intro i hi2
  have h2 := h'.isBars hi2
  rw [← hlen] at h2
  refine within_of_close h.input.prime h.input.radius (cloudDist_nonneg h.input.dist.isPdist cloud)
    (cloudDist_nonneg h'.input.dist.isPdist cloud') hε0 ?_ (h.isBars hi2) h2
  intro u hu v hv
  rw [cloudDist_getElem h.input.dist hu (hv.trans hu), cloudDist_getElem h'.input.dist (hlen ▸ hu)
    (hlen ▸ (hv.trans hu))]
  exact hε u hu v hv

/-- **C87** for `create_MV_ss`: samples.  If every point of either cloud is at distance at most `δ` of some point of
the other one, the results are at distance at most `2δ` in degrees zero and one, whatever the covers. -/
theorem C87_cover_samples (h : CoverRun pdist d argsort rnd maxR maxDiv overlap dim cloud p lo hi side out)
    (h' : CoverRun pdist d argsort' rnd' maxR maxDiv' overlap' dim' cloud' p lo' hi' side' out')
    (hsym : ∀ a b, d a b = d b a) (h0 : ∀ a, d a a = 0) (htri : ∀ a b c, d a c ≤ d a b + d b c) {δ : K}
    (hδ : 0 ≤ δ) (hn : ∀ a ∈ cloud, ∃ b ∈ cloud', d a b ≤ δ) (hn' : ∀ b ∈ cloud', ∃ a ∈ cloud, d a b ≤ δ) :
    ∀ i < 2, BarsWithin (δ + δ) (entryBars out.persistentHomology i) (entryBars out'.persistentHomology i) := by
  intro i hi2
  obtain ⟨pairs, h1, h2, h3⟩ := near_pairs hn hn'
  exact within_of_correspondence h.input.prime h.input.dist h'.input.dist hsym hsym (fun a _ => h0 a)
    (fun a _ => h0 a) pairs h1 h2 (add_nonneg hδ hδ)
    (fun x hx y hy => near_distortion hsym htri (h3 x hx).2.2 (h3 y hy).2.2) h.input.radius (h.isBars hi2)
    (h'.isBars hi2)

end

/-! ## Concrete cases -/

/-- The sum of the differences of the coordinates. -/
def quadD (a b : ℚ × ℚ) : ℚ := |a.1 - b.1| + |a.2 - b.2|

def quadDist (c : List (ℚ × ℚ)) : List (List ℚ) := c.map fun a => c.map (quadD a)

def quadBars (c : List (ℚ × ℚ)) : Except PyErr (List (List (ℚ × ℚ))) :=
  (localPersistentHomology quadDist stableArgsort id c 9 2 5).map fun L => (L.ph.hom.take 2).map fun B => B.barcode

theorem quad_table : IsDistTable quadDist quadD :=
  ⟨fun _ => rfl, fun a b => by unfold quadD; positivity⟩

theorem quad_metric : (∀ a b, quadD a b = quadD b a) ∧ (∀ a, quadD a a = 0) ∧
    ∀ a b c, quadD a c ≤ quadD a b + quadD b c := by
  refine ⟨fun a b => ?_, fun a => ?_, fun a b c => ?_⟩
  · unfold quadD; rw [abs_sub_comm a.1, abs_sub_comm a.2]
  · simp [quadD]
  · unfold quadD
    have h1 := abs_sub_le a.1 b.1 c.1
    have h2 := abs_sub_le a.2 b.2 c.2
    linarith

/-- C65: a rectangle and a square whose distances differ by at most one.  C87: the rectangle, and the same rectangle
with one more point at distance `1/2` of a corner. -/
theorem quad_runs : quadBars [(0, 0), (0, 3), (4, 0), (4, 3)] =
      .ok [[(0, 9), (0, 4), (0, 3), (0, 3)], [(4, 7)]] ∧
    quadBars [(0, 0), (0, 4), (4, 0), (4, 4)] = .ok [[(0, 9), (0, 4), (0, 4), (0, 4)], [(4, 8)]] ∧
    quadBars [(0, 0), (0, 3), (4, 0), (4, 3), (1/2, 0)] =
      .ok [[(0, 9), (0, 7/2), (0, 3), (0, 3), (0, 1/2)], [(4, 13/2)]] := by
  refine ⟨by decide +kernel, by decide +kernel, by decide +kernel⟩

example : (∀ u < 4, ∀ v < u, |cloudDist quadDist [(0, 0), (0, 3), (4, 0), (4, 3)] u v -
      cloudDist quadDist [(0, 0), (0, 4), (4, 0), (4, 4)] u v| ≤ 1) ∧
    (∀ a ∈ [((0 : ℚ), (0 : ℚ)), (0, 3), (4, 0), (4, 3)], ∃ b ∈ [((0 : ℚ), (0 : ℚ)), (0, 3), (4, 0), (4, 3), (1/2, 0)],
      quadD a b ≤ 1/2) ∧
    (∀ b ∈ [((0 : ℚ), (0 : ℚ)), (0, 3), (4, 0), (4, 3), (1/2, 0)], ∃ a ∈ [((0 : ℚ), (0 : ℚ)), (0, 3), (4, 0), (4, 3)],
      quadD a b ≤ 1/2) := by
  refine ⟨by decide +kernel, by decide +kernel, by decide +kernel⟩

/-- C87 for `create_MV_ss`: the points `0, 1, 3` and `0, 2, 3` of a line. -/
example : (∃ out out', CoverRun numDist numD stableArgsort id 2 2 2 1 [[0], [1], [3]] 5
      (fun _ => 0) (fun _ => 3) (3 / 2) out ∧
      CoverRun numDist numD stableArgsort id 2 2 3 1 [[0], [2], [3]] 5 (fun _ => 0) (fun _ => 3) (3 / 2) out') ∧
    (∀ a b, numD a b = numD b a) ∧ (∀ a, numD a a = 0) ∧ (∀ a b c, numD a c ≤ numD a b + numD b c) ∧
    (∀ a ∈ ([[0], [1], [3]] : List (List ℚ)), ∃ b ∈ ([[0], [2], [3]] : List (List ℚ)), numD a b ≤ 1) ∧
    (∀ b ∈ ([[0], [2], [3]] : List (List ℚ)), ∃ a ∈ ([[0], [1], [3]] : List (List ℚ)), numD a b ≤ 1) := by
  obtain ⟨out, h⟩ := num_coverRun (cloud := [[0], [1], [3]]) (overlap := 2) (by simp) (by simp)
    (by decide +kernel) (by norm_num) (by decide +kernel)
  obtain ⟨out', h'⟩ := num_coverRun (cloud := [[0], [2], [3]]) (overlap := 3) (by simp) (by simp)
    (by decide +kernel) (by norm_num) (by decide +kernel)
  refine ⟨⟨out, out', h, h'⟩, fun a b => abs_sub_comm _ _, fun a => by simp [numD], fun a b c => ?_,
    by decide +kernel, by decide +kernel⟩
  unfold numD
  exact abs_sub_le _ _ _

end Permaviss
