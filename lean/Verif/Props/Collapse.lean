import Verif.Lemmas.Removal
import Verif.Props.Invariance
import Mathlib.Data.List.Sort

/-!
# Clouds whose barcodes are small: a central point, a line, a hierarchy, a repeated point (C71 - C73)
-/

namespace Permaviss

open Finset

attribute [-instance] instMulZeroClassOfSemiring

section

variable {α : Type} [LinearOrder α] [Zero α] {p : ℕ} {Pt : Type}

/-- If there is no homology from the radius `r` on, all the bars end there. -/
theorem bars_end_of_acyclic (hp : p.Prime) {pdist : List Pt → List (List α)} (hd : IsPdist pdist)
    {argsort : List α → List Nat} (ha : IsArgsort argsort) {rnd : α → α} {cloud : List Pt} {maxR : α}
    (hmax : 0 < maxR) {maxDim : Int} {L : LocalOut α}
    (hL : localPersistentHomology pdist argsort rnd cloud maxR maxDim p = .ok L)
    {e : ℕ} (he : (e : Int) < max maxDim 1) {r : α}
    (h : ∀ t, 0 ≤ t → r ≤ t → vrCycles (ZMod p) (cloudDist pdist cloud) cloud.length e t ≤
      vrBoundaries (ZMod p) (cloudDist pdist cloud) cloud.length e t) :
    ∃ B, L.ph.hom[e]? = some B ∧ ∀ b ∈ B.barcode, b.1 < r ∧ b.2 ≤ r := by
  have := Fact.mk hp
  obtain ⟨B, hB, h1, h2⟩ := local_ranks hp hd ha hmax hL he
  refine ⟨B, hB, fun b hb => ?_⟩
  obtain ⟨w1, w2, w3, -⟩ := h1 b hb
  have key : b.2 ≤ r := by
    by_contra hlt
    push Not at hlt
    have ht : max b.1 r < b.2 := max_lt w2 hlt
    have ht0 : 0 ≤ max b.1 r := w1.trans (le_max_left _ _)
    have hr := h2 (max b.1 r) (max b.1 r) le_rfl ht0 (ht.trans_le w3)
    rw [vrMap_rank_zero le_rfl (h _ ht0 (le_max_right _ _))] at hr
    have hpos : 0 < barsThrough B.barcode (max b.1 r) (max b.1 r) := by
      unfold barsThrough
      exact List.countP_pos_iff.2 ⟨b, hb, by simp [lt_max_iff, max_lt_iff, w2, hlt]⟩
    omega
  exact ⟨w2.trans_le key, key⟩

/-- **C71.** A central point: if some point of the cloud is at distance at most `r` from all the others, every
bar of positive degree is over at the radius `r`. -/
theorem C71_central_point (hp : p.Prime) {pdist : List Pt → List (List α)} {d : Pt → Pt → α}
    (hd : IsDistTable pdist d) (hsym : ∀ a b, d a b = d b a) {argsort : List α → List Nat}
    (ha : IsArgsort argsort) (rnd : α → α) (cloud : List Pt) {maxR : α} (hmax : 0 < maxR) (maxDim : Int)
    {L : LocalOut α} (hL : localPersistentHomology pdist argsort rnd cloud maxR maxDim p = .ok L)
    {c : Pt} (hc : c ∈ cloud) {r : α} (hr : ∀ a ∈ cloud, d c a ≤ r)
    (e : ℕ) (h1 : 1 ≤ e) (he : (e : Int) < maxDim) :
    ∃ B, L.ph.hom[e]? = some B ∧ ∀ b ∈ B.barcode, b.1 < r ∧ b.2 ≤ r := by
  refine bars_end_of_acyclic hp hd.isPdist ha hmax hL (he.trans_le (le_max_left _ _)) fun t ht hrt => ?_
  obtain ⟨w, hw, rfl⟩ := List.getElem_of_mem hc
  refine vrCycles_le_of_acyc _ h1 (AcycAt.cone _ _ le_rfl (w := w) (by simpa using hw) ?_ ?_ _)
  · intro u hu _
    rw [cloudDist_getElem hd hw (Finset.mem_range.1 hu)]
    exact (hr _ (List.getElem_mem _)).trans hrt
  · intro u hu _
    rw [cloudDist_getElem hd (Finset.mem_range.1 hu) hw, hsym]
    exact (hr _ (List.getElem_mem _)).trans hrt

/-- **C71.** In degree zero, with a central point, exactly one bar lasts beyond the radius `r < max_r`. -/
theorem C71_central_point_component (hp : p.Prime) {pdist : List Pt → List (List α)} {d : Pt → Pt → α}
    (hd : IsDistTable pdist d) (hsym : ∀ a b, d a b = d b a) {argsort : List α → List Nat}
    (ha : IsArgsort argsort) (rnd : α → α) (cloud : List Pt) {maxR : α} (hmax : 0 < maxR) (maxDim : Int)
    {L : LocalOut α} (hL : localPersistentHomology pdist argsort rnd cloud maxR maxDim p = .ok L)
    {c : Pt} (hc : c ∈ cloud) {r : α} (hr : ∀ a ∈ cloud, d c a ≤ r) (hrR : r < maxR) :
    ∃ B, L.ph.hom[0]? = some B ∧ (B.barcode.filter fun b => decide (r < b.2)).length = 1 := by
  obtain ⟨B, hB, -, h2⟩ := C66_components_count hp hd hsym ha rnd cloud hmax maxDim hL
  refine ⟨B, hB, ?_⟩
  rw [h2 r ((hd.nonneg c c).trans (hr c hc)) hrR, Nat.card_eq_one_iff_unique]
  obtain ⟨w, hw, rfl⟩ := List.getElem_of_mem hc
  have hreach : ∀ u, (nearGraph d hsym cloud r).connectedComponentMk u =
      (nearGraph d hsym cloud r).connectedComponentMk ⟨w, hw⟩ := by
    intro u
    rw [SimpleGraph.ConnectedComponent.eq]
    by_cases hu : u = ⟨w, hw⟩
    · rw [hu]
    · refine SimpleGraph.Adj.reachable ⟨hu, ?_⟩
      rw [hsym]
      exact hr _ (List.getElem_mem _)
  refine ⟨⟨fun x y => ?_⟩, ⟨(nearGraph d hsym cloud r).connectedComponentMk ⟨w, hw⟩⟩⟩
  obtain ⟨x, rfl⟩ := x.exists_rep
  obtain ⟨y, rfl⟩ := y.exists_rep
  exact (hreach x).trans (hreach y).symm

/-- The barcode is empty if larger neighbours are always neighbours. -/
theorem bars_empty_of_chordal (hp : p.Prime) {pdist : List Pt → List (List α)} (hd : IsPdist pdist)
    {argsort : List α → List Nat} (ha : IsArgsort argsort) {rnd : α → α} {cloud : List Pt} {maxR : α}
    (hmax : 0 < maxR) {maxDim : Int} {L : LocalOut α}
    (hL : localPersistentHomology pdist argsort rnd cloud maxR maxDim p = .ok L)
    {e : ℕ} (h1 : 1 ≤ e) (he : (e : Int) < maxDim)
    (hch : ∀ v u w, v < u → u < w → w < cloud.length → cloudDist pdist cloud w u ≤
      max (cloudDist pdist cloud u v) (cloudDist pdist cloud w v)) :
    ∃ B, L.ph.hom[e]? = some B ∧ B.barcode = [] := by
  obtain ⟨B, hB, h2⟩ := bars_end_of_acyclic (r := 0) hp hd ha hmax hL (he.trans_le (le_max_left _ _)) (by
    intro t _ _
    obtain ⟨e, rfl⟩ : ∃ e', e = e' + 1 := ⟨e - 1, by omega⟩
    refine vrCycles_le_of_acyc _ h1 ?_
    -- vertices outside of the cloud do not matter
    have hcong : ∀ m, cliqueChains (ZMod p) (fun u v => cloudDist pdist cloud v u ≤ t) (range cloud.length) m =
        cliqueChains (ZMod p) (fun u v => v < cloud.length → cloudDist pdist cloud v u ≤ t)
          (range cloud.length) m := by
      intro m
      unfold cliqueChains
      congr 1
      ext x
      refine and_congr_right fun _ => and_congr_right fun hx => ?_
      constructor
      · exact fun h => h.imp fun h => ⟨h.1, fun _ => h.2⟩
      · intro h
        have hinc : x.Pairwise (· < ·) := h.imp fun h => h.1
        refine (pairwise_iff_forall_lt hinc).2 fun u hu v hv huv => ⟨huv, ?_⟩
        exact ((pairwise_iff_forall_lt hinc).1 h u hu v hv huv).2 (Finset.mem_range.1 (hx v hv))
    unfold AcycAt
    rw [hcong, hcong]
    refine chordal_acyclic (adj := fun u v => v < cloud.length → cloudDist pdist cloud v u ≤ t)
      ?_ _ (range cloud.length) e le_rfl
    intro v u w hvu huw h1 h2 hw
    exact (hch v u w hvu huw hw).trans (max_le (h1 (huw.trans hw)) (h2 hw)))
  refine ⟨B, hB, List.eq_nil_iff_forall_not_mem.2 fun b hb => ?_⟩
  obtain ⟨B', hB', h3, -⟩ := local_ranks hp hd ha hmax hL (he.trans_le (le_max_left _ _))
  rw [hB] at hB'
  obtain rfl := Option.some.inj hB'
  exact absurd ((h3 b hb).1) (not_le.2 (h2 b hb).1)

/-- **C72.** A hierarchy: if of the three distances between three points the two largest are always equal
(an ultrametric), there are no bars in positive degrees. -/
theorem C72_hierarchy (hp : p.Prime) {pdist : List Pt → List (List α)} {d : Pt → Pt → α}
    (hd : IsDistTable pdist d) (hsym : ∀ a b, d a b = d b a) {argsort : List α → List Nat}
    (ha : IsArgsort argsort) (rnd : α → α) (cloud : List Pt) {maxR : α} (hmax : 0 < maxR) (maxDim : Int)
    {L : LocalOut α} (hL : localPersistentHomology pdist argsort rnd cloud maxR maxDim p = .ok L)
    (hultra : ∀ a ∈ cloud, ∀ b ∈ cloud, ∀ c ∈ cloud, d a c ≤ max (d a b) (d b c))
    (e : ℕ) (h1 : 1 ≤ e) (he : (e : Int) < maxDim) :
    ∃ B, L.ph.hom[e]? = some B ∧ B.barcode = [] := by
  refine bars_empty_of_chordal hp hd.isPdist ha hmax hL h1 he fun v u w hvu huw hw => ?_
  rw [cloudDist_getElem hd hw (huw.trans hw), cloudDist_getElem hd (huw.trans hw) (hvu.trans (huw.trans hw)),
    cloudDist_getElem hd hw (hvu.trans (huw.trans hw)), hsym cloud[u] cloud[v], max_comm]
  exact hultra _ (List.getElem_mem _) _ (List.getElem_mem _) _ (List.getElem_mem _)

theorem rank_repeat (hp : p.Prime) {pdist : List Pt → List (List α)} {d : Pt → Pt → α}
    (hd : IsDistTable pdist d) (hsym : ∀ a b, d a b = d b a) {cloud cloud' : List Pt} {x : Pt}
    (hx : x ∈ cloud) (hx0 : d x x = 0) (hperm : cloud'.Perm (x :: cloud)) (e : ℕ) {s t : α} (hs : 0 ≤ s)
    (hst : s ≤ t) :
    Module.finrank (ZMod p) (LinearMap.range (vrMap (ZMod p) (cloudDist pdist cloud) cloud.length e hst)) =
    Module.finrank (ZMod p) (LinearMap.range (vrMap (ZMod p) (cloudDist pdist cloud') cloud'.length e hst)) := by
  obtain ⟨l, r, rfl⟩ := List.append_of_mem hx
  have p1 : (l ++ x :: r).Perm ((l ++ r) ++ [x]) :=
    List.perm_middle.trans (List.perm_append_singleton x (l ++ r)).symm
  have p2 : cloud'.Perm (((l ++ r) ++ [x]) ++ [x]) :=
    hperm.trans ((List.perm_append_singleton x _).symm.trans (p1.append_right [x]))
  have r1 := rank_perm hp hd hsym p1 e hst []
  have r2 := rank_perm hp hd hsym p2 e hst []
  rw [List.nil_append, List.nil_append] at r1 r2
  rw [r1, r2]
  set rest := l ++ r with hrest
  have hl1 : (rest ++ [x]).length = rest.length + 1 := by simp
  have hl2 : (rest ++ [x] ++ [x]).length = rest.length + 2 := by simp
  rw [hl1, hl2]
  refine (rank_twin hp ?_ ?_ ?_ e hs hst).symm
  · intro u hu v hv
    have hu1 : u < (rest ++ [x]).length := by omega
    have hv1 : v < (rest ++ [x]).length := by omega
    rw [cloudDist_getElem hd hu1 hv1, cloudDist_getElem hd (by omega) (by omega),
      List.getElem_append_left hu1, List.getElem_append_left hv1]
  · intro u hu
    rw [cloudDist_getElem hd (by omega) (by omega), cloudDist_getElem hd (by omega) (by omega),
      List.getElem_append_right (by simp), List.getElem_append_left (as := rest ++ [x]) (i := rest.length)
        (by simp), List.getElem_append_right le_rfl]
    simp
  · rw [cloudDist_getElem hd (by omega) (by omega), List.getElem_append_right (by simp),
      List.getElem_append_left (as := rest ++ [x]) (i := rest.length) (by simp),
      List.getElem_append_right le_rfl]
    simp [hx0]

/-- **C73.** A point listed once more does not change the barcodes: the clouds `cloud` and `x` together with
`cloud`, in any order, have the same bars in every degree if `x` is a point of `cloud`. -/
theorem C73_repeated_point (hp : p.Prime) {pdist : List Pt → List (List α)} {d : Pt → Pt → α}
    (hd : IsDistTable pdist d) (hsym : ∀ a b, d a b = d b a) {argsort argsort' : List α → List Nat}
    (ha : IsArgsort argsort) (ha' : IsArgsort argsort') (rnd rnd' : α → α) {cloud cloud' : List Pt} {x : Pt}
    (hx : x ∈ cloud) (hx0 : d x x = 0) (hperm : cloud'.Perm (x :: cloud)) {maxR : α} (hmax : 0 < maxR)
    (maxDim : Int) {L L' : LocalOut α}
    (hL : localPersistentHomology pdist argsort rnd cloud maxR maxDim p = .ok L)
    (hL' : localPersistentHomology pdist argsort' rnd' cloud' maxR maxDim p = .ok L')
    (e : ℕ) (he : (e : Int) < max maxDim 1) :
    ∃ B B', L.ph.hom[e]? = some B ∧ L'.ph.hom[e]? = some B' ∧ B.barcode.Perm B'.barcode := by
  obtain ⟨B, hB, h1, h2⟩ := local_ranks hp hd.isPdist ha hmax hL he
  obtain ⟨B', hB', h1', h2'⟩ := local_ranks hp hd.isPdist ha' hmax hL' he
  refine ⟨B, B', hB, hB', perm_of_ranks (maxR := maxR) (fun b hb => ⟨(h1 b hb).1, (h1 b hb).2.1,
    (h1 b hb).2.2.1⟩) (fun b hb => ⟨(h1' b hb).1, (h1' b hb).2.1, (h1' b hb).2.2.1⟩) ?_⟩
  intro s t hst hs ht
  rw [h2 s t hst hs ht, h2' s t hst hs ht]
  exact rank_repeat hp hd hsym hx hx0 hperm e hs hst

end

section

variable {α : Type} [AddCommGroup α] [LinearOrder α] [IsOrderedAddMonoid α] {p : ℕ} {Pt : Type}

/-- **C72.** Points on a line: if the distances are the differences of one coordinate, there are no bars in
positive degrees, in whatever order the points are listed. -/
theorem C72_line (hp : p.Prime) {pdist : List Pt → List (List α)} {d : Pt → Pt → α}
    (hd : IsDistTable pdist d) (x : Pt → α) (hx : ∀ a b, d a b = |x a - x b|) {argsort : List α → List Nat}
    (ha : IsArgsort argsort) (rnd : α → α) (cloud : List Pt) {maxR : α} (hmax : 0 < maxR) (maxDim : Int)
    {L : LocalOut α} (hL : localPersistentHomology pdist argsort rnd cloud maxR maxDim p = .ok L)
    (e : ℕ) (h1 : 1 ≤ e) (he : (e : Int) < maxDim) :
    ∃ B, L.ph.hom[e]? = some B ∧ B.barcode = [] := by
  have hsym : ∀ a b, d a b = d b a := fun a b => by rw [hx, hx, abs_sub_comm]
  set le : Pt → Pt → Bool := fun a b => decide (x a ≤ x b) with hle
  have hsort := List.pairwise_mergeSort (le := le)
    (fun a b c h1 h2 => by simp only [hle, decide_eq_true_eq] at *; exact h1.trans h2)
    (fun a b => by simp only [hle, Bool.or_eq_true, decide_eq_true_eq]; exact le_total _ _) cloud
  obtain ⟨Dist, D, out, -, -, -, -, -, -, -, -, -, hL'⟩ :=
    local_run hp hd.isPdist ha rnd (cloud.mergeSort le) hmax maxDim
  obtain ⟨B', hB', hnil⟩ := bars_empty_of_chordal hp hd.isPdist ha hmax hL' h1 he (by
    intro v u w hvu huw hw
    rw [cloudDist_getElem hd hw (huw.trans hw), cloudDist_getElem hd hw (hvu.trans (huw.trans hw))]
    refine le_max_of_le_right ?_
    have s1 := List.pairwise_iff_getElem.1 hsort v u (hvu.trans (huw.trans hw)) (huw.trans hw) hvu
    have s2 := List.pairwise_iff_getElem.1 hsort u w (huw.trans hw) hw huw
    simp only [hle, decide_eq_true_eq] at s1 s2
    rw [hx, hx, abs_of_nonneg (sub_nonneg.2 s2), abs_of_nonneg (sub_nonneg.2 (s1.trans s2))]
    exact sub_le_sub_left s1 _)
  obtain ⟨B, B'', hB, hB'', hperm⟩ := C63_point_order hp hd hsym ha ha rnd rnd
    (List.mergeSort_perm cloud le).symm hmax maxDim hL hL' e (he.trans_le (le_max_left _ _))
  rw [hB'] at hB''
  obtain rfl := Option.some.inj hB''
  rw [hnil] at hperm
  exact ⟨B, hB, hperm.eq_nil⟩

end

/-! ## Concrete cases -/

/-- C71: the corner `(0, 0)` of a square is at distance at most `4` of the others, and the loop is over at
`4`; with a point in the centre, at distance `2`, there is no loop any more. -/
example : (∀ a ∈ [((0 : Int), (0 : Int)), (0, 2), (2, 0), (2, 2)], fourD (0, 0) a ≤ 4) ∧
    fourBars [(0, 0), (0, 2), (2, 0), (2, 2)] 9 3 5 =
      .ok [[(0, 9), (0, 2), (0, 2), (0, 2)], [(2, 4)], [], []] ∧
    (∀ a ∈ [((0 : Int), (0 : Int)), (0, 2), (2, 0), (2, 2), (1, 1)], fourD (1, 1) a ≤ 2) ∧
    fourBars [(0, 0), (0, 2), (2, 0), (2, 2), (1, 1)] 3 2 5 =
      .ok [[(0, 3), (0, 2), (0, 2), (0, 2), (0, 2)], [], []] := by
  refine ⟨by decide +kernel, by decide +kernel, by decide +kernel, by decide +kernel⟩

/-- Points of a line, with the differences of coordinates as distances. -/
def lineTable (l : List ℚ) : List (List ℚ) := l.map fun a => l.map fun b => |a - b|

/-- The distances between the leaves of a tree with two branches and two leaves on each. -/
def leafDist (a b : ℕ) : ℚ := if a = b then 0 else if a / 2 = b / 2 then 1 else 2

/-- C72: four points on a line, not in their order, and the leaves of a tree. -/
example : IsDistTable lineTable (fun a b => |a - b|) ∧
    ((localPersistentHomology lineTable stableArgsort id [3, 0, 1, 2] 5 3 5).map
      fun L => L.ph.hom.map fun B => B.barcode) = .ok [[(0, 5), (0, 1), (0, 1), (0, 1)], [], [], []] ∧
    (∀ a ∈ [0, 1, 2, 3], ∀ b ∈ [0, 1, 2, 3], ∀ c ∈ [0, 1, 2, 3],
      leafDist a c ≤ max (leafDist a b) (leafDist b c)) ∧
    ((localPersistentHomology (fun l => l.map fun a => l.map (leafDist a)) stableArgsort id [0, 1, 2, 3] 5 3
      5).map fun L => L.ph.hom.map fun B => B.barcode) = .ok [[(0, 5), (0, 2), (0, 1), (0, 1)], [], [], []] := by
  refine ⟨⟨fun _ => rfl, fun a b => abs_nonneg _⟩, by decide +kernel, by decide +kernel, by decide +kernel⟩

/-- C73: a corner of the rectangle is listed twice. -/
example : fourBars [(0, 0), (0, 3), (4, 0), (4, 3)] 6 2 5 =
      .ok [[(0, 6), (0, 4), (0, 3), (0, 3)], [(4, 6)], []] ∧
    fourBars [(0, 0), (0, 3), (4, 0), (0, 0), (4, 3)] 6 2 5 =
      .ok [[(0, 6), (0, 4), (0, 3), (0, 3)], [(4, 6)], []] := by
  refine ⟨by decide +kernel, by decide +kernel⟩

end Permaviss
