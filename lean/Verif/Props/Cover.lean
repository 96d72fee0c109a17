import Verif.Lemmas.CoverMain
import Mathlib.Data.Rat.Floor

/-!
# Cubical covers: C37 to C43
-/

namespace Permaviss

/-! ## C37 -/

/-- **C37.** Iterating `next_hypercube` from the zero position: after `k` steps the position is the one
whose row-major index is `k`; so each position of the grid occurs after exactly one number of steps
`k < prod(div)`, and the last one is kept. -/
theorem C37_enumerates {div : List Nat} (hpos : ∀ d ∈ div, 0 < d) :
    (∀ k < div.prod, IsPos div ((fun pos => nextHypercube pos div)^[k] (div.map fun _ => 0)) ∧
      rank div ((fun pos => nextHypercube pos div)^[k] (div.map fun _ => 0)) = k) ∧
    (∀ pos, IsPos div pos → ∃! k, k < div.prod ∧
      (fun pos => nextHypercube pos div)^[k] (div.map fun _ => 0) = pos) ∧
    ∀ pos, IsPos div pos → rank div pos + 1 = div.prod → nextHypercube pos div = pos := by
  refine ⟨fun k hk => posAt_spec hpos hk, ?_, fun pos h e => (nextHypercube_spec h).2 e⟩
  intro pos h
  refine ⟨rank div pos, ⟨rank_lt h, posAt_rank h⟩, ?_⟩
  rintro k ⟨hk, e⟩
  have := (posAt_spec hpos hk).2
  unfold posAt at this
  rw [e] at this
  exact this.symm

example : (∀ d ∈ [3, 3, 2], 0 < d) ∧ IsPos [3, 3, 2] [1, 1, 1] ∧ rank [3, 3, 2] [1, 1, 1] = 9 ∧
    nextHypercube [1, 1, 1] [3, 3, 2] = [1, 2, 0] := by
  refine ⟨by decide, ?_, by decide, by decide⟩
  repeat' constructor

/-! ## C38, C39, C40 -/

section Box

variable {K : Type} [Field K] [LinearOrder K] [FloorRing K] [IsStrictOrderedRing K]

/-- **C38.** For a nonempty cloud whose points do not all coincide (`side > 0`), `generate_cover`
returns; the number of cubes along a coordinate is the least one that covers the box, and the list of
the cube at a position holds, in increasing order, the indices of exactly the points in that cube
enlarged by half the overlap.  The point clouds hold the same points. -/
theorem C38_membership {maxDiv dim : Nat} {overlap : K} {cloud : List (List K)} {lo hi : Nat → K}
    {side : K} (hne : cloud ≠ []) (hd : 0 < dim) (hm : 0 < maxDiv)
    (hbox : IsBox maxDiv dim cloud lo hi side) (hs : 0 < side) :
    ∃ out div, generateCover maxDiv overlap dim cloud = .ok out ∧ IsDiv dim lo hi side div ∧
      ∃ L, out.pointsIN[0]? = some L ∧ L.length = div.prod ∧
      (∀ pos, IsPos div pos → ∃ l, L[rank div pos]? = some l ∧ l.Pairwise (· < ·) ∧
        ∀ i, i ∈ l ↔ i < cloud.length ∧ InCube dim lo side overlap pos (cloud.getD i [])) ∧
      out.clouds = out.pointsIN.map fun l => l.map fun idx => idx.map fun i => cloud.getD i [] := by
  obtain ⟨out, div, L, rest, h1, h2, -, h4, h5, h6, -, -, h9⟩ :=
    generateCover_ok (overlap := overlap) hne hd hm hbox hs
  exact ⟨out, div, h1, h2, L, by simp [h4], h5, h6, h9⟩

/-- The degenerate inputs of `generate_cover` raise `ValueError`. -/
theorem C38_degenerate {maxDiv dim : Nat} {overlap : K} {cloud : List (List K)} {lo hi : Nat → K}
    (hd : 0 < dim) (hm : 0 < maxDiv)
    (h : cloud = [] ∨ IsBox maxDiv dim cloud lo hi 0) :
    generateCover maxDiv overlap dim cloud = .error .valueError := by
  unfold generateCover
  rw [if_pos]
  by_cases hne : cloud = []
  · exact Or.inl hne
  · rcases h with h | h
    · exact Or.inl h
    · exact Or.inr (isBox_unique hm h (coverSide_isBox hne hd hm)).2.2.symm

/-- The heart of C39 and C40: points whose coordinates differ by at most the overlap are in one cube. -/
theorem exists_cube {dim : Nat} {overlap : K} {cloud : List (List K)} {lo hi : Nat → K}
    {side : K} {div : List Nat} (hlo : ∀ d < dim, ∀ pt ∈ cloud, lo d ≤ pt.getD d 0)
    (hhi : ∀ d < dim, ∀ pt ∈ cloud, pt.getD d 0 ≤ hi d)
    (hdiv : IsDiv dim lo hi side div) (hs : 0 < side) (hw : ∀ d < dim, lo d < hi d)
    (S : List (List K)) (hne : S ≠ []) (hS : ∀ pt ∈ S, pt ∈ cloud)
    (hsmall : ∀ x ∈ S, ∀ y ∈ S, ∀ d < dim, x.getD d 0 - y.getD d 0 ≤ overlap) :
    ∃ pos, IsPos div pos ∧ ∀ pt ∈ S, InCube dim lo side overlap pos pt := by
  have hcoord : ∀ d, ∃ k, d < dim → k < div.getD d 0 ∧ ∀ pt ∈ S,
      lo d + k * side - overlap / 2 ≤ pt.getD d 0 ∧ pt.getD d 0 ≤ lo d + (k + 1) * side + overlap / 2 := by
    intro d
    by_cases hd : d < dim
    · obtain ⟨⟨x, hx, ex⟩, hx'⟩ := minCoord_isLeast hne d
      obtain ⟨⟨y, hy, ey⟩, hy'⟩ := maxCoord_isGreatest hne d
      have h1 := hlo d hd x (hS x hx)
      have h2 := hhi d hd y (hS y hy)
      have h3 := hsmall y hy x hx d hd
      have h4 : minCoord S d ≤ maxCoord S d := minCoord_le_maxCoord hne d
      have h5 := (hdiv.2 d hd).1
      simp only [Set.mem_ofPred_eq] at h5
      rw [← ex] at h1 h3
      rw [← ey] at h2 h3
      obtain ⟨k, hk, h6, h7⟩ := exists_cell (side := side) (div.getD d 0)
        ((isDiv_pos_iff hdiv hd hs).2 (hw d hd)) (t := (minCoord S d + maxCoord S d) / 2 - lo d)
        (by linarith) (by linarith)
      refine ⟨k, fun _ => ⟨hk, fun pt hpt => ?_⟩⟩
      have h8 : minCoord S d ≤ pt.getD d 0 := hx' ⟨pt, hpt, rfl⟩
      have h9 : pt.getD d 0 ≤ maxCoord S d := hy' ⟨pt, hpt, rfl⟩
      constructor <;> linarith
    · exact ⟨0, fun h => absurd h hd⟩
  choose f hf using hcoord
  refine ⟨(List.range dim).map f, ?_, ?_⟩
  · unfold IsPos
    rw [List.forall₂_iff_get]
    refine ⟨by simp [hdiv.1], ?_⟩
    intro d h1 h2
    have hd : d < dim := by simpa using h1
    have := (hf d hd).1
    rw [List_getD_eq_getElem _ _ h2] at this
    simpa using this
  · intro pt hpt d hd
    have := (hf d hd).2 pt hpt
    have e : ((List.range dim).map f).getD d 0 = f d := by
      rw [List_getD_eq_getElem _ _ (by simpa using hd)]; simp
    rw [e]
    exact this

/-- **C39, partial.** If the cloud is not flat in any coordinate, every point lies in some cube.  The
hypothesis `lo d < hi d` is missing in the property and is necessary: `C39_violated`. -/
theorem C39_covers_partial {maxDiv dim : Nat} {overlap : K} {cloud : List (List K)} {lo hi : Nat → K}
    {side : K} (hne : cloud ≠ []) (hd : 0 < dim) (hm : 0 < maxDiv)
    (hbox : IsBox maxDiv dim cloud lo hi side) (hs : 0 < side) (ho : 0 ≤ overlap)
    (hw : ∀ d < dim, lo d < hi d) :
    ∃ out L, generateCover maxDiv overlap dim cloud = .ok out ∧ out.pointsIN[0]? = some L ∧
      ∀ i < cloud.length, ∃ l ∈ L, i ∈ l := by
  obtain ⟨out, div, L, rest, h1, h2, -, h4, h5, h6, -, -, -⟩ :=
    generateCover_ok (overlap := overlap) hne hd hm hbox hs
  refine ⟨out, L, h1, by simp [h4], ?_⟩
  intro i hi'
  have hmem : cloud.getD i [] ∈ cloud := by
    rw [List_getD_eq_getElem _ _ hi']; exact List.getElem_mem hi'
  obtain ⟨pos, p1, p2⟩ := exists_cube (overlap := overlap)
    (fun d hd pt hpt => (hbox.isLo d hd).2 ⟨pt, hpt, rfl⟩)
    (fun d hd pt hpt => (hbox.isHi d hd).2 ⟨pt, hpt, rfl⟩) h2 hs hw [cloud.getD i []] (by simp)
    (by simpa using hmem) (by
      intro x hx y hy d _
      rw [List.mem_singleton] at hx hy
      subst hx hy
      simpa using ho)
  obtain ⟨l, l1, -, l3⟩ := h6 pos p1
  exact ⟨l, List.mem_of_getElem? l1, (l3 i).2 ⟨hi', p2 _ (by simp)⟩⟩

/-- **C39, violation.** If some coordinate is constant (and another one is not) there are no cubes at
all. -/
theorem C39_violated {maxDiv dim : Nat} {overlap : K} {cloud : List (List K)} {lo hi : Nat → K}
    {side : K} (hne : cloud ≠ []) (hm : 0 < maxDiv)
    (hbox : IsBox maxDiv dim cloud lo hi side) (hs : 0 < side) (hflat : ∃ d < dim, lo d = hi d) :
    ∃ out, generateCover maxDiv overlap dim cloud = .ok out ∧ out.pointsIN[0]? = some [] := by
  obtain ⟨d, hd, e⟩ := hflat
  obtain ⟨out, div, L, rest, h1, h2, -, h4, h5, -, -, -, -⟩ :=
    generateCover_ok (overlap := overlap) hne (by omega) hm hbox hs
  refine ⟨out, h1, ?_⟩
  have h0 : div.getD d 0 = 0 := by
    by_contra hc
    have := (isDiv_pos_iff h2 hd hs).1 (by omega)
    exact absurd e this.ne
  have hdl : d < div.length := by rw [h2.1]; exact hd
  have : div.prod = 0 := by
    apply List.prod_eq_zero
    rw [← h0, List_getD_eq_getElem _ _ hdl]
    exact List.getElem_mem hdl
  rw [this] at h5
  rw [h4, List.length_eq_zero_iff.1 h5]
  rfl

/-- **C40.** Points with pairwise Euclidean distance at most `maxR ≤ overlap` lie in one cube. -/
theorem C40_small_sets {maxDiv dim : Nat} {overlap maxR : K} {cloud : List (List K)}
    {lo hi : Nat → K} {side : K} (hne : cloud ≠ []) (hd : 0 < dim) (hm : 0 < maxDiv)
    (hbox : IsBox maxDiv dim cloud lo hi side) (hs : 0 < side) (hr : 0 ≤ maxR) (ho : maxR ≤ overlap)
    (hw : ∀ d < dim, lo d < hi d) :
    ∃ out L, generateCover maxDiv overlap dim cloud = .ok out ∧ out.pointsIN[0]? = some L ∧
      ∀ s : List Nat, s ≠ [] → (∀ i ∈ s, i < cloud.length) →
        (∀ i ∈ s, ∀ j ∈ s, ((List.range dim).map fun d =>
          ((cloud.getD i []).getD d 0 - (cloud.getD j []).getD d 0) ^ 2).sum ≤ maxR ^ 2) →
        ∃ l ∈ L, ∀ i ∈ s, i ∈ l := by
  obtain ⟨out, div, L, rest, h1, h2, -, h4, h5, h6, -, -, -⟩ :=
    generateCover_ok (overlap := overlap) hne hd hm hbox hs
  refine ⟨out, L, h1, by simp [h4], ?_⟩
  intro s hsne hlt hclose
  have hmem : ∀ i ∈ s, cloud.getD i [] ∈ cloud := fun i hi' => by
    rw [List_getD_eq_getElem _ _ (hlt i hi')]; exact List.getElem_mem _
  obtain ⟨pos, p1, p2⟩ := exists_cube (overlap := overlap)
    (fun d hd pt hpt => (hbox.isLo d hd).2 ⟨pt, hpt, rfl⟩)
    (fun d hd pt hpt => (hbox.isHi d hd).2 ⟨pt, hpt, rfl⟩) h2 hs hw (s.map fun i => cloud.getD i [])
    (by simpa using hsne)
    (by
      intro pt hpt
      obtain ⟨i, hi', rfl⟩ := List.mem_map.1 hpt
      exact hmem i hi') (by
      intro x hx y hy d hd
      obtain ⟨i, hi', rfl⟩ := List.mem_map.1 hx
      obtain ⟨j, hj', rfl⟩ := List.mem_map.1 hy
      have h7 := hclose i hi' j hj'
      have h8 : ((cloud.getD i []).getD d 0 - (cloud.getD j []).getD d 0) ^ 2 ≤
          ((List.range dim).map fun d =>
          ((cloud.getD i []).getD d 0 - (cloud.getD j []).getD d 0) ^ 2).sum :=
        List.single_le_sum (fun x hx => by
          obtain ⟨d, -, rfl⟩ := List.mem_map.1 hx
          exact sq_nonneg _) _ (List.mem_map.2 ⟨d, List.mem_range.2 hd, rfl⟩)
      have h9 := abs_le_of_sq_le_sq (le_trans h8 h7) hr
      exact le_trans (le_abs_self _) (le_trans h9 ho))
  obtain ⟨l, l1, -, l3⟩ := h6 pos p1
  exact ⟨l, List.mem_of_getElem? l1, fun i hi' => (l3 i).2 ⟨hlt i hi',
    p2 _ (List.mem_map.2 ⟨i, hi', rfl⟩)⟩⟩

end Box

/-- Three points of the plane. -/
def coverEx : List (List ℚ) := [[0, 0], [2, 1], [1, 1]]

theorem coverEx_box : IsBox 2 2 coverEx (fun _ => 0) (fun d => 2 - d) 1 := by
  refine ⟨?_, ?_, ⟨⟨0, by omega, by norm_num⟩, ?_⟩⟩
  · intro d hd
    refine ⟨⟨[0, 0], by simp [coverEx], ?_⟩, ?_⟩
    · have : d = 0 ∨ d = 1 := by omega
      rcases this with rfl | rfl <;> rfl
    · rintro x ⟨pt, hpt, rfl⟩
      have : d = 0 ∨ d = 1 := by omega
      simp only [coverEx, List.mem_cons, List.not_mem_nil, or_false] at hpt
      rcases this with rfl | rfl <;> rcases hpt with rfl | rfl | rfl <;> norm_num
  · intro d hd
    refine ⟨⟨[2, 1], by simp [coverEx], ?_⟩, ?_⟩
    · have : d = 0 ∨ d = 1 := by omega
      rcases this with rfl | rfl <;> norm_num
    · rintro x ⟨pt, hpt, rfl⟩
      have : d = 0 ∨ d = 1 := by omega
      simp only [coverEx, List.mem_cons, List.not_mem_nil, or_false] at hpt
      rcases this with rfl | rfl <;> rcases hpt with rfl | rfl | rfl <;> norm_num
  · rintro x ⟨d, hd, rfl⟩
    have : d = 0 ∨ d = 1 := by omega
    rcases this with rfl | rfl <;> norm_num

/-- The hypotheses of C38, C39 and C40 are met. -/
example : coverEx ≠ [] ∧ IsBox 2 2 coverEx (fun _ => 0) (fun d => 2 - d) 1 ∧ (0 : ℚ) < 1 ∧
    ∀ d < 2, ((0 : ℚ) < 2 - (d : Nat)) := by
  refine ⟨by simp [coverEx], coverEx_box, by norm_num, ?_⟩
  intro d hd
  have : d = 0 ∨ d = 1 := by omega
  rcases this with rfl | rfl <;> norm_num

/-- The hypotheses of `C39_violated` are met: two points on a horizontal line. -/
example : ([[0, 0], [1, 0]] : List (List ℚ)) ≠ [] ∧
    IsBox 1 2 ([[0, 0], [1, 0]] : List (List ℚ)) (fun _ => 0) (fun d => 1 - d) 1 ∧
    ∃ d < 2, (0 : ℚ) = 1 - (d : Nat) := by
  refine ⟨by simp, ⟨?_, ?_, ⟨⟨0, by omega, by norm_num⟩, ?_⟩⟩, 1, by omega, by norm_num⟩
  · intro d hd
    refine ⟨⟨[0, 0], by simp, ?_⟩, ?_⟩
    · have : d = 0 ∨ d = 1 := by omega
      rcases this with rfl | rfl <;> rfl
    · rintro x ⟨pt, hpt, rfl⟩
      have : d = 0 ∨ d = 1 := by omega
      simp only [List.mem_cons, List.not_mem_nil, or_false] at hpt
      rcases this with rfl | rfl <;> rcases hpt with rfl | rfl <;> norm_num
  · intro d hd
    refine ⟨⟨[1, 0], by simp, ?_⟩, ?_⟩
    · have : d = 0 ∨ d = 1 := by omega
      rcases this with rfl | rfl <;> norm_num
    · rintro x ⟨pt, hpt, rfl⟩
      have : d = 0 ∨ d = 1 := by omega
      simp only [List.mem_cons, List.not_mem_nil, or_false] at hpt
      rcases this with rfl | rfl <;> rcases hpt with rfl | rfl <;> norm_num
  · rintro x ⟨d, hd, rfl⟩
    have : d = 0 ∨ d = 1 := by omega
    rcases this with rfl | rfl <;> norm_num

/-! ## C41, C42 -/

/-- **C41.** The edges of the nerve join, once, each pair of different positions that differ by at most
one in every coordinate; cubes are numbered by the row-major index. -/
theorem C41_nerve_edges {div : List Nat} (hpos : ∀ d ∈ div, 0 < d) :
    ∃ C E, nerveHypercubeCover div = .ok (div.prod, C) ∧ C[0]? = some E ∧ E.Nodup ∧
      ∀ u v, [u, v] ∈ E ↔ ∃ p q, IsPos div p ∧ IsPos div q ∧ Adjacent p q ∧ u < v ∧
        u = rank div p ∧ v = rank div q := by
  obtain ⟨G, C, -, -, -, g4, g5, g6, g7, -⟩ := nerve_ok div
  obtain ⟨E, e1, e2, e3⟩ := g6 0 (by positivity)
  refine ⟨C, E, g4, e1, e2, ?_⟩
  intro u v
  rw [e3]
  constructor
  · rintro ⟨-, h⟩
    have h' : u < v ∧ [u, v] ∈ G := by simpa [IsClique] using h
    obtain ⟨p, q, hp, hq, ha, hlt, e⟩ := (g7 hpos _).1 h'.2
    simp only [List.cons.injEq, and_true] at e
    exact ⟨p, q, hp, hq, ha, h'.1, e.1, e.2⟩
  · rintro ⟨p, q, hp, hq, ha, hlt, rfl, rfl⟩
    refine ⟨rfl, ?_⟩
    have : [rank div p, rank div q] ∈ G := (g7 hpos _).2 ⟨p, q, hp, hq, ha, hlt, rfl⟩
    simpa [IsClique] using ⟨hlt, this⟩

/-- All simplices of the nerve: sets of pairwise adjacent cubes. -/
theorem C41_nerve_simplices {div : List Nat} (hpos : ∀ d ∈ div, 0 < d) :
    ∃ C, nerveHypercubeCover div = .ok (div.prod, C) ∧ C.length = 2 ^ div.length ∧
      ∀ (k : Nat) (S : List (List Nat)), C[k]? = some S → S.Nodup ∧
        ∀ s, s ∈ S ↔ s.length = k + 2 ∧ s.Pairwise (· < ·) ∧
          ∃ ps : List (List Nat), (∀ p ∈ ps, IsPos div p) ∧ s = ps.map (rank div) ∧
            ∀ p ∈ ps, ∀ q ∈ ps, Adjacent p q := by
  obtain ⟨G, C, -, -, g3, g4, g5, g6, g7, -⟩ := nerve_ok div
  refine ⟨C, g4, g5, ?_⟩
  intro k S hS
  have hk : k < C.length := by
    by_contra hc
    rw [List.getElem?_eq_none (by omega)] at hS
    exact absurd hS (by simp)
  obtain ⟨S', e1, e2, e3⟩ := g6 k (by omega)
  rw [hS] at e1
  obtain rfl := Option.some.inj e1
  refine ⟨e2, fun s => ?_⟩
  rw [e3]
  constructor
  · rintro ⟨h1, h2⟩
    have hlt := g3 s (by omega) h2
    obtain ⟨-, h4, h5⟩ := clique_positions hpos (g7 hpos) h2 hlt
    refine ⟨h1, h2.imp fun h => h.1, s.map (posAt div), h4, ?_, h5⟩
    rw [List.map_map]
    conv_lhs => rw [← List.map_id s]
    refine List.map_congr_left fun v hv => ?_
    exact (posAt_spec hpos (hlt v hv)).2.symm
  · rintro ⟨h1, h2, ps, h3, rfl, h5⟩
    refine ⟨h1, ?_⟩
    unfold IsClique
    rw [List.pairwise_map] at h2 ⊢
    refine h2.imp_of_mem ?_
    intro p q hp hq hlt
    exact ⟨hlt, (g7 hpos _).2 ⟨p, q, h3 p hp, h3 q hq, h5 p hp q hq, hlt, rfl⟩⟩

/-- **C42.** The last entry of the returned nerve is empty: for every grid, even one without cubes. -/
theorem C42_last_empty (div : List Nat) :
    ∃ C, nerveHypercubeCover div = .ok (div.prod, C) ∧ C.length = 2 ^ div.length ∧
      C[2 ^ div.length - 1]? = some [] := by
  obtain ⟨G, C, -, -, g3, g4, g5, g6, g7, g8⟩ := nerve_ok div
  refine ⟨C, g4, g5, ?_⟩
  have hp : 0 < 2 ^ div.length := by positivity
  obtain ⟨S, e1, -, e3⟩ := g6 (2 ^ div.length - 1) (by omega)
  have hS : S = [] := by
    rw [List.eq_nil_iff_forall_not_mem]
    intro s hs
    obtain ⟨h1, h2⟩ := (e3 s).1 hs
    by_cases hpos : ∀ d ∈ div, 0 < d
    · have h3 := clique_card hpos (g7 hpos) h2 (g3 s (by omega) h2)
      have h4 := Nat.pow_le_pow_right (show 0 < 2 by omega) (wideDims_le div)
      omega
    · rw [g8 hpos] at h2
      match s, h1 with
      | a :: b :: s, _ => simp [IsClique] at h2; exact (h2.1 b).1 rfl
      | [a], h => simp at h
      | [], h => simp at h
  rw [hS] at e1
  exact e1

/-- **C42.** The nerve is pure: with `w` the number of coordinates along which there are at least two
cubes, a simplex has at most `2 ^ w` vertices, and a simplex with fewer vertices (a single cube
included) has a coface, obtained by adding one cube. -/
theorem C42_pure {div : List Nat} (hpos : ∀ d ∈ div, 0 < d) :
    ∃ C, nerveHypercubeCover div = .ok (div.prod, C) ∧
      (∀ S ∈ C, ∀ s ∈ S, s.length ≤ 2 ^ (div.filter fun d => decide (2 ≤ d)).length) ∧
      (∀ (k : Nat) (S : List (List Nat)) (s : List Nat), C[k]? = some S → s ∈ S →
        s.length < 2 ^ (div.filter fun d => decide (2 ≤ d)).length →
        ∃ (v : Nat) (T : List (List Nat)) (t : List Nat),
          v ∉ s ∧ C[k + 1]? = some T ∧ t ∈ T ∧ t.Perm (v :: s)) ∧
      (∀ u < div.prod, 1 < 2 ^ (div.filter fun d => decide (2 ≤ d)).length →
        ∃ (v : Nat) (T : List (List Nat)) (t : List Nat),
          v ≠ u ∧ C[0]? = some T ∧ t ∈ T ∧ t.Perm [v, u]) := by
  obtain ⟨G, C, -, -, g3, g4, g5, g6, g7, -⟩ := nerve_ok div
  have hcard : ∀ s, 2 ≤ s.length → IsClique G s → s.length ≤ 2 ^ wideDims div :=
    fun s h1 h2 => clique_card hpos (g7 hpos) h2 (g3 s h1 h2)
  have hlev : ∀ (k : Nat) (S : List (List Nat)), C[k]? = some S → k < C.length ∧
      ∀ s, s ∈ S ↔ s.length = k + 2 ∧ IsClique G s := by
    intro k S hS
    have hk : k < C.length := by
      by_contra hc
      rw [List.getElem?_eq_none (by omega)] at hS
      exact absurd hS (by simp)
    obtain ⟨S', e1, -, e3⟩ := g6 k (by omega)
    rw [hS] at e1
    obtain rfl := Option.some.inj e1
    exact ⟨hk, e3⟩
  have hw : 2 ^ wideDims div ≤ 2 ^ div.length :=
    Nat.pow_le_pow_right (show 0 < 2 by omega) (wideDims_le div)
  refine ⟨C, g4, ?_, ?_, ?_⟩
  · intro S hS s hs
    obtain ⟨k, hk, rfl⟩ := List.getElem_of_mem hS
    obtain ⟨h1, h2⟩ := ((hlev k _ (List.getElem?_eq_getElem hk)).2 s).1 hs
    exact hcard s (by omega) h2
  · intro k S s hS hs hlt
    obtain ⟨hk, e⟩ := hlev k S hS
    obtain ⟨h1, h2⟩ := (e s).1 hs
    obtain ⟨v, t, -, h4, h5, h6⟩ := clique_extend hpos (g7 hpos) h2 (g3 s (by omega) h2)
      (by rintro rfl; simp at h1) hlt
    have hlen : t.length = k + 1 + 2 := by rw [h6.length_eq]; simp [h1]
    change s.length < 2 ^ wideDims div at hlt
    obtain ⟨T, t1, -, t3⟩ := g6 (k + 1) (by omega)
    exact ⟨v, T, t, h4, t1, (t3 t).2 ⟨hlen, h5⟩, h6⟩
  · intro u hu hlt
    obtain ⟨v, t, -, h4, h5, h6⟩ := clique_extend hpos (g7 hpos) (s := [u]) (by simp [IsClique])
      (by simpa using hu) (by simp) hlt
    have hlen : t.length = 2 := by rw [h6.length_eq]; simp
    obtain ⟨T, t1, -, t3⟩ := g6 0 (by positivity)
    exact ⟨v, T, t, by simpa using h4, t1, (t3 t).2 ⟨hlen, h5⟩, h6⟩

/-- The docstring's example: six cubes, `1 × 3 × 2`. -/
example : (∀ d ∈ [1, 3, 2], 0 < d) ∧ (match nerveHypercubeCover [1, 3, 2] with
    | .ok (n, C) => n == 6 && C.getD 2 [] == [[0, 1, 2, 3], [2, 3, 4, 5]] && C.getD 3 [] == []
    | .error _ => false) = true := ⟨by decide, by decide⟩

/-! ## C43 -/

/-- **C43.** `intersection_covers` returns the points which belong to all the cubes of the simplex, in
increasing order if the lists of points are increasing. -/
theorem C43_intersection (pointsIN : List (List Nat)) (simplex : List Nat) (hne : simplex ≠ [])
    (hs : ∀ v ∈ simplex, v < pointsIN.length) (hinc : ∀ l ∈ pointsIN, l.Pairwise (· < ·)) :
    ∃ l, intersectionCovers pointsIN simplex = .ok l ∧ l.Pairwise (· < ·) ∧
      ∀ i, i ∈ l ↔ ∀ v ∈ simplex, ∃ c, pointsIN[v]? = some c ∧ i ∈ c := by
  obtain ⟨l, h1, h2, h3⟩ := intersectionCovers_spec pointsIN simplex hne hs
  refine ⟨l, h1, ?_, ?_⟩
  · refine List.Pairwise.sublist h2 (hinc _ ?_)
    match simplex, hne with
    | a :: rest, _ =>
      rw [List.headD_cons, List_getD_eq_getElem _ _ (hs a (by simp))]
      exact List.getElem_mem _
  · intro i
    rw [h3]
    refine forall_congr' fun v => forall_congr' fun hv => ?_
    rw [List_getD_eq_getElem _ _ (hs v hv), List.getElem?_eq_getElem (hs v hv)]
    simp

example : intersectionCovers [[0, 3, 5], [0, 1, 5], [1, 5]] [0, 1] = .ok [0, 5] := by decide

section

variable {K : Type} [Field K] [LinearOrder K] [FloorRing K] [IsStrictOrderedRing K]

/-- **C43** in `generate_cover`: the region of each simplex of the nerve lists, in increasing order, the
points that lie in all the enlarged cubes of the simplex. -/
theorem C43_generate_cover {maxDiv dim : Nat} {overlap : K} {cloud : List (List K)} {lo hi : Nat → K}
    {side : K} (hne : cloud ≠ []) (hd : 0 < dim) (hm : 0 < maxDiv)
    (hbox : IsBox maxDiv dim cloud lo hi side) (hs : 0 < side) :
    ∃ out div, generateCover maxDiv overlap dim cloud = .ok out ∧ IsDiv dim lo hi side div ∧
      nerveHypercubeCover div = .ok out.nerve ∧
      ∀ (k : Nat) (S : List (List Nat)), out.nerve.2[k]? = some S →
        ∃ R : List (List Nat), out.pointsIN[k + 1]? = some R ∧ R.length = S.length ∧
        ∀ (j : Nat) (ps : List (List Nat)), (∀ p ∈ ps, IsPos div p) →
          S[j]? = some (ps.map (rank div)) → ∃ l, R[j]? = some l ∧ l.Pairwise (· < ·) ∧
          ∀ i, i ∈ l ↔ i < cloud.length ∧
            ∀ p ∈ ps, InCube dim lo side overlap p (cloud.getD i []) := by
  obtain ⟨out, div, L, rest, h1, h2, h3, h4, h5, h6, h7, h8, -⟩ :=
    generateCover_ok (overlap := overlap) hne hd hm hbox hs
  refine ⟨out, div, h1, h2, h3, ?_⟩
  intro k S hS
  obtain ⟨R, r1, r2, r3⟩ := h8 k S hS
  refine ⟨R, by rw [h4]; simpa using r1, r2, ?_⟩
  intro j ps hps hj
  obtain ⟨l, l1, l2, l3⟩ := r3 j _ hj
  refine ⟨l, l1, l2, ?_⟩
  intro i
  have hL : ∀ p ∈ ps, (i ∈ L.getD (rank div p) [] ↔ i < cloud.length ∧
      InCube dim lo side overlap p (cloud.getD i [])) := by
    intro p hp
    obtain ⟨c, c1, -, c3⟩ := h6 p (hps p hp)
    rw [List.getD_eq_getElem?_getD, c1]
    exact c3 i
  have hnil : ps ≠ [] := by
    rintro rfl
    obtain ⟨G, C, -, -, -, g4, g5, g6, -, -⟩ := nerve_ok div
    rw [h3] at g4
    have e : out.nerve = (div.prod, C) := Except.ok.inj g4
    rw [e] at hS
    have hk : k < C.length := by
      by_contra hc
      rw [List.getElem?_eq_none (by simpa using hc)] at hS
      exact absurd hS (by simp)
    obtain ⟨S', e1, -, e3⟩ := g6 k (by omega)
    rw [show C[k]? = some S from hS] at e1
    obtain rfl := Option.some.inj e1
    have := ((e3 _).1 (List.mem_of_getElem? hj)).1
    simp at this
  rw [l3]
  constructor
  · intro h
    obtain ⟨p0, hp0⟩ := List.exists_mem_of_ne_nil ps hnil
    refine ⟨((hL p0 hp0).1 (h _ (List.mem_map.2 ⟨p0, hp0, rfl⟩))).1, fun p hp => ?_⟩
    exact ((hL p hp).1 (h _ (List.mem_map.2 ⟨p, hp, rfl⟩))).2
  · rintro ⟨h, h'⟩ v hv
    obtain ⟨p, hp, rfl⟩ := List.mem_map.1 hv
    exact (hL p hp).2 ⟨h, h' p hp⟩

end

end Permaviss
