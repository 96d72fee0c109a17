import Verif.Props.Cover

/-!
# Other overlaps, other clouds in the same box, other units (C103)
-/

namespace Permaviss

section

variable {K : Type} [Field K] [LinearOrder K] [FloorRing K] [IsStrictOrderedRing K]
  {maxDiv dim : ℕ} {cloud cloud' : List (List K)} {lo hi lo' hi' : ℕ → K} {side side' overlap overlap' : K}

omit [FloorRing K] [IsStrictOrderedRing K] in
theorem isDiv_eq {div div' : List ℕ} (h : IsDiv dim lo hi side div) (h' : IsDiv dim lo hi side div') :
    div = div' := by
  refine List.ext_getElem (by rw [h.1, h'.1]) fun d h1 h2 => ?_
  have hd : d < dim := by rw [← h.1]; exact h1
  have := (h.2 d hd).unique (h'.2 d hd)
  rwa [List_getD_eq_getElem _ _ h1, List_getD_eq_getElem _ _ h2] at this

/-- Two covers with equal grids. -/
theorem cover_transfer (hne : cloud ≠ []) (hne' : cloud' ≠ []) (hd : 0 < dim) (hm : 0 < maxDiv)
    (hbox : IsBox maxDiv dim cloud lo hi side) (hs : 0 < side)
    (hbox' : IsBox maxDiv dim cloud' lo' hi' side') (hs' : 0 < side')
    (hdiv : ∀ div, IsDiv dim lo hi side div → IsDiv dim lo' hi' side' div) :
    ∃ (out out' : CoverOut K) (div : List ℕ), generateCover maxDiv overlap dim cloud = .ok out ∧
      generateCover maxDiv overlap' dim cloud' = .ok out' ∧ IsDiv dim lo hi side div ∧
      out.nerve = out'.nerve ∧
      out.pointsIN.map List.length = out'.pointsIN.map List.length ∧
      (∀ L ∈ out.pointsIN, ∀ l ∈ L, l.Pairwise (· < ·)) ∧
      (∀ L ∈ out'.pointsIN, ∀ l ∈ L, l.Pairwise (· < ·)) ∧
      (∀ i j, (∀ pos, IsPos div pos → i < cloud.length → InCube dim lo side overlap pos (cloud.getD i []) →
          j < cloud'.length ∧ InCube dim lo' side' overlap' pos (cloud'.getD j [])) →
        ∀ d k, i ∈ (out.pointsIN.getD d []).getD k [] → j ∈ (out'.pointsIN.getD d []).getD k []) ∧
      ∀ i j, (∀ pos, IsPos div pos → j < cloud'.length →
          InCube dim lo' side' overlap' pos (cloud'.getD j []) →
          i < cloud.length ∧ InCube dim lo side overlap pos (cloud.getD i [])) →
        ∀ d k, j ∈ (out'.pointsIN.getD d []).getD k [] → i ∈ (out.pointsIN.getD d []).getD k [] := by
  obtain ⟨out, div, L, rest, h1, h2, h3, h4, h5, h6, h7, h8, -⟩ :=
    generateCover_ok (overlap := overlap) hne hd hm hbox hs
  obtain ⟨out', div', L', rest', h1', h2', h3', h4', h5', h6', h7', h8', -⟩ :=
    generateCover_ok (overlap := overlap') hne' hd hm hbox' hs'
  obtain rfl : div = div' := isDiv_eq (hdiv div h2) h2'
  have hnerve : out.nerve = out'.nerve := by
    rw [h3] at h3'; exact Except.ok.inj h3'
  have hposn : ∀ v < div.prod, ∃ pos, IsPos div pos ∧ rank div pos = v := by
    intro v hv
    have hp : ∀ x ∈ div, 0 < x := by
      intro x hx
      rcases Nat.eq_zero_or_pos x with e | e
      · rw [List.prod_eq_zero (e ▸ hx)] at hv; omega
      · exact e
    exact ⟨_, posAt_spec hp hv⟩
  have hsorted : ∀ (out : CoverOut K) (cl : List (List K)) (lo : ℕ → K) (side overlap : K) (L : List (List ℕ)) (rest : List (List (List ℕ))),
      out.pointsIN = L :: rest → L.length = div.prod →
      (∀ pos, IsPos div pos → ∃ l, L[rank div pos]? = some l ∧ l.Pairwise (· < ·) ∧
        ∀ i, i ∈ l ↔ i < cl.length ∧ InCube dim lo side overlap pos (cl.getD i [])) →
      rest.length = out.nerve.2.length →
      (∀ (d : Nat) (S : List (List Nat)), out.nerve.2[d]? = some S → ∃ R : List (List Nat), rest[d]? = some R ∧ R.length = S.length ∧
        ∀ (j : Nat) (s : List Nat), S[j]? = some s → ∃ l, R[j]? = some l ∧ l.Pairwise (· < ·) ∧
          ∀ i, i ∈ l ↔ ∀ v ∈ s, i ∈ L.getD v []) →
      ∀ A ∈ out.pointsIN, ∀ l ∈ A, l.Pairwise (· < ·) := by
    intro out cl lo side overlap L rest g4 g5 g6 g7 g8 A hA l hl
    rw [g4] at hA
    rcases List.mem_cons.1 hA with rfl | hA
    · obtain ⟨v, hv, rfl⟩ := List.mem_iff_getElem.1 hl
      obtain ⟨pos, p1, p2⟩ := hposn v (by omega)
      obtain ⟨l, l1, l2, -⟩ := g6 pos p1
      rw [p2, List.getElem?_eq_getElem hv] at l1
      rw [Option.some.inj l1]
      exact l2
    · obtain ⟨d, hd, rfl⟩ := List.mem_iff_getElem.1 hA
      obtain ⟨R, r1, r2, r3⟩ := g8 d _ (List.getElem?_eq_getElem (by omega))
      rw [List.getElem?_eq_getElem hd] at r1
      obtain rfl := Option.some.inj r1
      obtain ⟨k, hk, rfl⟩ := List.mem_iff_getElem.1 hl
      obtain ⟨l, l1, l2, -⟩ := r3 k _ (List.getElem?_eq_getElem (by omega))
      rw [List.getElem?_eq_getElem hk] at l1
      rw [Option.some.inj l1]
      exact l2
  have hmove : ∀ (out out' : CoverOut K) (cl cl' : List (List K)) (lo lo' : ℕ → K) (side side' overlap overlap' : K)
      (L L' : List (List ℕ)) (rest rest' : List (List (List ℕ))),
      out.nerve = out'.nerve → out.pointsIN = L :: rest → out'.pointsIN = L' :: rest' →
      L.length = div.prod → L'.length = div.prod →
      (∀ pos, IsPos div pos → ∃ l, L[rank div pos]? = some l ∧ l.Pairwise (· < ·) ∧
        ∀ i, i ∈ l ↔ i < cl.length ∧ InCube dim lo side overlap pos (cl.getD i [])) →
      (∀ pos, IsPos div pos → ∃ l, L'[rank div pos]? = some l ∧ l.Pairwise (· < ·) ∧
        ∀ i, i ∈ l ↔ i < cl'.length ∧ InCube dim lo' side' overlap' pos (cl'.getD i [])) →
      rest.length = out.nerve.2.length → rest'.length = out'.nerve.2.length →
      (∀ (d : Nat) (S : List (List Nat)), out.nerve.2[d]? = some S → ∃ R : List (List Nat), rest[d]? = some R ∧ R.length = S.length ∧
        ∀ (j : Nat) (s : List Nat), S[j]? = some s → ∃ l, R[j]? = some l ∧ l.Pairwise (· < ·) ∧
          ∀ i, i ∈ l ↔ ∀ v ∈ s, i ∈ L.getD v []) →
      (∀ (d : Nat) (S : List (List Nat)), out'.nerve.2[d]? = some S → ∃ R : List (List Nat), rest'[d]? = some R ∧ R.length = S.length ∧
        ∀ (j : Nat) (s : List Nat), S[j]? = some s → ∃ l, R[j]? = some l ∧ l.Pairwise (· < ·) ∧
          ∀ i, i ∈ l ↔ ∀ v ∈ s, i ∈ L'.getD v []) →
      ∀ i j, (∀ pos, IsPos div pos → i < cl.length → InCube dim lo side overlap pos (cl.getD i []) →
          j < cl'.length ∧ InCube dim lo' side' overlap' pos (cl'.getD j [])) →
        ∀ d k, i ∈ (out.pointsIN.getD d []).getD k [] → j ∈ (out'.pointsIN.getD d []).getD k [] := by
    intro out out' cl cl' lo lo' side side' overlap overlap' L L' rest rest' gn g4 g4' g5 g5' g6 g6' g7 g7' g8 g8' i j hij
    have hzero : ∀ v, i ∈ L.getD v [] → j ∈ L'.getD v [] := by
      intro v hv
      by_cases hvl : v < div.prod
      · obtain ⟨pos, p1, p2⟩ := hposn v hvl
        obtain ⟨l, l1, -, l3⟩ := g6 pos p1
        obtain ⟨l', l1', -, l3'⟩ := g6' pos p1
        rw [p2] at l1 l1'
        rw [List.getD_eq_getElem?_getD, l1, Option.getD_some, l3] at hv
        rw [List.getD_eq_getElem?_getD, l1', Option.getD_some, l3']
        exact hij pos p1 hv.1 hv.2
      · rw [List.getD_eq_getElem?_getD, List.getElem?_eq_none (by omega)] at hv
        cases hv
    intro d k hi
    rw [g4] at hi
    rw [g4']
    cases d with
    | zero => exact hzero k hi
    | succ d =>
      rw [List.getD_cons_succ] at hi ⊢
      by_cases hdl : d < rest.length
      · obtain ⟨R, r1, r2, r3⟩ := g8 d _ (List.getElem?_eq_getElem (by omega))
        obtain ⟨R', r1', r2', r3'⟩ := g8' d (out.nerve.2[d]'(by omega)) (by
          rw [← gn]; exact List.getElem?_eq_getElem (by omega))
        rw [List.getD_eq_getElem?_getD (l := rest), r1, Option.getD_some] at hi
        rw [List.getD_eq_getElem?_getD (l := rest'), r1', Option.getD_some]
        by_cases hk : k < R.length
        · obtain ⟨l, l1, -, l3⟩ := r3 k _ (List.getElem?_eq_getElem (by omega))
          obtain ⟨l', l1', -, l3'⟩ := r3' k _ (List.getElem?_eq_getElem (by omega))
          rw [List.getD_eq_getElem?_getD, l1, Option.getD_some, l3] at hi
          rw [List.getD_eq_getElem?_getD, l1', Option.getD_some, l3']
          exact fun v hv => hzero v (hi v hv)
        · rw [List.getD_eq_getElem?_getD, List.getElem?_eq_none (by omega)] at hi
          cases hi
      · rw [List.getD_eq_getElem?_getD (l := rest), List.getElem?_eq_none (by omega)] at hi
        cases hi
  refine ⟨out, out', div, h1, h1', h2, hnerve, ?_,
    hsorted out cloud lo side overlap L rest h4 h5 h6 h7 h8,
    hsorted out' cloud' lo' side' overlap' L' rest' h4' h5' h6' h7' h8',
    hmove out out' cloud cloud' lo lo' side side' overlap overlap' L L' rest rest' hnerve h4 h4' h5 h5' h6 h6' h7 h7'
      h8 h8',
    fun i j h => hmove out' out cloud' cloud lo' lo side' side overlap' overlap L' L rest' rest hnerve.symm h4' h4 h5'
      h5 h6' h6 h7' h7 h8' h8 j i h⟩
  have hl : rest.length = rest'.length := by rw [h7, h7', hnerve]
  rw [h4, h4', List.map_cons, List.map_cons, h5, h5']
  congr 1
  refine List.ext_getElem (by simpa using hl) fun d g1 g2 => ?_
  rw [List.length_map] at g1 g2
  obtain ⟨R, r1, r2, -⟩ := h8 d _ (List.getElem?_eq_getElem (by omega))
  obtain ⟨R', r1', r2', -⟩ := h8' d (out.nerve.2[d]'(by omega)) (by
    rw [← hnerve]; exact List.getElem?_eq_getElem (by omega))
  rw [List.getElem?_eq_getElem g1] at r1
  rw [List.getElem?_eq_getElem g2] at r1'
  rw [List.getElem_map, List.getElem_map, Option.some.inj r1, Option.some.inj r1', r2, r2']

/-- **C103.** A larger overlap gives the same cubes and the same nerve, and only adds points: to every cube and to every
intersection of cubes. -/
theorem C103_overlap (hne : cloud ≠ []) (hd : 0 < dim) (hm : 0 < maxDiv)
    (hbox : IsBox maxDiv dim cloud lo hi side) (hs : 0 < side) (ho : overlap ≤ overlap') :
    ∃ out out' : CoverOut K, generateCover maxDiv overlap dim cloud = .ok out ∧
      generateCover maxDiv overlap' dim cloud = .ok out' ∧ out.nerve = out'.nerve ∧
      out.pointsIN.map List.length = out'.pointsIN.map List.length ∧
      ∀ d k, (out.pointsIN.getD d []).getD k [] ⊆ (out'.pointsIN.getD d []).getD k [] := by
  obtain ⟨out, out', div, h1, h2, -, h3, h4, -, -, h5, -⟩ := cover_transfer (overlap := overlap) (overlap' := overlap')
    hne hne hd hm hbox hs hbox hs fun _ h => h
  refine ⟨out, out', h1, h2, h3, h4, fun d k i hi => h5 i i (fun pos _ hl hc => ⟨hl, fun e he => ?_⟩) d k hi⟩
  obtain ⟨c1, c2⟩ := hc e he
  constructor <;> linarith

/-- **C103.** Two clouds that span the same box have the same cubes and the same nerve, and each point goes to the same
cubes and intersections whatever its index and whatever the other points are: so the order of the points, repetitions,
and points that are removed or added inside the box have no influence. -/
theorem C103_points (hne : cloud ≠ []) (hne' : cloud' ≠ []) (hd : 0 < dim) (hm : 0 < maxDiv)
    (hbox : IsBox maxDiv dim cloud lo hi side) (hbox' : IsBox maxDiv dim cloud' lo hi side) (hs : 0 < side) :
    ∃ out out' : CoverOut K, generateCover maxDiv overlap dim cloud = .ok out ∧
      generateCover maxDiv overlap dim cloud' = .ok out' ∧ out.nerve = out'.nerve ∧
      out.pointsIN.map List.length = out'.pointsIN.map List.length ∧
      ∀ (i : ℕ) (hi : i < cloud.length) (j : ℕ) (hj : j < cloud'.length), cloud[i] = cloud'[j] →
        ∀ d k, i ∈ (out.pointsIN.getD d []).getD k [] ↔ j ∈ (out'.pointsIN.getD d []).getD k [] := by
  obtain ⟨out, out', div, h1, h2, -, h3, h4, -, -, h5, h6⟩ := cover_transfer (overlap := overlap) (overlap' := overlap)
    hne hne' hd hm hbox hs hbox' hs fun _ h => h
  refine ⟨out, out', h1, h2, h3, h4, fun i hi j hj e d k => ?_⟩
  have e' : cloud.getD i [] = cloud'.getD j [] := by
    rw [List_getD_eq_getElem _ _ hi, List_getD_eq_getElem _ _ hj, e]
  exact ⟨h5 i j (fun pos _ _ hc => ⟨hj, e' ▸ hc⟩) d k, h6 i j (fun pos _ _ hc => ⟨hi, e' ▸ hc⟩) d k⟩

/-- **C103.** With other units, for the coordinates and for the overlap, the cover consists of the same sets of points,
and has the same nerve. -/
theorem C103_units {c : K} (hc : 0 < c) (hne : cloud ≠ []) (hd : 0 < dim)
    (hm : 0 < maxDiv) (hbox : IsBox maxDiv dim cloud lo hi side) (hs : 0 < side) :
    ∃ out out' : CoverOut K, generateCover maxDiv overlap dim cloud = .ok out ∧
      generateCover maxDiv (c * overlap) dim (cloud.map fun pt => pt.map (c * ·)) = .ok out' ∧
      out'.nerve = out.nerve ∧ out'.pointsIN = out.pointsIN := by
  have hget : ∀ pt : List K, ∀ e, (pt.map (c * ·)).getD e 0 = c * pt.getD e 0 := by
    intro pt e
    rw [List.getD_eq_getElem?_getD, List.getD_eq_getElem?_getD, List.getElem?_map]
    cases pt[e]? with
    | none => simp
    | some x => rfl
  have hbox' : IsBox maxDiv dim (cloud.map fun pt => pt.map (c * ·)) (fun e => c * lo e) (fun e => c * hi e)
      (c * side) := by
    refine ⟨fun e he => ⟨?_, ?_⟩, fun e he => ⟨?_, ?_⟩, ⟨?_, ?_⟩⟩
    · obtain ⟨pt, h1, h2⟩ := (hbox.isLo e he).1
      exact ⟨_, List.mem_map.2 ⟨pt, h1, rfl⟩, by rw [hget, h2]⟩
    · rintro x ⟨_, hpt, rfl⟩
      obtain ⟨pt, h1, rfl⟩ := List.mem_map.1 hpt
      rw [hget]
      exact mul_le_mul_of_nonneg_left ((hbox.isLo e he).2 ⟨pt, h1, rfl⟩) hc.le
    · obtain ⟨pt, h1, h2⟩ := (hbox.isHi e he).1
      exact ⟨_, List.mem_map.2 ⟨pt, h1, rfl⟩, by rw [hget, h2]⟩
    · rintro x ⟨_, hpt, rfl⟩
      obtain ⟨pt, h1, rfl⟩ := List.mem_map.1 hpt
      rw [hget]
      exact mul_le_mul_of_nonneg_left ((hbox.isHi e he).2 ⟨pt, h1, rfl⟩) hc.le
    · obtain ⟨e, he, h⟩ := hbox.isSide.1
      exact ⟨e, he, by rw [← mul_sub, ← h]; ring⟩
    · rintro x ⟨e, he, rfl⟩
      have := mul_le_mul_of_nonneg_left (hbox.isSide.2 ⟨e, he, rfl⟩) hc.le
      rw [← mul_sub]
      calc c * (hi e - lo e) ≤ c * (maxDiv * side) := this
        _ = maxDiv * (c * side) := by ring
  have hcube : ∀ pos pt, InCube dim (fun e => c * lo e) (c * side) (c * overlap) pos (pt.map (c * ·)) ↔
      InCube dim lo side overlap pos pt := by
    intro pos pt
    refine forall₂_congr fun e he => ?_
    rw [hget]
    have e1 : c * lo e + pos.getD e 0 * (c * side) - c * overlap / 2 = c * (lo e + pos.getD e 0 * side - overlap / 2) := by
      ring
    have e2 : c * lo e + (pos.getD e 0 + 1) * (c * side) + c * overlap / 2 =
        c * (lo e + (pos.getD e 0 + 1) * side + overlap / 2) := by ring
    dsimp only
    rw [e1, e2, mul_le_mul_iff_of_pos_left hc, mul_le_mul_iff_of_pos_left hc]
  obtain ⟨out, out', div, h1, h2, -, h3, h4, h5, h6, h7, h8⟩ := cover_transfer (overlap := overlap)
    (overlap' := c * overlap) (cloud' := cloud.map fun pt => pt.map (c * ·)) hne (by simpa using hne) hd hm hbox hs hbox'
    (mul_pos hc hs) (by
      rintro div ⟨g1, g2⟩
      refine ⟨g1, fun e he => ?_⟩
      convert g2 e he using 3 with n
      rw [← mul_sub, mul_left_comm, mul_le_mul_iff_of_pos_left hc])
  refine ⟨out, out', h1, h2, h3.symm, ?_⟩
  have hgetc : ∀ i < cloud.length, (cloud.map fun pt => pt.map (c * ·)).getD i [] = (cloud.getD i []).map (c * ·) := by
    intro i hi
    rw [List_getD_eq_getElem _ _ (by simpa using hi), List_getD_eq_getElem _ _ hi, List.getElem_map]
  have hiff : ∀ i d k, i ∈ (out'.pointsIN.getD d []).getD k [] ↔ i ∈ (out.pointsIN.getD d []).getD k [] := by
    intro i d k
    refine ⟨h8 i i (fun pos _ hl hp => ?_) d k, h7 i i (fun pos _ hl hp => ?_) d k⟩
    · rw [List.length_map] at hl
      rw [hgetc i hl, hcube] at hp
      exact ⟨hl, hp⟩
    · rw [List.length_map]
      rw [hgetc i hl, hcube]
      exact ⟨hl, hp⟩
  have hl := congrArg List.length h4
  rw [List.length_map, List.length_map] at hl
  refine List.ext_getElem hl.symm fun d g1 g2 => ?_
  have hl2 : out.pointsIN[d].length = out'.pointsIN[d].length := by
    have := congrArg (fun l => l[d]?) h4
    simpa [List.getElem?_eq_getElem g1, List.getElem?_eq_getElem g2] using this
  refine List.ext_getElem hl2.symm fun k k1 k2 => ?_
  refine List.Pairwise.eq_of_mem_iff (h6 _ (List.getElem_mem g1) _ (List.getElem_mem k1))
    (h5 _ (List.getElem_mem g2) _ (List.getElem_mem k2)) fun i => ?_
  have := hiff i d k
  rwa [List_getD_eq_getElem _ _ g1, List_getD_eq_getElem _ _ g2, List_getD_eq_getElem _ _ k1,
    List_getD_eq_getElem _ _ k2] at this

/-- **C103.** If the overlap is at least twice the longest side of the box, all points belong to all cubes and to all
intersections. -/
theorem C103_all_points (hne : cloud ≠ []) (hd : 0 < dim) (hm : 0 < maxDiv)
    (hbox : IsBox maxDiv dim cloud lo hi side) (hs : 0 < side) (ho : 2 * (maxDiv * side) ≤ overlap) :
    ∃ out : CoverOut K, generateCover maxDiv overlap dim cloud = .ok out ∧
      ∀ L ∈ out.pointsIN, ∀ l ∈ L, l = List.range cloud.length := by
  obtain ⟨out, div, L, rest, h1, h2, h3, h4, h5, h6, h7, h8, -⟩ :=
    generateCover_ok (overlap := overlap) hne hd hm hbox hs
  refine ⟨out, h1, ?_⟩
  have hposn : ∀ v < div.prod, ∃ pos, IsPos div pos ∧ rank div pos = v := by
    intro v hv
    have hp : ∀ x ∈ div, 0 < x := by
      intro x hx
      rcases Nat.eq_zero_or_pos x with e | e
      · rw [List.prod_eq_zero (e ▸ hx)] at hv; omega
      · exact e
    exact ⟨_, posAt_spec hp hv⟩
  have hin : ∀ pos, IsPos div pos → ∀ i < cloud.length, InCube dim lo side overlap pos (cloud.getD i []) := by
    intro pos hpos i hil e he
    have hmem : cloud.getD i [] ∈ cloud := by
      rw [List_getD_eq_getElem _ _ hil]; exact List.getElem_mem hil
    have b1 := (hbox.isLo e he).2 ⟨_, hmem, rfl⟩
    have b2 := (hbox.isHi e he).2 ⟨_, hmem, rfl⟩
    have b3 := hbox.isSide.2 ⟨e, he, rfl⟩
    have hlt : pos.getD e 0 < div.getD e 0 := by
      have hl := hpos.length_eq
      have := (List.forall₂_iff_get.1 hpos).2 e (by rw [hl, h2.1]; exact he) (by rw [h2.1]; exact he)
      rw [List_getD_eq_getElem _ _ (by rw [hl, h2.1]; exact he), List_getD_eq_getElem _ _ (by rw [h2.1]; exact he)]
      simpa using this
    have b4 : (pos.getD e 0 : K) * side < hi e - lo e := by
      by_contra hcon
      have := (h2.2 e he).2 (not_lt.1 hcon)
      omega
    have b5 : (0 : K) ≤ (pos.getD e 0 : K) * side := mul_nonneg (Nat.cast_nonneg _) hs.le
    constructor
    · linarith
    · nlinarith
  have hL : ∀ v < div.prod, ∃ l, L[v]? = some l ∧ l.Pairwise (· < ·) ∧ ∀ i, i ∈ l ↔ i < cloud.length := by
    intro v hv
    obtain ⟨pos, p1, p2⟩ := hposn v hv
    obtain ⟨l, l1, l2, l3⟩ := h6 pos p1
    exact ⟨l, p2 ▸ l1, l2, fun i => ⟨fun hi => ((l3 i).1 hi).1, fun hi => (l3 i).2 ⟨hi, hin pos p1 i hi⟩⟩⟩
  have heq : ∀ l : List ℕ, l.Pairwise (· < ·) → (∀ i, i ∈ l ↔ i < cloud.length) → l = List.range cloud.length := by
    intro l l1 l2
    exact List.Pairwise.eq_of_mem_iff l1 List.pairwise_lt_range fun i => by rw [l2, List.mem_range]
  obtain ⟨G, C, -, -, g3, g4, g5, g6, -, -⟩ := nerve_ok div
  rw [g4] at h3
  have hC : out.nerve.2 = C := by rw [← Except.ok.inj h3]
  intro A hA l hl
  rw [h4] at hA
  rcases List.mem_cons.1 hA with rfl | hA
  · obtain ⟨v, hv, rfl⟩ := List.mem_iff_getElem.1 hl
    obtain ⟨l, l1, l2, l3⟩ := hL v (by omega)
    rw [List.getElem?_eq_getElem hv] at l1
    rw [Option.some.inj l1]
    exact heq l l2 l3
  · obtain ⟨d, hdl, rfl⟩ := List.mem_iff_getElem.1 hA
    obtain ⟨S, s1, -, s3⟩ := g6 d (by rw [← g5, ← hC]; omega)
    obtain ⟨R, r1, r2, r3⟩ := h8 d S (hC ▸ s1)
    rw [List.getElem?_eq_getElem hdl] at r1
    obtain rfl := Option.some.inj r1
    obtain ⟨k, hk, rfl⟩ := List.mem_iff_getElem.1 hl
    have hkS : k < S.length := by omega
    obtain ⟨l, l1, l2, l3⟩ := r3 k _ (List.getElem?_eq_getElem hkS)
    rw [List.getElem?_eq_getElem hk] at l1
    rw [Option.some.inj l1]
    obtain ⟨c1, c2⟩ := (s3 S[k]).1 (List.getElem_mem hkS)
    have hlt := g3 S[k] (by omega) c2
    have hmem : ∀ v ∈ S[k], ∀ i, i ∈ L.getD v [] ↔ i < cloud.length := by
      intro v hv i
      obtain ⟨l', m1, -, m3⟩ := hL v (hlt v hv)
      rw [List.getD_eq_getElem?_getD, m1, Option.getD_some, m3]
    refine heq l l2 fun i => ?_
    rw [l3]
    constructor
    · intro h
      have h0 : 0 < S[k].length := by omega
      exact (hmem _ (List.getElem_mem h0) i).1 (h _ (List.getElem_mem h0))
    · exact fun h v hv => (hmem v hv i).2 h

end

/-- The hypotheses of C103 are met by three points of the plane; a larger overlap adds points, and with overlap four
every cube has all points. -/
example : coverEx ≠ [] ∧ IsBox 2 2 coverEx (fun _ => 0) (fun d => 2 - d) 1 ∧ (0 : ℚ) < 1 ∧
    (0 : ℚ) ≤ 1 ∧ 2 * (((2 : ℕ) : ℚ) * 1) ≤ 4 ∧
    (generateCover 2 0 2 coverEx).map (fun o => o.pointsIN.getD 0 []) = .ok [[0, 2], [1, 2]] ∧
    (generateCover 2 (3/2) 2 coverEx).map (fun o => o.pointsIN.getD 0 []) = .ok [[0, 2], [1, 2]] ∧
    (generateCover 2 2 2 coverEx).map (fun o => o.pointsIN.getD 0 []) = .ok [[0, 1, 2], [0, 1, 2]] ∧
    (generateCover 2 4 2 coverEx).map (fun o => o.pointsIN.getD 1 []) = .ok [[0, 1, 2]] ∧
    (generateCover 2 6 2 (coverEx.map fun pt => pt.map (3 * ·))).map (fun o => o.pointsIN.getD 0 []) =
      .ok [[0, 1, 2], [0, 1, 2]] := by
  refine ⟨by simp [coverEx], coverEx_box, by norm_num, by norm_num, by norm_num, ?_, ?_, ?_, ?_, ?_⟩ <;> decide +kernel

/-- Another cloud in the same box: the points in another order, and one more point. -/
def coverEx' : List (List ℚ) := [[1, 1], [1/2, 0], [0, 0], [2, 1]]

/-- The hypotheses of `C103_points` are met, and the points of the first cloud go to the same cubes. -/
example : coverEx' ≠ [] ∧ IsBox 2 2 coverEx' (fun _ => 0) (fun d => 2 - d) 1 ∧
    (generateCover 2 0 2 coverEx').map (fun o => o.pointsIN.getD 0 []) = .ok [[0, 1, 2], [0, 3]] := by
  refine ⟨by simp [coverEx'], ⟨?_, ?_, ⟨⟨0, by omega, by norm_num⟩, ?_⟩⟩, by decide +kernel⟩
  · intro d hd
    refine ⟨⟨[0, 0], by simp [coverEx'], ?_⟩, ?_⟩
    · have : d = 0 ∨ d = 1 := by omega
      rcases this with rfl | rfl <;> rfl
    · rintro x ⟨pt, hpt, rfl⟩
      have : d = 0 ∨ d = 1 := by omega
      simp only [coverEx', List.mem_cons, List.not_mem_nil, or_false] at hpt
      rcases this with rfl | rfl <;> rcases hpt with rfl | rfl | rfl | rfl <;> norm_num
  · intro d hd
    refine ⟨⟨[2, 1], by simp [coverEx'], ?_⟩, ?_⟩
    · have : d = 0 ∨ d = 1 := by omega
      rcases this with rfl | rfl <;> norm_num
    · rintro x ⟨pt, hpt, rfl⟩
      have : d = 0 ∨ d = 1 := by omega
      simp only [coverEx', List.mem_cons, List.not_mem_nil, or_false] at hpt
      rcases this with rfl | rfl <;> rcases hpt with rfl | rfl | rfl | rfl <;> norm_num
  · rintro x ⟨d, hd, rfl⟩
    have : d = 0 ∨ d = 1 := by omega
    rcases this with rfl | rfl <;> norm_num

end Permaviss
