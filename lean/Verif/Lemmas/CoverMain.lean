import Verif.Lemmas.CoverBox
import Verif.Lemmas.NerveClique
import Verif.Lemmas.ExceptM
import Verif.Props.Complexes

/-! `generate_cover` succeeds, and what it returns. -/

namespace Permaviss

theorem prod_eq_zero_of_not_pos {ds : List Nat} (h : ¬ ∀ d ∈ ds, 0 < d) : ds.prod = 0 := by
  push Not at h
  obtain ⟨d, hd, h0⟩ := h
  have : d = 0 := by omega
  subst this
  exact List.prod_eq_zero hd

/-- The nerve of any grid, including empty ones. -/
theorem nerve_ok (ds : List Nat) : ∃ G C, nerveGraph ds = .ok G ∧ IsEdgeList G ∧
    (∀ s, 2 ≤ s.length → IsClique G s → ∀ v ∈ s, v < ds.prod) ∧
    nerveHypercubeCover ds = .ok (ds.prod, C) ∧ C.length = 2 ^ ds.length ∧
    (∀ d < 2 ^ ds.length, ∃ S, C[d]? = some S ∧ S.Nodup ∧
        ∀ s, s ∈ S ↔ s.length = d + 2 ∧ IsClique G s) ∧
    ((∀ d ∈ ds, 0 < d) → ∀ e, e ∈ G ↔ ∃ p q, IsPos ds p ∧ IsPos ds q ∧ Adjacent p q ∧
        rank ds p < rank ds q ∧ e = [rank ds p, rank ds q]) ∧
    ((¬ ∀ d ∈ ds, 0 < d) → G = []) := by
  obtain ⟨G, h1, h2, h3, h4, h5⟩ : ∃ G, nerveGraph ds = .ok G ∧ IsEdgeList G ∧
      (∀ u v, [u, v] ∈ G → u < ds.prod ∧ v < ds.prod) ∧
      ((∀ d ∈ ds, 0 < d) → ∀ e, e ∈ G ↔ ∃ p q, IsPos ds p ∧ IsPos ds q ∧ Adjacent p q ∧
        rank ds p < rank ds q ∧ e = [rank ds p, rank ds q]) ∧
      ((¬ ∀ d ∈ ds, 0 < d) → G = []) := by
    by_cases hpos : ∀ d ∈ ds, 0 < d
    · obtain ⟨G, g1, g2, g3⟩ := nerveGraph_spec hpos
      refine ⟨G, g1, nerveGraph_isEdgeList g2 g3, ?_, fun _ => g3, fun h => absurd hpos h⟩
      intro u v h
      obtain ⟨p, q, hp, hq, -, -, e⟩ := (g3 _).1 h
      simp only [List.cons.injEq, and_true] at e
      rw [e.1, e.2]
      exact ⟨rank_lt hp, rank_lt hq⟩
    · have h0 := prod_eq_zero_of_not_pos hpos
      obtain ⟨l, hl, -⟩ := neighbourSteps_spec ds.length
      refine ⟨[], ?_, ⟨by simp, by simp⟩, by simp, fun h => absurd h hpos, fun _ => rfl⟩
      simp [nerveGraph, hl, positions, h0]
  obtain ⟨C, c1, c2, c3⟩ := C15_flag_complex_cliques G h2 ds.prod (2 ^ ds.length)
  refine ⟨G, C, h1, h2, ?_, ?_, c2, c3, h4, h5⟩
  · intro s hs hcl v hv
    have hpw := List.pairwise_iff_getElem.1 hcl
    obtain ⟨i, hi, rfl⟩ := List.getElem_of_mem hv
    rcases Nat.eq_zero_or_pos i with rfl | hip
    · exact (h3 _ _ (hpw 0 1 hi (by omega) (by omega)).2).1
    · exact (h3 _ _ (hpw 0 i (by omega) hi hip).2).2
  · simp only [nerveHypercubeCover, h1]
    exact c1

theorem intersectionCovers_spec (P : List (List Nat)) (s : List Nat) (hne : s ≠ [])
    (hs : ∀ v ∈ s, v < P.length) :
    ∃ l, intersectionCovers P s = .ok l ∧ (l.Sublist (P.getD (s.headD 0) [])) ∧
      ∀ i, i ∈ l ↔ ∀ v ∈ s, i ∈ P.getD v [] := by
  match s, hne with
  | a :: rest, _ =>
    have ha := hs a (by simp)
    have key : ∀ (rest : List Nat) (acc : List Nat), (∀ v ∈ rest, v < P.length) →
        ∃ l, rest.foldlM (m := Except PyErr) (fun acc k =>
          match P[k]? with
          | none => if acc = [] then .ok [] else .error .indexError
          | some l => .ok (acc.filter fun i => decide (i ∈ l))) acc = .ok l ∧ l.Sublist acc ∧
          ∀ i, i ∈ l ↔ i ∈ acc ∧ ∀ v ∈ rest, i ∈ P.getD v [] := by
      intro rest
      induction rest with
      | nil => intro acc _; exact ⟨acc, rfl, List.Sublist.refl _, by simp⟩
      | cons b rest ih =>
        intro acc hr
        have hb := hr b (by simp)
        obtain ⟨l, h1, h2, h3⟩ := ih (acc.filter fun i => decide (i ∈ P[b])) fun v hv => hr v (by simp [hv])
        refine ⟨l, ?_, h2.trans List.filter_sublist, ?_⟩
        · rw [List.foldlM_cons]
          simp only [List.getElem?_eq_getElem hb]
          exact h1
        · intro i
          rw [h3, List.mem_filter]
          simp only [decide_eq_true_eq, List.mem_cons, forall_eq_or_imp,
            List_getD_eq_getElem _ _ hb, and_assoc]
    obtain ⟨l, h1, h2, h3⟩ := key rest P[a] fun v hv => hs v (by simp [hv])
    refine ⟨l, ?_, ?_, ?_⟩
    · simp only [intersectionCovers, List.getElem?_eq_getElem ha]
      exact h1
    · rw [List.headD_cons, List_getD_eq_getElem _ _ ha]; exact h2
    · intro i
      rw [h3]
      simp only [List.mem_cons, forall_eq_or_imp, List_getD_eq_getElem _ _ ha]

section

variable {K : Type} [Field K] [LinearOrder K] [FloorRing K] [IsStrictOrderedRing K]

theorem cubePoints_spec {side overlap : K} {dim : Nat} {cloud : List (List K)} {pos : List Nat} :
    (cubePoints side overlap dim cloud pos).Pairwise (· < ·) ∧
    ∀ i, i ∈ cubePoints side overlap dim cloud pos ↔
      i < cloud.length ∧ InCube dim (minCoord cloud) side overlap pos (cloud.getD i []) := by
  refine ⟨List.Pairwise.sublist List.filter_sublist List.pairwise_lt_range, ?_⟩
  intro i
  unfold cubePoints
  rw [List.mem_filter, List.mem_range, inHypercube_iff]

/-- The nerve and the intersections for any choice of the points of the cubes. -/
theorem coverOf_ok (cloud : List (List K)) (div : List Nat) {pts : List Nat → List Nat}
    (hpts : ∀ pos, (pts pos).Pairwise (· < ·)) :
    ∃ (out : CoverOut K) (L : List (List Nat)) (rest : List (List (List Nat))), coverOf cloud div pts = .ok out ∧
      nerveHypercubeCover div = .ok out.nerve ∧
      out.pointsIN = L :: rest ∧ L.length = div.prod ∧
      (∀ pos, IsPos div pos → L[rank div pos]? = some (pts pos)) ∧
      rest.length = out.nerve.2.length ∧
      (∀ (d : Nat) (S : List (List Nat)), out.nerve.2[d]? = some S → ∃ R : List (List Nat), rest[d]? = some R ∧ R.length = S.length ∧
        ∀ (j : Nat) (s : List Nat), S[j]? = some s → ∃ l, R[j]? = some l ∧ l.Pairwise (· < ·) ∧
          ∀ i, i ∈ l ↔ ∀ v ∈ s, i ∈ L.getD v []) ∧
      out.clouds = out.pointsIN.map fun l => l.map fun idx => idx.map fun i => cloud.getD i [] := by
  have hLen : ((positions div).map
      pts).length =
      div.prod := by simp [positions]
  obtain ⟨G, C, g1, g2, g3, g4, g5, g6, -, -⟩ := nerve_ok div
  have hsimp : ∀ S ∈ C, ∀ s ∈ S, s ≠ [] ∧ ∀ v ∈ s, v < ((positions div).map
      pts).length := by
    intro S hS s hsS
    obtain ⟨d, hdl, hd'⟩ := List.getElem_of_mem hS
    obtain ⟨S', k1, -, k3⟩ := g6 d (by omega)
    rw [List.getElem?_eq_getElem hdl, hd'] at k1
    obtain rfl := Option.some.inj k1
    obtain ⟨k4, k5⟩ := (k3 s).1 hsS
    refine ⟨fun e => by rw [e] at k4; simp at k4, ?_⟩
    rw [hLen]
    exact g3 s (by omega) k5
  obtain ⟨inter, hin⟩ := mapM_ok_of (ε := PyErr) (xs := C) (f := fun simplices => simplices.mapM
          (intersectionCovers ((positions div).map
            pts))) (by
      intro S hS
      refine mapM_ok_of fun s hsS => ?_
      obtain ⟨l, hl, -⟩ := intersectionCovers_spec _ s (hsimp S hS s hsS).1 (hsimp S hS s hsS).2
      exact ⟨l, hl⟩)
  obtain ⟨i1, i2⟩ := mapM_ok_spec hin
  have hsorted : ∀ v, (((positions div).map
      pts).getD v []).Pairwise (· < ·) := by
    intro v
    by_cases hv : v < ((positions div).map
      pts).length
    · rw [List_getD_eq_getElem _ _ hv, List.getElem_map]
      exact hpts _
    · rw [List.getD_eq_getElem?_getD, List.getElem?_eq_none (by omega)]
      simp
  refine ⟨{
          pointsIN := (positions div).map
            pts :: inter
          clouds := ((positions div).map
            pts :: inter).map fun l =>
              l.map fun idx => idx.map fun i => cloud.getD i []
          nerve := (div.prod, C) }, (positions div).map
      pts, inter, ?_, ?_, ?_, hLen, ?_,
      ?_, ?_, ?_⟩
  · simp only [coverOf, g4, hin]
  · exact g4
  · rfl
  · intro pos hpos
    have hr := rank_lt hpos
    have : (positions div)[rank div pos]? = some pos := by
      unfold positions
      rw [List.getElem?_map, List.getElem?_range hr]
      exact congrArg some (posAt_rank hpos)
    rw [List.getElem?_map, this]
    rfl
  · exact i1
  · intro d S hS
    replace hS : C[d]? = some S := hS
    have hdC : d < C.length := by
      by_contra hc
      rw [List.getElem?_eq_none (by omega)] at hS
      exact absurd hS (by simp)
    have hdi : d < inter.length := by omega
    refine ⟨inter[d], List.getElem?_eq_getElem hdi, ?_⟩
    have hSe : C[d] = S := by
      have : C[d]? = some S := hS
      rw [List.getElem?_eq_getElem hdC] at this
      exact Option.some.inj this
    have h2 := i2 d hdC hdi
    rw [hSe] at h2
    obtain ⟨j1, j2⟩ := mapM_ok_spec h2
    refine ⟨j1, ?_⟩
    intro j s hj
    have hjS : j < S.length := by
      by_contra hc
      rw [List.getElem?_eq_none (by omega)] at hj
      exact absurd hj (by simp)
    have hjR : j < inter[d].length := by omega
    rw [List.getElem?_eq_getElem hjS] at hj
    have hjs : S[j] = s := Option.some.inj hj
    have h3 := j2 j hjS hjR
    rw [hjs] at h3
    have hSmem : S ∈ C := List.mem_of_getElem? hS
    have hsmem : s ∈ S := hjs ▸ List.getElem_mem hjS
    obtain ⟨l, l1, l2, l3⟩ := intersectionCovers_spec _ s (hsimp S hSmem s hsmem).1
      (hsimp S hSmem s hsmem).2
    rw [h3] at l1
    obtain rfl := Except.ok.inj l1
    exact ⟨_, List.getElem?_eq_getElem hjR, List.Pairwise.sublist l2 (hsorted _), l3⟩
  · rfl


theorem generateCover_ok {maxDiv dim : Nat} {overlap : K} {cloud : List (List K)} {lo hi : Nat → K}
    {side : K} (hne : cloud ≠ []) (hd : 0 < dim) (hm : 0 < maxDiv)
    (hbox : IsBox maxDiv dim cloud lo hi side) (hs : 0 < side) :
    ∃ (out : CoverOut K) (div : List Nat) (L : List (List Nat)) (rest : List (List (List Nat))), generateCover maxDiv overlap dim cloud = .ok out ∧ IsDiv dim lo hi side div ∧
      nerveHypercubeCover div = .ok out.nerve ∧
      out.pointsIN = L :: rest ∧ L.length = div.prod ∧
      (∀ pos, IsPos div pos → ∃ l, L[rank div pos]? = some l ∧ l.Pairwise (· < ·) ∧
        ∀ i, i ∈ l ↔ i < cloud.length ∧ InCube dim lo side overlap pos (cloud.getD i [])) ∧
      rest.length = out.nerve.2.length ∧
      (∀ (d : Nat) (S : List (List Nat)), out.nerve.2[d]? = some S → ∃ R : List (List Nat), rest[d]? = some R ∧ R.length = S.length ∧
        ∀ (j : Nat) (s : List Nat), S[j]? = some s → ∃ l, R[j]? = some l ∧ l.Pairwise (· < ·) ∧
          ∀ i, i ∈ l ↔ ∀ v ∈ s, i ∈ L.getD v []) ∧
      out.clouds = out.pointsIN.map fun l => l.map fun idx => idx.map fun i => cloud.getD i [] := by
  obtain ⟨e1, e2, e3⟩ := isBox_unique hm hbox (coverSide_isBox hne hd hm)
  subst e3
  have hdiv := coverDiv_isDiv hne hs
  have hdiv' : IsDiv dim lo hi (coverSide maxDiv dim cloud) (coverDiv maxDiv dim cloud) :=
    ⟨hdiv.1, fun d hd => by rw [e1 d hd, e2 d hd]; exact hdiv.2 d hd⟩
  obtain ⟨out, L, rest, h1, h2, h3, h4, h5, h6⟩ := coverOf_ok cloud (coverDiv maxDiv dim cloud)
    (pts := cubePoints (coverSide maxDiv dim cloud) overlap dim cloud) (fun _ => cubePoints_spec.1)
  refine ⟨out, _, L, rest, ?_, hdiv', h2, h3, h4, fun pos hpos => ⟨_, h5 pos hpos, cubePoints_spec.1, fun i => ?_⟩, h6⟩
  · simp only [generateCover, hne, hs.ne', or_self, if_false, h1]
  · rw [cubePoints_spec.2, InCube.congr fun d hd => (e1 d hd).symm]

end

end Permaviss
