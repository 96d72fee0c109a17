import Verif.Lemmas.VR
import Verif.Lemmas.Diff

/-!
# C15–C20: flag complexes, Vietoris-Rips complexes, differentials
-/

namespace Permaviss

open Finset

/-! ## C15 -/

/-- A graph on five vertices with one tetrahedron and one extra edge. -/
def exG : List (List Nat) := [[0, 1], [0, 2], [0, 3], [1, 2], [1, 3], [2, 3], [3, 4]]

theorem exG_ok : IsEdgeList exG := by
  refine ⟨?_, by decide⟩
  intro e he
  simp only [exG, List.mem_cons, List.not_mem_nil, or_false] at he
  rcases he with rfl | rfl | rfl | rfl | rfl | rfl | rfl
  · exact ⟨0, 1, by decide, rfl⟩
  · exact ⟨0, 2, by decide, rfl⟩
  · exact ⟨0, 3, by decide, rfl⟩
  · exact ⟨1, 2, by decide, rfl⟩
  · exact ⟨1, 3, by decide, rfl⟩
  · exact ⟨2, 3, by decide, rfl⟩
  · exact ⟨3, 4, by decide, rfl⟩

/-- **C15.** `flag_complex(G, n, max_dim)`: entry `0` is `n`, there are `max_dim` further entries, and
entry `d + 1` lists every clique with `d + 2` vertices exactly once, in increasing order. -/
theorem C15_flag_complex_cliques (G : List (List Nat)) (hG : IsEdgeList G) (n : Nat) (m : Nat) :
    ∃ C, flagComplex G n m = .ok (n, C) ∧ C.length = m ∧
      ∀ d < m, ∃ S, C[d]? = some S ∧ S.Nodup ∧
        ∀ s, s ∈ S ↔ s.length = d + 2 ∧ IsClique G s := by
  refine ⟨(List.range m).map (flagLevel G), ?_, by simp, ?_⟩
  · simp [flagComplex]
  · intro d hd
    exact ⟨flagLevel G d, by simp [hd], flagLevel_spec hG d⟩

/-- **C15.** A negative dimension raises `ValueError`. -/
theorem C15_flag_complex_negative (G : List (List Nat)) (n : Nat) (m : Int) (hm : m < 0) :
    flagComplex G n m = .error .valueError := by
  simp [flagComplex, hm]

/-- **C15.** The flag complex of a graph on `n` vertices is a simplicial complex: entries are
increasing, not repeated and closed under faces. -/
theorem C15_flag_complex_is_complex (G : List (List Nat)) (hG : IsEdgeList G) (n m : Nat)
    (hn : ∀ e ∈ G, ∀ v ∈ e, v < n) :
    ∃ C, flagComplex G n m = .ok (n, C) ∧ IsComplex n C := by
  refine ⟨(List.range m).map (flagLevel G), by simp [flagComplex], ?_⟩
  have key : ∀ i S, ((List.range m).map (flagLevel G))[i]? = some S → S = flagLevel G i := by
    intro i S h
    rw [List.getElem?_map] at h
    obtain ⟨a, ha, rfl⟩ := Option.map_eq_some_iff.1 h
    rw [List.getElem?_eq_some_iff] at ha
    obtain ⟨-, rfl⟩ := ha
    simp
  have mem : ∀ S ∈ (List.range m).map (flagLevel G), ∃ i, S = flagLevel G i := by
    intro S hS
    obtain ⟨i, -, rfl⟩ := List.mem_map.1 hS
    exact ⟨i, rfl⟩
  refine ⟨?_, ?_, ?_, ?_, ?_⟩
  · intro i S h s hs
    rw [key i S h] at hs
    exact (((flagLevel_spec hG i).2 s).1 hs).1
  · intro S hS s hs
    obtain ⟨i, rfl⟩ := mem S hS
    exact (((flagLevel_spec hG i).2 s).1 hs).2.imp fun h => h.1
  · intro S hS s hs v hv
    obtain ⟨i, rfl⟩ := mem S hS
    obtain ⟨hl, hc⟩ := ((flagLevel_spec hG i).2 s).1 hs
    -- some other vertex of the clique
    obtain ⟨k, hk, rfl⟩ := List.getElem_of_mem hv
    by_cases h0 : k = 0
    · have := List.pairwise_iff_getElem.1 hc k 1 hk (by omega) (by omega)
      exact hn _ this.2 _ (by simp)
    · have := List.pairwise_iff_getElem.1 hc 0 k (by omega) hk (by omega)
      exact hn _ this.2 _ (by simp)
  · intro S hS
    obtain ⟨i, rfl⟩ := mem S hS
    exact (flagLevel_spec hG i).1
  · intro i S T hS hT t ht k hk
    rw [key i S hS]
    rw [key (i + 1) T hT] at ht
    obtain ⟨hl, hc⟩ := ((flagLevel_spec hG (i + 1)).2 t).1 ht
    refine ((flagLevel_spec hG i).2 _).2 ⟨?_, hc.sublist (List.eraseIdx_sublist t k)⟩
    rw [List.length_eraseIdx_of_lt hk]; omega

example : IsEdgeList exG := exG_ok

example : flagComplex exG 5 4 = .ok (5,
    [exG, [[0, 1, 2], [0, 1, 3], [0, 2, 3], [1, 2, 3]], [[0, 1, 2, 3]], []]) := by decide

/-! ## C16–C18 -/

section VR

variable {α : Type} [LinearOrder α] [Zero α]

/-- Four points at distances 1, 2, 3, 1, 2, 1 on a line. -/
def exDist : List (List Int) := [[0, 1, 2, 3], [1, 0, 1, 2], [2, 1, 0, 1], [3, 2, 1, 0]]

theorem stableArgsort_isArgsort : IsArgsort (stableArgsort (α := α)) := by
  intro l
  have hp : ((l.zip (List.range l.length)).insertionSort fun a b => a.1 ≤ b.1).Perm
      (l.zip (List.range l.length)) := List.perm_insertionSort _ _
  refine ⟨?_, ?_⟩
  · have := hp.map Prod.snd
    rw [List.map_snd_zip (by simp)] at this
    exact this
  · have hs : ((l.zip (List.range l.length)).insertionSort fun a b => a.1 ≤ b.1).Pairwise
        fun a b => a.1 ≤ b.1 :=
      haveI : Std.Total (fun a b : α × ℕ => a.1 ≤ b.1) := ⟨fun a b => le_total _ _⟩
      haveI : IsTrans (α × ℕ) (fun a b : α × ℕ => a.1 ≤ b.1) := ⟨fun a b c => le_trans⟩
      List.pairwise_insertionSort _ _
    unfold stableArgsort
    rw [List.filterMap_map]
    have e : ((l.zip (List.range l.length)).insertionSort fun a b => a.1 ≤ b.1).filterMap
        ((fun i => l[i]?) ∘ Prod.snd) =
        ((l.zip (List.range l.length)).insertionSort fun a b => a.1 ≤ b.1).map Prod.fst := by
      rw [← List.filterMap_eq_map]
      apply List.filterMap_congr
      intro x hx
      have hx' := hp.mem_iff.1 hx
      obtain ⟨i, hi, e⟩ := List.getElem_of_mem hx'
      simp only [List.getElem_zip, List.getElem_range] at e
      rw [← e]
      simp only [List.length_zip, List.length_range, min_self] at hi
      simp [hi]
    rw [e, List.pairwise_map]
    exact hs

/-- The number of dimensions that `vietoris_rips` computes. -/
theorem vietorisRips_levels (argsort : List α → List Nat) (Dist : List (List α)) (maxR : α)
    (maxDim : Int) :
    let V := vietorisRips argsort Dist maxR maxDim
    (V.simplices.length : Int) = max maxDim 1 ∧ V.rads.length = V.simplices.length ∧
    ∀ d < V.simplices.length, V.simplices[d]? = some ((vrLevel argsort Dist maxR d).map Prod.fst) ∧
      V.rads[d]? = some ((vrLevel argsort Dist maxR d).map Prod.snd) := by
  simp only [vietorisRips]
  refine ⟨?_, by simp, ?_⟩
  · simp only [List.length_map, List.length_range]
    split <;> omega
  · intro d hd
    simp only [List.length_map, List.length_range] at hd
    simp [hd]

/-- **C16.** Whatever tie-breaking `np.argsort` uses, the complex returned by
`vietoris_rips(Dist, max_r, max_dim)` has as many vertices as `Dist` has rows, has entries up to
dimension `max(max_dim, 1)`, and its entry of dimension `d + 1` lists exactly once each, as increasing
lists, the sets of `d + 2` points with all pairwise distances `< max_r`. -/
theorem C16_vietoris_rips_simplices (argsort : List α → List Nat) (h : IsArgsort argsort)
    (Dist : List (List α)) (maxR : α) (maxDim : Int) :
    (vietorisRips argsort Dist maxR maxDim).verts = Dist.length ∧
    ((vietorisRips argsort Dist maxR maxDim).simplices.length : Int) = max maxDim 1 ∧
    ∀ d S, (vietorisRips argsort Dist maxR maxDim).simplices[d]? = some S →
      S.Nodup ∧ ∀ s, s ∈ S ↔ s.length = d + 2 ∧ IsSmall (distAt Dist) Dist.length maxR s := by
  obtain ⟨h1, -, h2⟩ := vietorisRips_levels argsort Dist maxR maxDim
  refine ⟨rfl, h1, fun d S hS => ?_⟩
  have hd : d < (vietorisRips argsort Dist maxR maxDim).simplices.length :=
    (List.getElem?_eq_some_iff.1 hS).1
  have := (h2 d hd).1
  rw [hS] at this
  obtain rfl := Option.some.inj this
  obtain ⟨g1, -, g3⟩ := vrLevel_spec h Dist maxR d
  refine ⟨g1, fun s => ?_⟩
  rw [List.mem_map]
  constructor
  · rintro ⟨⟨t, r⟩, ht, rfl⟩
    exact ⟨((g3 t r).1 ht).1, ((g3 t r).1 ht).2.1⟩
  · rintro ⟨hl, hs⟩
    -- the diameter exists
    have : ∀ t : List Nat, 2 ≤ t.length → t.Pairwise (· < ·) →
        ∃ q, IsDiameter (distAt Dist) t q := by
      intro t
      induction t with
      | nil => simp
      | cons a t iht =>
        intro hlen hpw
        obtain ⟨g1, g2⟩ := List.pairwise_cons.1 hpw
        by_cases hc : 2 ≤ t.length
        · obtain ⟨q, hq⟩ := iht hc g2
          exact ⟨_, isDiameter_cons hq g1⟩
        · match t, hlen, hc with
          | [b], _, _ =>
            refine ⟨distAt Dist b a, ?_, a, by simp, b, by simp, g1 b (by simp), rfl⟩
            intro u hu v hv huv
            simp only [List.mem_cons, List.not_mem_nil, or_false] at hu hv
            have := g1 b (by simp)
            have : u = a ∧ v = b := by omega
            rw [this.1, this.2]
          | [], hlen, _ => simp at hlen
          | _ :: _ :: _, _, hc => simp at hc
    obtain ⟨q, hq⟩ := this s (by omega) (hs.2.imp fun h => h.1)
    exact ⟨(s, q), (g3 s q).2 ⟨hl, hs, hq⟩, rfl⟩

/-- **C17.** The radius stored beside each simplex is the largest pairwise distance of its vertices;
vertices have radius `0`; there are as many radii as simplices. -/
theorem C17_vietoris_rips_radii (argsort : List α → List Nat) (h : IsArgsort argsort)
    (Dist : List (List α)) (maxR : α) (maxDim : Int) :
    let V := vietorisRips argsort Dist maxR maxDim
    V.rad0 = List.replicate V.verts 0 ∧ V.rads.length = V.simplices.length ∧
    ∀ (d : Nat) (S : List (List Nat)) (R : List α), V.simplices[d]? = some S → V.rads[d]? = some R → R.length = S.length ∧
      ∀ (i : Nat) (s : List Nat) (r : α), S[i]? = some s → R[i]? = some r → IsDiameter (distAt Dist) s r := by
  intro V
  obtain ⟨-, h1, h2⟩ := vietorisRips_levels argsort Dist maxR maxDim
  refine ⟨rfl, h1, fun d S R hS hR => ?_⟩
  have hd : d < V.simplices.length := (List.getElem?_eq_some_iff.1 hS).1
  have e1 := (h2 d hd).1
  have e2 := (h2 d hd).2
  rw [hS] at e1
  rw [hR] at e2
  obtain rfl := Option.some.inj e1
  obtain rfl := Option.some.inj e2
  obtain ⟨-, -, g3⟩ := vrLevel_spec h Dist maxR d
  refine ⟨by simp, fun i s r hs hr => ?_⟩
  rw [List.getElem?_map] at hs hr
  obtain ⟨x, hx, rfl⟩ := Option.map_eq_some_iff.1 hs
  obtain ⟨y, hy, rfl⟩ := Option.map_eq_some_iff.1 hr
  rw [hx] at hy
  obtain rfl := Option.some.inj hy
  exact ((g3 x.1 x.2).1 (List.mem_of_getElem? hx)).2.2

/-- **C18.** The complex is a filtered simplicial complex: radii are nondecreasing in each dimension,
every face of a simplex is listed, and a face is never born after a simplex that contains it
(vertices are born at `0`, so this needs nonnegative distances in dimension one). -/
theorem C18_vietoris_rips_filtration (argsort : List α → List Nat) (h : IsArgsort argsort)
    (Dist : List (List α)) (maxR : α) (maxDim : Int) (hpos : ∀ i j, 0 ≤ distAt Dist i j) :
    let V := vietorisRips argsort Dist maxR maxDim
    IsComplex V.verts V.simplices ∧
    (∀ R ∈ V.rads, R.Pairwise (· ≤ ·)) ∧
    (∀ R ∈ V.rads, ∀ r ∈ R, 0 ≤ r) ∧
    (∀ R ∈ V.rads, ∀ r ∈ R, r < maxR) ∧
    ∀ (d : Nat) (S T : List (List Nat)) (R Q : List α), V.simplices[d]? = some S → V.simplices[d + 1]? = some T → V.rads[d]? = some R →
      V.rads[d + 1]? = some Q → ∀ (i j : Nat) (s t : List Nat) (r q : α), S[i]? = some s → R[i]? = some r → T[j]? = some t →
      Q[j]? = some q → (∃ k, k < t.length ∧ s = t.eraseIdx k) → r ≤ q := by
  intro V
  obtain ⟨hv, hlen, hS⟩ := C16_vietoris_rips_simplices argsort h Dist maxR maxDim
  obtain ⟨-, hl, hR⟩ := C17_vietoris_rips_radii argsort h Dist maxR maxDim
  obtain ⟨-, -, h2⟩ := vietorisRips_levels argsort Dist maxR maxDim
  have diam : ∀ R ∈ V.rads, ∀ r ∈ R, ∃ s, IsSmall (distAt Dist) Dist.length maxR s ∧
      IsDiameter (distAt Dist) s r := by
    intro R hRm r hr
    obtain ⟨d, hd, rfl⟩ := List.getElem_of_mem hRm
    obtain ⟨i, hi, rfl⟩ := List.getElem_of_mem hr
    have hd' : d < V.simplices.length := by rw [← hl]; exact hd
    have h3 := (hR d _ V.rads[d] (List.getElem?_eq_getElem hd') (List.getElem?_eq_getElem hd))
    have hi' : i < V.simplices[d].length := by rw [← h3.1]; exact hi
    have h4 := h3.2 i _ _ (List.getElem?_eq_getElem hi') (List.getElem?_eq_getElem hi)
    exact ⟨_, (((hS d _ (List.getElem?_eq_getElem hd')).2 _).1 (List.getElem_mem hi')).2, h4⟩
  refine ⟨⟨?_, ?_, ?_, ?_, ?_⟩, ?_, ?_, ?_, ?_⟩
  · intro i S h s hs; exact (((hS i S h).2 s).1 hs).1
  · intro S hSm s hs
    obtain ⟨i, hi, rfl⟩ := List.getElem_of_mem hSm
    exact (((hS i _ (List.getElem?_eq_getElem hi)).2 s).1 hs).2.2.imp fun h => h.1
  · intro S hSm s hs
    obtain ⟨i, hi, rfl⟩ := List.getElem_of_mem hSm
    exact (((hS i _ (List.getElem?_eq_getElem hi)).2 s).1 hs).2.1
  · intro S hSm
    obtain ⟨i, hi, rfl⟩ := List.getElem_of_mem hSm
    exact (hS i _ (List.getElem?_eq_getElem hi)).1
  · intro i S T hSi hTi t ht k hk
    obtain ⟨hl, hsm⟩ := ((hS (i + 1) T hTi).2 t).1 ht
    refine ((hS i S hSi).2 _).2 ⟨?_, ?_, ?_⟩
    · rw [List.length_eraseIdx_of_lt hk]; omega
    · exact fun v hv => hsm.1 v ((List.eraseIdx_sublist t k).subset hv)
    · exact hsm.2.sublist (List.eraseIdx_sublist t k)
  · intro R hRm
    obtain ⟨d, hd, rfl⟩ := List.getElem_of_mem hRm
    have hd' : d < V.simplices.length := by rw [← hl]; exact hd
    have := (h2 d hd').2
    rw [List.getElem?_eq_getElem hd] at this
    have e : V.rads[d] = (vrLevel argsort Dist maxR d).map Prod.snd := Option.some.inj this
    rw [e]
    exact (vrLevel_spec h Dist maxR d).2.1
  · intro R hRm r hr
    obtain ⟨s, -, hd⟩ := diam R hRm r hr
    obtain ⟨u, hu, v, hv, -, e⟩ := hd.2
    rw [← e]; exact hpos _ _
  · intro R hRm r hr
    obtain ⟨s, hs, hd⟩ := diam R hRm r hr
    obtain ⟨u, hu, v, hv, huv, e⟩ := hd.2
    rw [← e]
    -- in an increasing list with all pairs close, `u < v` are close
    have key : ∀ s : List Nat, s.Pairwise (fun u v => u < v ∧ distAt Dist v u < maxR) →
        ∀ u ∈ s, ∀ v ∈ s, u < v → distAt Dist v u < maxR := by
      intro s hp u hu v hv huv
      obtain ⟨i, hi, rfl⟩ := List.getElem_of_mem hu
      obtain ⟨j, hj, rfl⟩ := List.getElem_of_mem hv
      have hij : i < j := by
        by_contra hc
        rcases Nat.lt_or_ge j i with hc' | hc'
        · have := (List.pairwise_iff_getElem.1 hp j i hj hi hc').1
          omega
        · have : i = j := by omega
          subst this; omega
      exact (List.pairwise_iff_getElem.1 hp i j hi hj hij).2
    exact key s hs.2 u hu v hv huv
  · intro d S T R Q h1 h2 h3 h4 i j s t r q hs hr ht hq ⟨k, hk, e⟩
    have d1 := (hR d S R h1 h3).2 i s r hs hr
    have d2 := (hR (d + 1) T Q h2 h4).2 j t q ht hq
    obtain ⟨u, hu, v, hv, huv, e'⟩ := d1.2
    rw [← e']
    have sub := (List.eraseIdx_sublist t k).subset
    rw [← e] at sub
    exact d2.1 u (sub hu) v (sub hv) huv

end VR

example : IsArgsort (stableArgsort (α := Int)) ∧ (∀ i j, 0 ≤ distAt exDist i j) := by
  refine ⟨stableArgsort_isArgsort, ?_⟩
  intro i j
  have h : ∀ row ∈ exDist, ∀ x ∈ row, 0 ≤ x := by decide
  unfold distAt
  by_cases hi : i < exDist.length
  · by_cases hj : j < (exDist.getD i []).length
    · exact h _ (getD_mem' hi) _ (getD_mem' hj)
    · simp [List.getD_eq_getElem?_getD, List.getElem?_eq_none (not_lt.1 hj)] at hj ⊢
      simp [List.getElem?_eq_none hj]
  · simp [List.getElem?_eq_none (not_lt.1 hi)]

example : vietorisRips stableArgsort exDist 3 2 =
    { verts := 4
      simplices := [[[0, 1], [1, 2], [2, 3], [0, 2], [1, 3]], [[0, 1, 2], [1, 2, 3]]]
      rad0 := [0, 0, 0, 0]
      rads := [[1, 1, 1, 2, 2], [2, 2]] } := by decide

/-! ## C19–C20 -/

section Diff

variable {p n : Nat} {C : List (List (List Nat))}

/-- The complex used in examples: a hollow and a full triangle that share an edge. -/
def exC : List (List (List Nat)) := [[[0, 1], [0, 2], [1, 2], [1, 3], [2, 3]], [[0, 1, 2]]]

theorem exC_ok : IsComplex 4 exC := by
  refine ⟨?_, by decide, by decide, by decide, ?_⟩
  · intro i S h
    match i, h with
    | 0, h => simp only [exC, List.getElem?_cons_zero, Option.some.injEq] at h; subst h; decide
    | 1, h =>
      simp only [exC, List.getElem?_cons_succ, List.getElem?_cons_zero, Option.some.injEq] at h
      subst h; decide
    | i + 2, h => simp [exC] at h
  · intro i S T hS hT
    match i, hS, hT with
    | 0, hS, hT =>
      simp only [exC, List.getElem?_cons_succ, List.getElem?_cons_zero, Option.some.injEq] at hS hT
      subst hS; subst hT; decide
    | i + 1, hS, hT => simp [exC] at hT

/-- **C19.** `complex_differentials` does not raise on a complex with at least one entry besides the
number of vertices. -/
theorem C19_differentials_total (hC : IsComplex n C) (hne : C ≠ []) :
    ∃ D, complexDifferentials n C p = .ok (n, D) ∧ D.length = C.length := by
  cases C with
  | nil => exact absurd rfl hne
  | cons E rest =>
    refine ⟨diffOne p n E :: diffTail p 2 E rest, ?_, by simp [diffTail_length]⟩
    simp only [complexDifferentials]
    rw [if_pos]
    rw [List.all_eq_true]
    intro c hc
    have hl := hC.length 0 E (by simp) c hc
    exact decide_eq_true
      ⟨hC.verts E (by simp) c hc _ (getD_mem' (by omega)), hC.verts E (by simp) c hc _
        (getD_mem' (by omega))⟩

theorem complexDifferentials_ok {D : List Mat} {n' : Nat} (h : complexDifferentials n C p = .ok (n', D)) :
    ∃ E rest, C = E :: rest ∧ n' = n ∧ D = diffOne p n E :: diffTail p 2 E rest := by
  cases C with
  | nil => cases h
  | cons E rest =>
    simp only [complexDifferentials] at h
    split at h
    · simp only [Except.ok.injEq, Prod.mk.injEq] at h
      exact ⟨E, rest, rfl, h.1.symm, h.2.symm⟩
    · cases h

/-- **C19.** The differentials are the simplicial boundary mod `p`: `D[1]` has `1` in the row of the
first vertex of an edge, `-1` in that of the second, and `0` elsewhere; the column of `D[d]`, `d ≥ 2`,
of a simplex `t` has `(-1)^k mod p` in the row of the face that misses the `k`-th vertex of `t` and
`0` in the rows of all other simplices.  All entries are in `[0, p)`. -/
theorem C19_differentials_boundary (hp : 2 ≤ p) (hC : IsComplex n C) (n' : Nat) (D : List Mat)
    (h : complexDifferentials n C p = .ok (n', D)) :
    n' = n ∧ D.length = C.length ∧ (∀ M ∈ D, M.WellShaped ∧ M.Reduced p) ∧
    (∀ E, C[0]? = some E → ∃ M, D[0]? = some M ∧ M.nrows = n ∧ M.ncols = E.length ∧
      ∀ j u v, E[j]? = some [u, v] → M.get u j = 1 ∧ M.get v j = (p : Int) - 1 ∧
        ∀ i, i ≠ u → i ≠ v → M.get i j = 0) ∧
    (∀ d S T, C[d]? = some S → C[d + 1]? = some T → ∃ M, D[d + 1]? = some M ∧
      M.nrows = S.length ∧ M.ncols = T.length ∧
      ∀ i j s t, S[i]? = some s → T[j]? = some t →
        (∀ k, k < t.length → s = t.eraseIdx k → M.get i j = ((-1 : Int) ^ k).fmod p) ∧
        ((∀ k, k < t.length → s ≠ t.eraseIdx k) → M.get i j = 0)) := by
  obtain ⟨E, rest, rfl, rfl, rfl⟩ := complexDifferentials_ok h
  refine ⟨rfl, by simp [diffTail_length], ?_, ?_, ?_⟩
  · intro M hM
    rcases List.mem_cons.1 hM with rfl | hM
    · exact diffOne_shape p _ E hp
    · obtain ⟨i, hi, rfl⟩ := List.getElem_of_mem hM
      rw [diffTail_length] at hi
      have := diffTail_get p 2 E rest i _ _
        (List.getElem?_eq_getElem (by simp; omega)) (List.getElem?_eq_getElem (by simp; omega))
      rw [List.getElem?_eq_getElem (by rw [diffTail_length]; exact hi)] at this
      rw [Option.some.inj this]
      exact diffHigher_shape _ _ _ _ hp
  · intro E' hE'
    simp only [List.getElem?_cons_zero, Option.some.injEq] at hE'
    subst hE'
    refine ⟨diffOne p n' E, by simp, rfl, by simp [diffOne, Mat.ncols], ?_⟩
    intro j u v hj
    have hjl := (List.getElem?_eq_some_iff.1 hj).1
    have hm := List.mem_of_getElem? hj
    have hu := hC.verts E (by simp) _ hm u (by simp)
    have hv := hC.verts E (by simp) _ hm v (by simp)
    have huv : u < v := by
      have := hC.sorted E (by simp) _ hm
      simpa using this
    have hg : E.getD j [] = [u, v] := by rw [List.getD_eq_getElem?_getD, hj]; rfl
    refine ⟨?_, ?_, ?_⟩
    · rw [diffOne_get hu hjl, hg]; simp [huv.ne]
    · rw [diffOne_get hv hjl, hg]; simp
    · intro i hiu hiv
      by_cases hi : i < n'
      · rw [diffOne_get hi hjl, hg]; simp [hiu, hiv]
      · have hsh := (diffOne_shape p n' E hp).1
        unfold Mat.get
        apply getD_eq_zero_of_le
        rw [hsh _ (getD_mem' (by simp [diffOne, hjl]))]
        exact not_lt.1 hi
  · intro d S T hS hT
    refine ⟨diffHigher p (2 + d) S T, ?_, rfl, by simp [diffHigher, Mat.ncols], ?_⟩
    · rw [List.getElem?_cons_succ]; exact diffTail_get p 2 E rest d S T hS hT
    · intro i j s t hs ht
      have hi := (List.getElem?_eq_some_iff.1 hs).1
      have hj := (List.getElem?_eq_some_iff.1 ht).1
      have hgs : S.getD i [] = s := by rw [List.getD_eq_getElem?_getD, hs]; rfl
      have hgt : T.getD j [] = t := by rw [List.getD_eq_getElem?_getD, ht]; rfl
      have hsm := List.mem_of_getElem? hs
      have htm := List.mem_of_getElem? ht
      have hsl := hC.length d S hS s hsm
      have htl := hC.length (d + 1) T hT t htm
      have hss := hC.sorted S (List.mem_of_getElem? hS) s hsm
      have hts := hC.sorted T (List.mem_of_getElem? hT) t htm
      rw [diffHigher_get hi hj, hgs, hgt]
      refine ⟨?_, ?_⟩
      · rintro k hk rfl
        exact diffEntry_face hts (by omega) hk
      · intro hn
        exact diffEntry_not_face hss hts (by omega) (by omega) hn

/-- **C20.** The product of two consecutive differentials is zero mod `p`. -/
theorem C20_boundary_boundary_zero (hp : 2 ≤ p) (hC : IsComplex n C) (n' : Nat) (D : List Mat)
    (h : complexDifferentials n C p = .ok (n', D)) (d : Nat) (M N : Mat) (hM : D[d]? = some M)
    (hN : D[d + 1]? = some N) (i k : Nat) :
    ∑ j ∈ range M.ncols, M.z p i j * N.z p j k = 0 := by
  obtain ⟨-, hlen, hshape, -, -⟩ := C19_differentials_boundary hp hC n' D h
  obtain ⟨E, rest, rfl, rfl, rfl⟩ := complexDifferentials_ok h
  have hdl : d + 1 < (E :: rest).length := by
    rw [← hlen]; exact (List.getElem?_eq_some_iff.1 hN).1
  obtain ⟨S, hS⟩ : ∃ S, (E :: rest)[d]? = some S := ⟨_, List.getElem?_eq_getElem (by omega)⟩
  obtain ⟨T, hT⟩ : ∃ T, (E :: rest)[d + 1]? = some T := ⟨_, List.getElem?_eq_getElem hdl⟩
  have eN : N = diffHigher p (2 + d) S T := by
    rw [List.getElem?_cons_succ, diffTail_get p 2 E rest d S T hS hT] at hN
    exact (Option.some.inj hN).symm
  have hSm := List.mem_of_getElem? hS
  have hTm := List.mem_of_getElem? hT
  have hMc : M.ncols = S.length := by
    cases d with
    | zero =>
      simp only [List.getElem?_cons_zero, Option.some.injEq] at hM hS
      subst hM; subst hS; simp [diffOne, Mat.ncols]
    | succ d =>
      obtain ⟨P, hP⟩ : ∃ P, (E :: rest)[d]? = some P := ⟨_, List.getElem?_eq_getElem (by omega)⟩
      rw [List.getElem?_cons_succ, diffTail_get p 2 E rest d P S hP hS] at hM
      rw [← Option.some.inj hM]; simp [diffHigher, Mat.ncols]
  rw [hMc]
  by_cases hk : k < T.length
  swap
  · apply Finset.sum_eq_zero
    intro j _
    have : N.get j k = 0 := by
      unfold Mat.get
      have : N.cols.getD k [] = [] := by
        rw [List.getD_eq_getElem?_getD, List.getElem?_eq_none]; rfl
        rw [eN]; simp [diffHigher]; omega
      rw [this]; simp
    simp [Mat.z, this]
  by_cases hi : i < M.nrows
  swap
  · apply Finset.sum_eq_zero
    intro j _
    have : M.get i j = 0 := by
      unfold Mat.get
      by_cases hj : j < M.cols.length
      · apply getD_eq_zero_of_le
        rw [(hshape M (List.mem_of_getElem? hM)).1 _ (getD_mem' hj)]
        exact not_lt.1 hi
      · rw [List.getD_eq_getElem?_getD (l := M.cols), List.getElem?_eq_none (not_lt.1 hj)]; simp
    simp [Mat.z, this]
  -- the simplex
  have htm : T.getD k [] ∈ T := getD_mem' hk
  have htl := hC.length (d + 1) T hT _ htm
  have hts := hC.sorted T hTm _ htm
  have hSl : ∀ c ∈ S, c.length = 2 + d := fun c hc => by
    have := hC.length d S hS c hc; omega
  have hface : ∀ k', k' < (T.getD k []).length → (T.getD k []).eraseIdx k' ∈ S := fun k' hk' =>
    hC.face d S T hS hT _ htm k' hk'
  -- the row of `M` as a function of the face
  obtain ⟨g, hg, hgF⟩ : ∃ g : List Nat → ZMod p,
      (∀ j, j < S.length → M.z p i j = g (S.getD j [])) ∧
      ∃ F : List Nat → ZMod p, ∀ c ∈ S, g c = ∑ b ∈ range (2 + d), (-1) ^ b * F (c.eraseIdx b) := by
    cases d with
    | zero =>
      simp only [List.getElem?_cons_zero, Option.some.injEq] at hM hS
      subst hM; subst hS
      refine ⟨fun c => (((if i = c.getD 1 0 then (p : Int) - 1 else
        if i = c.getD 0 0 then 1 else 0 : Int)) : ZMod p), ?_, fun c => if c = [i] then -1 else 0, ?_⟩
      · intro j hj
        simp only [Mat.z]
        rw [diffOne_get (show i < n' from hi) hj]
      · intro c hc
        have hcl := hSl c hc
        have hcs := hC.sorted E (by simp) c hc
        match c, hcl with
        | [u, v], _ =>
          have huv : u < v := by simpa using hcs
          simp only [Nat.add_zero, Finset.sum_range_succ, Finset.sum_range_zero, List.eraseIdx_cons_zero,
            List.eraseIdx_cons_succ, List.getD_cons_succ, List.getD_cons_zero, List.cons.injEq,
            and_true, pow_zero, pow_one, zero_add, one_mul]
          by_cases h1 : i = v
          · have h2 : u ≠ i := by omega
            simp [h1, (show u ≠ v by omega)]
          · by_cases h2 : i = u
            · have : v ≠ u := by omega
              subst h2
              simp [h1, this]
            · have h1' : v ≠ i := fun e => h1 e.symm
              have h2' : u ≠ i := fun e => h2 e.symm
              simp [h1, h2, h1', h2']
    | succ d =>
      obtain ⟨P, hP⟩ : ∃ P, (E :: rest)[d]? = some P := ⟨_, List.getElem?_eq_getElem (by omega)⟩
      rw [List.getElem?_cons_succ, diffTail_get p 2 E rest d P S hP hS] at hM
      have eM := Option.some.inj hM
      have hiP : i < P.length := by rw [← eM] at hi; simpa [diffHigher] using hi
      refine ⟨fun c => ((diffEntry p (2 + d) (P.getD i []) c : Int) : ZMod p), ?_,
        fun c => if P.getD i [] = c then 1 else 0, ?_⟩
      · intro j hj
        simp only [Mat.z, ← eM]
        rw [diffHigher_get hiP hj]
      · intro c hc
        have h1 := hC.length d P hP _ (getD_mem' (x := []) hiP)
        have h2 := hSl c hc
        exact diffEntry_eq_sum (hC.sorted P (List.mem_of_getElem? hP) _ (getD_mem' hiP))
          (hC.sorted S hSm c hc) (by omega) (by omega)
  obtain ⟨F, hF⟩ := hgF
  calc ∑ j ∈ range S.length, M.z p i j * N.z p j k
      = ∑ j ∈ range S.length, g (S.getD j []) *
          ((diffEntry p (2 + d) (S.getD j []) (T.getD k []) : Int) : ZMod p) := by
        refine Finset.sum_congr rfl fun j hj => ?_
        rw [hg j (mem_range.1 hj)]
        simp only [Mat.z, eN]
        rw [diffHigher_get (mem_range.1 hj) hk]
    _ = ∑ a ∈ range (2 + d + 1), (-1) ^ a * g ((T.getD k []).eraseIdx a) :=
        sum_diffEntry (hC.nodup S hSm) hSl (hC.sorted S hSm) hts (by omega) hface g
    _ = ∑ a ∈ range (2 + d + 1), ∑ b ∈ range (2 + d),
          (-1) ^ a * ((-1) ^ b * F (((T.getD k []).eraseIdx a).eraseIdx b)) := by
        refine Finset.sum_congr rfl fun a ha => ?_
        rw [hF _ (hface a (by have := mem_range.1 ha; omega)), Finset.mul_sum]
    _ = 0 := by
        apply alternating_double_sum
        intro a b hab
        rw [eraseIdx_eraseIdx_comm _ hab]

example : IsComplex 4 exC ∧ complexDifferentials 4 exC 5 = .ok (4,
    [Mat.ofRows 5 [[1, 1, 0, 0, 0], [4, 0, 1, 1, 0], [0, 4, 4, 0, 1], [0, 0, 0, 4, 4]],
     Mat.ofRows 1 [[1], [4], [1], [0], [0]]]) := ⟨exC_ok, by decide⟩

end Diff

end Permaviss
