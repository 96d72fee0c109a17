import Verif.Props.Invariance
import Verif.Lemmas.Tree

/-!
# Bars of degree zero and shortest connecting trees (C105)
-/

namespace Permaviss

attribute [-instance] instMulZeroClassOfSemiring

section

variable {α : Type} [LinearOrder α] [Zero α] {p : ℕ} {Pt : Type}

/-- The distance between the ends of an edge. -/
def edgeLength (d : Pt → Pt → α) (cloud : List Pt) (e : Fin cloud.length × Fin cloud.length) : α :=
  d cloud[e.1] cloud[e.2]

/-- All pairs of points. -/
def allPairs (n : ℕ) : List (Fin n × Fin n) :=
  (List.finRange n).flatMap fun i => (List.finRange n).map fun j => (i, j)

theorem mem_allPairs {n : ℕ} (e : Fin n × Fin n) : e ∈ allPairs n := by
  unfold allPairs
  rw [List.mem_flatMap]
  exact ⟨e.1, List.mem_finRange _, List.mem_map.2 ⟨e.2, List.mem_finRange _, rfl⟩⟩

/-- Components of the graph of near points. -/
theorem card_components (d : Pt → Pt → α) (hsym : ∀ a b, d a b = d b a) (cloud : List Pt) (t : α) :
    Nat.card (nearGraph d hsym cloud t).ConnectedComponent =
      classes ((allPairs cloud.length).filter fun e => decide (edgeLength d cloud e ≤ t)) := by
  have hiff : ∀ u v : Fin cloud.length, (nearGraph d hsym cloud t).Reachable u v ↔
      Joined ((allPairs cloud.length).filter fun e => decide (edgeLength d cloud e ≤ t)) u v := by
    intro u v
    constructor
    · rintro ⟨w⟩
      induction w with
      | nil => exact Joined.refl _ _
      | cons hab _ ih =>
        exact (Joined.edge (List.mem_filter.2 ⟨mem_allPairs _, decide_eq_true hab.2⟩)).trans ih
    · intro h
      induction h with
      | rel a b hm =>
        by_cases hab : a = b
        · subst hab; exact SimpleGraph.Reachable.refl a
        · exact SimpleGraph.Adj.reachable ⟨hab, of_decide_eq_true (List.mem_filter.1 hm).2⟩
      | refl a => exact SimpleGraph.Reachable.refl a
      | symm a b _ ih => exact ih.symm
      | trans a b c _ _ ih1 ih2 => exact ih1.trans ih2
  exact Nat.card_congr (Quot.congr (Equiv.refl _) hiff)

/-- **C105.** The bars of degree zero are the lengths of the edges of a shortest tree that connects the points, besides
the bar `[0, max_r)`: they end at these lengths, cut at `max_r`, and edges of length zero have no bar.  The tree is the
shortest one in the strongest sense: every list of edges that connects the points has, for every `t`, at least as many
edges longer than `t`. -/
theorem C105_shortest_tree (hp : p.Prime) {pdist : List Pt → List (List α)} {d : Pt → Pt → α}
    (hd : IsDistTable pdist d) (hsym : ∀ a b, d a b = d b a) {argsort : List α → List Nat}
    (ha : IsArgsort argsort) (rnd : α → α) {cloud : List Pt} (hne : cloud ≠ []) {maxR : α} (hmax : 0 < maxR)
    (maxDim : Int) {L : LocalOut α}
    (hL : localPersistentHomology pdist argsort rnd cloud maxR maxDim p = .ok L) :
    ∃ (B : Basis α) (T : List (Fin cloud.length × Fin cloud.length)), L.ph.hom[0]? = some B ∧
      Connects T ∧ T.length + 1 = cloud.length ∧
      B.barcode.Perm ((0, maxR) ::
        ((T.map (edgeLength d cloud)).filter fun x => decide (0 < x)).map fun x => (0, min x maxR)) ∧
      ∀ T' : List (Fin cloud.length × Fin cloud.length), Connects T' → ∀ t,
        (T.filter fun e => decide (t < edgeLength d cloud e)).length ≤
          (T'.filter fun e => decide (t < edgeLength d cloud e)).length := by
  have hn : 0 < cloud.length := List.length_pos_iff.2 hne
  have : Nonempty (Fin cloud.length) := ⟨⟨0, hn⟩⟩
  obtain ⟨B, hB, hb0, hcount⟩ := C66_components_count hp hd hsym ha rnd cloud hmax maxDim hL
  obtain ⟨B', hB', h1, -⟩ := local_ranks hp hd.isPdist ha hmax hL (e := 0) (by
    have := le_max_right maxDim 1; push_cast; omega)
  rw [hB] at hB'
  obtain rfl := Option.some.inj hB'
  obtain ⟨T, t1, -, t3, t4⟩ := exists_shortTree (edgeLength d cloud) (E := allPairs cloud.length)
    fun a b => Joined.edge (mem_allPairs (a, b))
  rw [Nat.card_eq_fintype_card, Fintype.card_fin] at t3
  refine ⟨B, T, hB, t1, t3, ?_, fun T' hT' t => ?_⟩
  · refine perm_of_ranks (maxR := maxR) (fun b hb => ⟨(h1 b hb).1, (h1 b hb).2.1, (h1 b hb).2.2.1⟩) ?_ ?_
    · intro b hb
      rcases List.mem_cons.1 hb with rfl | hb
      · exact ⟨le_rfl, hmax, le_rfl⟩
      · obtain ⟨x, hx, rfl⟩ := List.mem_map.1 hb
        have hx' : 0 < x := of_decide_eq_true (List.mem_filter.1 hx).2
        exact ⟨le_rfl, lt_min hx' hmax, min_le_right _ _⟩
    · intro s t hst hs ht
      have e1 : barsThrough B.barcode s t = (B.barcode.filter fun b => decide (t < b.2)).length := by
        unfold barsThrough
        rw [List.countP_eq_length_filter]
        congr 1
        apply List.filter_congr
        intro b hb
        rw [hb0 b hb, decide_eq_true hs, Bool.true_and]
      rw [e1, hcount t (hs.trans hst) ht, card_components, ← t4 t]
      unfold barsThrough
      rw [List.countP_cons, if_pos (by simp [hs, ht]), List.countP_map, List.countP_filter, List.countP_map,
        List.countP_eq_length_filter]
      congr 2
      apply List.filter_congr
      intro e he
      simp only [Function.comp_apply]
      rw [Bool.eq_iff_iff]
      simp only [Bool.and_eq_true, decide_eq_true_eq, lt_min_iff]
      constructor
      · exact fun h => ⟨⟨hs, h, ht⟩, (hs.trans hst).trans_lt h⟩
      · exact fun h => h.1.2.1
  · have h2 := t4 t
    have h3 := classes_le_long (edgeLength d cloud) (E := allPairs cloud.length) hT' (t := t) fun e _ he =>
      Joined.edge (List.mem_filter.2 ⟨mem_allPairs _, decide_eq_true he⟩)
    omega

end

section

variable {α : Type} [AddCommGroup α] [LinearOrder α] [IsOrderedAddMonoid α] {p : ℕ} {Pt : Type}

/-- **C105.** If `max_r` exceeds all distances, the finite bars of degree zero have the total length of a tree that
connects the points, and no list of edges that connects them is shorter. -/
theorem C105_total_length (hp : p.Prime) {pdist : List Pt → List (List α)} {d : Pt → Pt → α}
    (hd : IsDistTable pdist d) (hsym : ∀ a b, d a b = d b a) {argsort : List α → List Nat}
    (ha : IsArgsort argsort) (rnd : α → α) {cloud : List Pt} (hne : cloud ≠ []) {maxR : α} (hmax : 0 < maxR)
    (hbig : ∀ a ∈ cloud, ∀ b ∈ cloud, d a b < maxR) (maxDim : Int) {L : LocalOut α}
    (hL : localPersistentHomology pdist argsort rnd cloud maxR maxDim p = .ok L) :
    ∃ B, L.ph.hom[0]? = some B ∧
      (∃ T : List (Fin cloud.length × Fin cloud.length), Connects T ∧ T.length + 1 = cloud.length ∧
        ((B.barcode.filter fun b => decide (b.2 < maxR)).map fun b => b.2 - b.1).sum =
          (T.map (edgeLength d cloud)).sum) ∧
      ∀ T : List (Fin cloud.length × Fin cloud.length), Connects T →
        ((B.barcode.filter fun b => decide (b.2 < maxR)).map fun b => b.2 - b.1).sum ≤
          (T.map (edgeLength d cloud)).sum := by
  obtain ⟨B, T, hB, t1, t2, t3, t4⟩ := C105_shortest_tree hp hd hsym ha rnd hne hmax maxDim hL
  have hnn : ∀ (T : List (Fin cloud.length × Fin cloud.length)), ∀ x ∈ T.map (edgeLength d cloud), 0 ≤ x := by
    intro T x hx
    obtain ⟨e, -, rfl⟩ := List.mem_map.1 hx
    exact hd.nonneg _ _
  have hlt : ∀ x ∈ T.map (edgeLength d cloud), x < maxR := by
    intro x hx
    obtain ⟨e, -, rfl⟩ := List.mem_map.1 hx
    exact hbig _ (List.getElem_mem _) _ (List.getElem_mem _)
  have key : ∀ l : List α, (∀ x ∈ l, 0 ≤ x) → (∀ x ∈ l, x < maxR) →
      ((((l.filter fun x => decide (0 < x)).map fun x => ((0 : α), min x maxR)).filter
        fun b => decide (b.2 < maxR)).map fun b => b.2 - b.1).sum = l.sum := by
    intro l
    induction l with
    | nil => intro _ _; rfl
    | cons x l ih =>
      intro h1 h2
      have ih' := ih (fun y hy => h1 y (List.mem_cons_of_mem _ hy)) fun y hy => h2 y (List.mem_cons_of_mem _ hy)
      have hx := h1 x (List.mem_cons_self ..)
      have hx' := h2 x (List.mem_cons_self ..)
      rcases hx.eq_or_lt with h0 | h0
      · rw [List.filter_cons_of_neg (by simp [← h0]), ih', List.sum_cons, ← h0, zero_add]
      · rw [List.filter_cons_of_pos (by simpa using h0), List.map_cons, List.filter_cons_of_pos (by simp [hx']),
          List.map_cons, List.sum_cons, List.sum_cons, ih', min_eq_left hx'.le, sub_zero]
  have hsum : ((B.barcode.filter fun b => decide (b.2 < maxR)).map fun b => b.2 - b.1).sum =
      (T.map (edgeLength d cloud)).sum := by
    rw [((t3.filter fun b => decide (b.2 < maxR)).map fun b => b.2 - b.1).sum_eq,
      List.filter_cons_of_neg (by simp), key _ (hnn T) hlt]
  refine ⟨B, hB, ⟨T, t1, t2, hsum⟩, fun T' hT' => ?_⟩
  rw [hsum]
  refine sum_le_of_counts _ _ (hnn T') fun t _ => ?_
  rw [List.countP_map, List.countP_map, List.countP_eq_length_filter, List.countP_eq_length_filter]
  exact t4 T' hT' t

end

/-- The hypotheses of C105 are met by four points on a line; the path through them connects them, and has length six,
which is the total length of the finite bars. -/
example : Nat.Prime 3 ∧ IsDistTable exPdist (fun a b : Int => ((a - b).natAbs : Int)) ∧
    (∀ a b : Int, ((a - b).natAbs : Int) = (b - a).natAbs) ∧
    IsArgsort (stableArgsort (α := Int)) ∧ (∀ a ∈ [(0 : Int), 1, 3, 6], ∀ b ∈ [(0 : Int), 1, 3, 6], ((a - b).natAbs : Int) < 10) ∧
    Connects [((0 : Fin 4), (1 : Fin 4)), (1, 2), (2, 3)] ∧
    ([((0 : Fin 4), (1 : Fin 4)), (1, 2), (2, 3)].map
      (edgeLength (fun a b : Int => ((a - b).natAbs : Int)) [0, 1, 3, 6])).sum = 6 ∧
    (localPersistentHomology exPdist stableArgsort id [0, 1, 3, 6] 10 1 3).map
      (fun L => (L.ph.hom.take 1).map fun B => B.barcode) = .ok [[(0, 10), (0, 3), (0, 2), (0, 1)]] := by
  refine ⟨Nat.prime_three, ⟨fun c => rfl, fun a b => Int.natCast_nonneg _⟩, fun a b => by omega,
    stableArgsort_isArgsort, by decide, ?_, by decide, by decide +kernel⟩
  have h0 : ∀ a : Fin 4, Joined [((0 : Fin 4), (1 : Fin 4)), (1, 2), (2, 3)] 0 a := by
    have h1 : Joined [((0 : Fin 4), (1 : Fin 4)), (1, 2), (2, 3)] 0 1 := Joined.edge (by decide)
    have h2 : Joined [((0 : Fin 4), (1 : Fin 4)), (1, 2), (2, 3)] 1 2 := Joined.edge (by decide)
    have h3 : Joined [((0 : Fin 4), (1 : Fin 4)), (1, 2), (2, 3)] 2 3 := Joined.edge (by decide)
    intro a
    fin_cases a
    · exact Joined.refl _ _
    · exact h1
    · exact h1.trans h2
    · exact (h1.trans h2).trans h3
  exact fun a b => (h0 a).symm.trans (h0 b)

end Permaviss
