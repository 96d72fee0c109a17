import Verif.Lemmas.SwapPoints
import Verif.Lemmas.GraphComponents
import Mathlib.Algebra.Order.Group.Abs

/-!
# What the barcodes of the ordinary computation depend on (C63 - C67)
-/

namespace Permaviss

open Finset

attribute [-instance] instMulZeroClassOfSemiring

section

variable {α : Type} [LinearOrder α] [Zero α] {p : ℕ} {Pt : Type}

/-- The distances of a cloud, read in the table. -/
theorem cloudDist_getElem {pdist : List Pt → List (List α)} {d : Pt → Pt → α} (hd : IsDistTable pdist d)
    {cloud : List Pt} {u v : ℕ} (hu : u < cloud.length) (hv : v < cloud.length) :
    cloudDist pdist cloud u v = d cloud[u] cloud[v] := by
  unfold cloudDist distAt
  rw [if_neg (by omega), hd.table,
    List_getD_eq_getElem (cloud.map fun a => cloud.map (d a)) [] (by simpa using hu), List.getElem_map,
    List_getD_eq_getElem _ _ (by simpa using hv), List.getElem_map]

theorem getElem?_swap (pre l : List Pt) (x y : Pt) (u : ℕ) :
    (pre ++ x :: y :: l)[Equiv.swap pre.length (pre.length + 1) u]? = (pre ++ y :: x :: l)[u]? := by
  rw [Equiv.swap_apply_def]
  split_ifs with h1 h2
  · subst h1
    rw [List.getElem?_append_right (by omega), List.getElem?_append_right (by omega)]
    simp
  · subst h2
    rw [List.getElem?_append_right (by omega), List.getElem?_append_right (by omega)]
    simp
  · rcases Nat.lt_or_ge u pre.length with h | h
    · rw [List.getElem?_append_left h, List.getElem?_append_left h]
    · rw [List.getElem?_append_right h, List.getElem?_append_right h]
      obtain ⟨j, hj⟩ : ∃ j, u - pre.length = j + 2 := ⟨u - pre.length - 2, by omega⟩
      rw [hj]
      rfl

theorem rank_perm (hp : p.Prime) {pdist : List Pt → List (List α)} {d : Pt → Pt → α}
    (hd : IsDistTable pdist d) (hsym : ∀ a b, d a b = d b a) {l l' : List Pt} (hl : l.Perm l') (e : ℕ)
    {s t : α} (hst : s ≤ t) : ∀ pre : List Pt,
    Module.finrank (ZMod p) (LinearMap.range (vrMap (ZMod p) (cloudDist pdist (pre ++ l))
      (pre ++ l).length e hst)) =
    Module.finrank (ZMod p) (LinearMap.range (vrMap (ZMod p) (cloudDist pdist (pre ++ l'))
      (pre ++ l').length e hst)) := by
  induction hl with
  | nil => intro pre; rfl
  | cons x _ ih =>
    intro pre
    have := ih (pre ++ [x])
    rwa [← List.append_cons, ← List.append_cons] at this
  | trans _ _ ih1 ih2 => intro pre; rw [ih1 pre, ih2 pre]
  | swap x y l =>
    intro pre
    have hlen : (pre ++ x :: y :: l).length = (pre ++ y :: x :: l).length := by simp
    rw [hlen]
    refine (rank_swap hp e hst (i := pre.length) (by simp) ?_ ?_).symm
    · intro u hu v hv
      rw [cloudDist_getElem hd hu hv, cloudDist_getElem hd hv hu, hsym]
    · intro u hu v hv
      have hs : ∀ w < (pre ++ y :: x :: l).length, Equiv.swap pre.length (pre.length + 1) w <
          (pre ++ x :: y :: l).length := by
        intro w hw
        rw [Equiv.swap_apply_def]
        rw [List.length_append, List.length_cons, List.length_cons] at hw ⊢
        split_ifs <;> omega
      rw [cloudDist_getElem hd (hs u hu) (hs v hv), cloudDist_getElem hd hu hv]
      have h1 := getElem?_swap pre l x y u
      have h2 := getElem?_swap pre l x y v
      rw [List.getElem?_eq_getElem (hs u hu), List.getElem?_eq_getElem hu] at h1
      rw [List.getElem?_eq_getElem (hs v hv), List.getElem?_eq_getElem hv] at h2
      rw [Option.some.inj h1, Option.some.inj h2]

/-- **C63.** The barcodes do not depend on the order of the points: for a symmetric distance, two clouds with
the same points in another order have, in every degree, the same bars up to their order.  The sorting routine
(how it breaks ties) and the rounding may also be different. -/
theorem C63_point_order (hp : p.Prime) {pdist : List Pt → List (List α)} {d : Pt → Pt → α}
    (hd : IsDistTable pdist d) (hsym : ∀ a b, d a b = d b a) {argsort argsort' : List α → List Nat}
    (ha : IsArgsort argsort) (ha' : IsArgsort argsort') (rnd rnd' : α → α) {cloud cloud' : List Pt}
    (hperm : cloud.Perm cloud') {maxR : α} (hmax : 0 < maxR) (maxDim : Int) {L L' : LocalOut α}
    (hL : localPersistentHomology pdist argsort rnd cloud maxR maxDim p = .ok L)
    (hL' : localPersistentHomology pdist argsort' rnd' cloud' maxR maxDim p = .ok L')
    (e : ℕ) (he : (e : Int) < max maxDim 1) :
    ∃ B B', L.ph.hom[e]? = some B ∧ L'.ph.hom[e]? = some B' ∧ B.barcode.Perm B'.barcode := by
  obtain ⟨B, hB, h1, h2⟩ := local_ranks hp hd.isPdist ha hmax hL he
  obtain ⟨B', hB', h1', h2'⟩ := local_ranks hp hd.isPdist ha' hmax hL' he
  refine ⟨B, B', hB, hB', perm_of_ranks (maxR := maxR) (fun b hb => ⟨(h1 b hb).1, (h1 b hb).2.1,
    (h1 b hb).2.2.1⟩) (fun b hb => ⟨(h1' b hb).1, (h1' b hb).2.1, (h1' b hb).2.2.1⟩) ?_⟩
  intro s t hst hs ht
  rw [h2 s t hst hs ht, h2' s t hst hs ht]
  exact rank_perm hp hd hsym hperm e hst []

/-- The bars that are born before `maxR`, cut at `maxR`. -/
def cutBars (maxR : α) (bars : List (α × α)) : List (α × α) :=
  (bars.filter fun b => decide (b.1 < maxR)).map fun b => (b.1, min b.2 maxR)

/-- **C64.** A smaller maximal radius cuts the bars, and `max_dim` has no influence on the degrees which are
computed anyway. -/
theorem C64_max_radius (hp : p.Prime) {pdist : List Pt → List (List α)} (hd : IsPdist pdist)
    {argsort argsort' : List α → List Nat} (ha : IsArgsort argsort) (ha' : IsArgsort argsort')
    (rnd rnd' : α → α) (cloud : List Pt) {maxR maxR' : α} (hmax : 0 < maxR) (hle : maxR ≤ maxR')
    (maxDim maxDim' : Int) {L L' : LocalOut α}
    (hL : localPersistentHomology pdist argsort rnd cloud maxR maxDim p = .ok L)
    (hL' : localPersistentHomology pdist argsort' rnd' cloud maxR' maxDim' p = .ok L')
    (e : ℕ) (he : (e : Int) < max maxDim 1) (he' : (e : Int) < max maxDim' 1) :
    ∃ B B', L.ph.hom[e]? = some B ∧ L'.ph.hom[e]? = some B' ∧
      B.barcode.Perm (cutBars maxR B'.barcode) := by
  obtain ⟨B, hB, h1, h2⟩ := local_ranks hp hd ha hmax hL he
  obtain ⟨B', hB', h1', h2'⟩ := local_ranks hp hd ha' (hmax.trans_le hle) hL' he'
  refine ⟨B, B', hB, hB', perm_of_ranks (maxR := maxR) (fun b hb => ⟨(h1 b hb).1, (h1 b hb).2.1,
    (h1 b hb).2.2.1⟩) ?_ ?_⟩
  · intro b hb
    unfold cutBars at hb
    obtain ⟨c, hc, rfl⟩ := List.mem_map.1 hb
    rw [List.mem_filter, decide_eq_true_eq] at hc
    exact ⟨(h1' c hc.1).1, lt_min (h1' c hc.1).2.1 hc.2, min_le_right _ _⟩
  · intro s t hst hs ht
    rw [h2 s t hst hs ht, ← h2' s t hst hs (ht.trans_le hle)]
    unfold cutBars barsThrough
    rw [List.countP_map, List.countP_filter]
    refine List.countP_congr fun b _ => ?_
    simp only [Function.comp_apply, Bool.and_eq_true, decide_eq_true_eq, lt_min_iff]
    constructor
    · rintro ⟨h3, h4⟩
      exact ⟨⟨h3, h4, ht⟩, (h3.trans hst).trans_lt ht⟩
    · rintro ⟨⟨h3, h4, -⟩, -⟩
      exact ⟨h3, h4⟩

/-- **C67.** A change of units: if all the distances and the maximal radius are transported by an order
isomorphism that fixes zero (for instance multiplied by a positive number), so are the bars. -/
theorem C67_units {β : Type} [LinearOrder β] [Zero β] (hp : p.Prime) (φ : α ≃o β) (hφ : φ 0 = 0)
    {Pt' : Type} {pdist : List Pt → List (List α)} {pdist' : List Pt' → List (List β)} (hd : IsPdist pdist)
    (hd' : IsPdist pdist') {argsort : List α → List Nat} {argsort' : List β → List Nat}
    (ha : IsArgsort argsort) (ha' : IsArgsort argsort') (rnd : α → α) (rnd' : β → β) (cloud : List Pt)
    (cloud' : List Pt') (hlen : cloud.length = cloud'.length)
    (hdist : ∀ u < cloud.length, ∀ v < u, cloudDist pdist' cloud' u v = φ (cloudDist pdist cloud u v))
    {maxR : α} (hmax : 0 < maxR) (maxDim : Int) {L : LocalOut α} {L' : LocalOut β}
    (hL : localPersistentHomology pdist argsort rnd cloud maxR maxDim p = .ok L)
    (hL' : localPersistentHomology pdist' argsort' rnd' cloud' (φ maxR) maxDim p = .ok L')
    (e : ℕ) (he : (e : Int) < max maxDim 1) :
    ∃ B B', L.ph.hom[e]? = some B ∧ L'.ph.hom[e]? = some B' ∧
      B'.barcode.Perm (B.barcode.map fun b => (φ b.1, φ b.2)) := by
  have hmax' : 0 < φ maxR := by rw [← hφ]; exact φ.strictMono hmax
  obtain ⟨B, hB, h1, h2⟩ := local_ranks hp hd ha hmax hL he
  obtain ⟨B', hB', h1', h2'⟩ := local_ranks hp hd' ha' hmax' hL' he
  refine ⟨B, B', hB, hB', perm_of_ranks (maxR := φ maxR) (fun b hb => ⟨(h1' b hb).1, (h1' b hb).2.1,
    (h1' b hb).2.2.1⟩) ?_ ?_⟩
  · intro b hb
    obtain ⟨c, hc, rfl⟩ := List.mem_map.1 hb
    refine ⟨?_, φ.strictMono (h1 c hc).2.1, φ.monotone (h1 c hc).2.2.1⟩
    rw [← hφ]; exact φ.monotone (h1 c hc).1
  · intro s t hst hs ht
    obtain ⟨s, rfl⟩ := φ.surjective s
    obtain ⟨t, rfl⟩ := φ.surjective t
    have hst' : s ≤ t := φ.le_iff_le.1 hst
    have hs' : 0 ≤ s := by rw [← φ.le_iff_le, hφ]; exact hs
    have ht' : t < maxR := φ.lt_iff_lt.1 ht
    have e1 : barsThrough (B.barcode.map fun b => (φ b.1, φ b.2)) (φ s) (φ t) =
        barsThrough B.barcode s t := by
      unfold barsThrough
      rw [List.countP_map]
      refine List.countP_congr fun b _ => ?_
      simp [Function.comp_apply]
    rw [e1, h2' _ _ hst hs ht, h2 s t hst' hs' ht', finrank_vrMap hp, finrank_vrMap hp]
    have hch : ∀ e t, vrChains (ZMod p) (cloudDist pdist' cloud') cloud'.length e (φ t) =
        vrChains (ZMod p) (cloudDist pdist cloud) cloud.length e t := by
      intro e t
      unfold vrChains
      congr 1
      ext x
      change VRSimplex _ _ _ _ x ↔ VRSimplex _ _ _ _ x
      unfold VRSimplex
      rw [hlen]
      refine and_congr_right fun _ => and_congr_right fun hx => ?_
      constructor
      · intro h
        have hinc : x.Pairwise (· < ·) := h.imp fun h => h.1
        refine (pairwise_iff_forall_lt hinc).2 fun u hu v hv huv => ⟨huv, ?_⟩
        have := ((pairwise_iff_forall_lt hinc).1 h u hu v hv huv).2
        rwa [hdist v (by rw [hlen]; exact hx v hv) u huv, φ.le_iff_le] at this
      · intro h
        have hinc : x.Pairwise (· < ·) := h.imp fun h => h.1
        refine (pairwise_iff_forall_lt hinc).2 fun u hu v hv huv => ⟨huv, ?_⟩
        rw [hdist v (by rw [hlen]; exact hx v hv) u huv, φ.le_iff_le]
        exact ((pairwise_iff_forall_lt hinc).1 h u hu v hv huv).2
    unfold vrCycles vrBoundaries
    rw [hch, hch]

end

/-! ## Noise -/

section

variable {α : Type} [AddCommGroup α] [LinearOrder α] [IsOrderedAddMonoid α] {p : ℕ} {Pt Pt' : Type}

/-- **C65.** Noise in the distances: if the distances of two clouds of the same size differ by at most `ε`,
then the number of bars of one of them that contain `[s, t + 2ε]` is at most the number of bars of the other
one that contain `[s + ε, t + ε]`.  In particular a bar longer than `2ε` does not disappear. -/
theorem C65_noise (hp : p.Prime) {pdist : List Pt → List (List α)} {pdist' : List Pt' → List (List α)}
    (hd : IsPdist pdist) (hd' : IsPdist pdist') {argsort argsort' : List α → List Nat}
    (ha : IsArgsort argsort) (ha' : IsArgsort argsort') (rnd rnd' : α → α) (cloud : List Pt)
    (cloud' : List Pt') (hlen : cloud.length = cloud'.length) {ε : α}
    (hε : ∀ u < cloud.length, ∀ v < u, |cloudDist pdist cloud u v - cloudDist pdist' cloud' u v| ≤ ε)
    (hε0 : 0 ≤ ε) {maxR : α} (hmax : 0 < maxR) (maxDim : Int) {L L' : LocalOut α}
    (hL : localPersistentHomology pdist argsort rnd cloud maxR maxDim p = .ok L)
    (hL' : localPersistentHomology pdist' argsort' rnd' cloud' maxR maxDim p = .ok L')
    (e : ℕ) (he : (e : Int) < max maxDim 1) :
    ∃ B B', L.ph.hom[e]? = some B ∧ L'.ph.hom[e]? = some B' ∧
      ∀ s t, 0 ≤ s → s ≤ t → t + (ε + ε) < maxR →
        barsThrough B.barcode s (t + (ε + ε)) ≤ barsThrough B'.barcode (s + ε) (t + ε) := by
  obtain ⟨B, hB, h1, h2⟩ := local_ranks hp hd ha hmax hL he
  obtain ⟨B', hB', h1', h2'⟩ := local_ranks hp hd' ha' hmax hL' he
  refine ⟨B, B', hB, hB', fun s t hs hst ht => ?_⟩
  have hte : t + ε ≤ t + (ε + ε) := by
    rw [← add_assoc]; exact le_add_of_nonneg_right hε0
  rw [h2 s _ (hst.trans (le_add_of_nonneg_right (add_nonneg hε0 hε0))) hs ht,
    h2' _ _ (add_le_add_left hst ε) (add_nonneg hs hε0) (hte.trans_lt ht), finrank_vrMap hp, finrank_vrMap hp]
  have := Fact.mk hp
  have hch : ∀ e t, vrChains (ZMod p) (cloudDist pdist cloud) cloud.length e t ≤
      vrChains (ZMod p) (cloudDist pdist' cloud') cloud'.length e (t + ε) := by
    intro e t
    refine Finsupp.supported_mono ?_
    rintro x ⟨g1, g2, g3⟩
    refine ⟨g1, hlen ▸ g2, ?_⟩
    have hinc : x.Pairwise (· < ·) := g3.imp fun h => h.1
    refine (pairwise_iff_forall_lt hinc).2 fun u hu v hv huv => ⟨huv, ?_⟩
    have a1 := ((pairwise_iff_forall_lt hinc).1 g3 u hu v hv huv).2
    have a2 := (abs_le.1 (hε v (g2 v hv) u huv)).1
    have a3 : cloudDist pdist' cloud' v u ≤ cloudDist pdist cloud v u + ε := by
      rw [neg_le_sub_iff_le_add] at a2; exact a2
    exact a3.trans (add_le_add_left a1 ε)
  have hch' : ∀ e t, vrChains (ZMod p) (cloudDist pdist' cloud') cloud'.length e t ≤
      vrChains (ZMod p) (cloudDist pdist cloud) cloud.length e (t + ε) := by
    intro e t
    refine Finsupp.supported_mono ?_
    rintro x ⟨g1, g2, g3⟩
    refine ⟨g1, hlen ▸ g2, ?_⟩
    have hinc : x.Pairwise (· < ·) := g3.imp fun h => h.1
    refine (pairwise_iff_forall_lt hinc).2 fun u hu v hv huv => ⟨huv, ?_⟩
    have a1 := ((pairwise_iff_forall_lt hinc).1 g3 u hu v hv huv).2
    have a2 := (abs_le.1 (hε v (hlen ▸ g2 v hv) u huv)).2
    rw [sub_le_iff_le_add'] at a2
    exact a2.trans (add_le_add_left a1 ε)
  have := vrCycles_finite (ZMod p) (cloudDist pdist' cloud') cloud'.length e (s + ε)
  refine finrank_mkQ_le (inf_le_inf_right _ (hch e s)) (Submodule.map_mono ?_)
  have := hch' (e + 1) (t + ε)
  rwa [add_assoc] at this

end

/-! ## Components -/

section

variable {α : Type} [LinearOrder α] [Zero α] {p : ℕ} {Pt : Type}

/-- The graph on the points of a cloud where different points at distance at most `t` are joined. -/
def nearGraph (d : Pt → Pt → α) (hsym : ∀ a b, d a b = d b a) (cloud : List Pt) (t : α) :
    SimpleGraph (Fin cloud.length) where
  Adj u v := u ≠ v ∧ d cloud[u] cloud[v] ≤ t
  symm := ⟨fun u v h => ⟨h.1.symm, by rw [hsym]; exact h.2⟩⟩
  loopless := ⟨fun u h => h.1 rfl⟩

/-- **C66.** The bars of degree zero are born at `0`, and those which contain `t < max_r` are as many as the
components of the graph of the pairs of points at distance at most `t`. -/
theorem C66_components_count (hp : p.Prime) {pdist : List Pt → List (List α)} {d : Pt → Pt → α}
    (hd : IsDistTable pdist d) (hsym : ∀ a b, d a b = d b a) {argsort : List α → List Nat}
    (ha : IsArgsort argsort) (rnd : α → α) (cloud : List Pt) {maxR : α} (hmax : 0 < maxR) (maxDim : Int)
    {L : LocalOut α} (hL : localPersistentHomology pdist argsort rnd cloud maxR maxDim p = .ok L) :
    ∃ B, L.ph.hom[0]? = some B ∧ (∀ b ∈ B.barcode, b.1 = 0) ∧
      ∀ t, 0 ≤ t → t < maxR → (B.barcode.filter fun b => decide (t < b.2)).length =
        Nat.card (nearGraph d hsym cloud t).ConnectedComponent := by
  obtain ⟨B, hB, h1, h2⟩ := local_ranks hp hd.isPdist ha hmax hL (e := 0) (by
    have := le_max_right maxDim 1; push_cast; omega)
  refine ⟨B, hB, fun b hb => (h1 b hb).2.2.2 rfl, fun t ht htR => ?_⟩
  have e1 : (B.barcode.filter fun b => decide (t < b.2)).length = barsThrough B.barcode t t := by
    unfold barsThrough
    rw [List.countP_eq_length_filter]
    congr 1
    apply List.filter_congr
    intro b hb
    rw [(h1 b hb).2.2.2 rfl, decide_eq_true ht, Bool.true_and]
  rw [e1, h2 t t le_rfl ht htR]
  refine rank_components hp fun u v huv => ?_
  rw [cloudDist_getElem hd v.2 u.2, hsym]
  exact ⟨fun h => h.2, fun h => ⟨fun hc => by rw [hc] at huv; exact lt_irrefl _ huv, h⟩⟩

/-- **C66.** The bars of degree zero do not depend on the prime. -/
theorem C66_components_prime {p' : ℕ} (hp : p.Prime) (hp' : p'.Prime) {pdist : List Pt → List (List α)}
    {d : Pt → Pt → α} (hd : IsDistTable pdist d) (hsym : ∀ a b, d a b = d b a)
    {argsort : List α → List Nat} (ha : IsArgsort argsort) (rnd : α → α) (cloud : List Pt) {maxR : α}
    (hmax : 0 < maxR) (maxDim : Int) {L L' : LocalOut α}
    (hL : localPersistentHomology pdist argsort rnd cloud maxR maxDim p = .ok L)
    (hL' : localPersistentHomology pdist argsort rnd cloud maxR maxDim p' = .ok L') :
    ∃ B B', L.ph.hom[0]? = some B ∧ L'.ph.hom[0]? = some B' ∧ B.barcode.Perm B'.barcode := by
  have h0 : ((0 : ℕ) : Int) < max maxDim 1 := by have := le_max_right maxDim 1; push_cast; omega
  obtain ⟨B, hB, h1, -⟩ := local_ranks hp hd.isPdist ha hmax hL h0
  obtain ⟨B', hB', h1', -⟩ := local_ranks hp' hd.isPdist ha hmax hL' h0
  obtain ⟨C, hC, -, h3⟩ := C66_components_count hp hd hsym ha rnd cloud hmax maxDim hL
  obtain ⟨C', hC', -, h3'⟩ := C66_components_count hp' hd hsym ha rnd cloud hmax maxDim hL'
  rw [hB] at hC; rw [hB'] at hC'
  obtain rfl := Option.some.inj hC
  obtain rfl := Option.some.inj hC'
  refine ⟨B, B', hB, hB', perm_of_ranks (maxR := maxR) (fun b hb => ⟨(h1 b hb).1, (h1 b hb).2.1,
    (h1 b hb).2.2.1⟩) (fun b hb => ⟨(h1' b hb).1, (h1' b hb).2.1, (h1' b hb).2.2.1⟩) ?_⟩
  intro s t hst hs ht
  have e1 : ∀ C : List (α × α), (∀ b ∈ C, b.1 = 0) →
      barsThrough C s t = (C.filter fun b => decide (t < b.2)).length := by
    intro C hC
    unfold barsThrough
    rw [List.countP_eq_length_filter]
    congr 1
    apply List.filter_congr
    intro b hb
    rw [hC b hb, decide_eq_true hs, Bool.true_and]
  rw [e1 _ fun b hb => (h1 b hb).2.2.2 rfl, e1 _ fun b hb => (h1' b hb).2.2.2 rfl,
    h3 t (hs.trans hst) ht, h3' t (hs.trans hst) ht]

end

/-! ## Concrete cases -/

/-- The corners of a rectangle of sides `3` and `4`, with the sum of the differences of coordinates. -/
def fourD (a b : Int × Int) : Int := |a.1 - b.1| + |a.2 - b.2|

def fourDist (c : List (Int × Int)) : List (List Int) := c.map fun a => c.map (fourD a)

theorem four_table : IsDistTable fourDist fourD :=
  ⟨fun _ => rfl, fun a b => by unfold fourD; positivity⟩

theorem four_symm (a b : Int × Int) : fourD a b = fourD b a := by
  unfold fourD; rw [abs_sub_comm a.1, abs_sub_comm a.2]

def fourBars (c : List (Int × Int)) (maxR : Int) (maxDim : Int) (p : ℕ) :
    Except PyErr (List (List (Int × Int))) :=
  (localPersistentHomology fourDist stableArgsort id c maxR maxDim p).map
    fun L => L.ph.hom.map fun B => B.barcode

/-- C63, C64, C66: the runs in the hypotheses return, with a bar of degree one. -/
example : fourBars [(0, 0), (0, 3), (4, 0), (4, 3)] 6 2 5 =
      .ok [[(0, 6), (0, 4), (0, 3), (0, 3)], [(4, 6)], []] ∧
    fourBars [(4, 3), (0, 0), (4, 0), (0, 3)] 6 2 5 =
      .ok [[(0, 6), (0, 4), (0, 3), (0, 3)], [(4, 6)], []] ∧
    fourBars [(0, 0), (0, 3), (4, 0), (4, 3)] 9 3 5 =
      .ok [[(0, 9), (0, 4), (0, 3), (0, 3)], [(4, 7)], [], []] ∧
    cutBars 6 [((4 : Int), (7 : Int))] = [(4, 6)] ∧
    fourBars [(0, 0), (0, 3), (4, 0), (4, 3)] 6 2 2 =
      .ok [[(0, 6), (0, 4), (0, 3), (0, 3)], [(4, 6)], []] ∧
    [((0 : Int), (0 : Int)), (0, 3), (4, 0), (4, 3)].Perm [(4, 3), (0, 0), (4, 0), (0, 3)] := by
  refine ⟨by decide +kernel, by decide +kernel, by decide +kernel, by decide +kernel, by decide +kernel,
    by decide +kernel⟩

/-- C65: the second rectangle has sides `4` and `4`, the distances differ by at most `1`, and the bar `(4, 7)`
of the first one becomes `(4, 8)`. -/
example : (∀ u < 4, ∀ v < u,
      |cloudDist fourDist [(0, 0), (0, 3), (4, 0), (4, 3)] u v -
        cloudDist fourDist [(0, 0), (0, 4), (4, 0), (4, 4)] u v| ≤ 1) ∧
    fourBars [(0, 0), (0, 4), (4, 0), (4, 4)] 9 3 5 =
      .ok [[(0, 9), (0, 4), (0, 4), (0, 4)], [(4, 8)], [], []] ∧
    barsThrough [((4 : Int), (7 : Int))] 4 (4 + (1 + 1)) = 1 ∧
    barsThrough [((4 : Int), (8 : Int))] (4 + 1) (4 + 1) = 1 := by
  refine ⟨by decide +kernel, by decide +kernel, by decide +kernel, by decide +kernel⟩

def unitLine (c : ℚ) (l : List ℚ) : List (List ℚ) := l.map fun x => l.map fun y => c * |x - y|

def unitBars (c maxR : ℚ) : Except PyErr (List (List (ℚ × ℚ))) :=
  (localPersistentHomology (unitLine c) stableArgsort id [0, 1, 3] maxR 2 5).map
    fun L => L.ph.hom.map fun B => B.barcode

/-- C67: distances multiplied by two, with the order isomorphism `x ↦ 2 x` of the rationals. -/
example : (∃ φ : ℚ ≃o ℚ, φ 0 = 0 ∧ (∀ x, φ x = 2 * x) ∧ ∀ u < 3, ∀ v < u,
      cloudDist (unitLine 2) [0, 1, 3] u v = φ (cloudDist (unitLine 1) [0, 1, 3] u v)) ∧
    unitBars 1 5 = .ok [[(0, 5), (0, 2), (0, 1)], [], []] ∧
    unitBars 2 10 = .ok [[(0, 10), (0, 4), (0, 2)], [], []] := by
  refine ⟨⟨OrderIso.mulLeft₀ 2 (by norm_num), by simp, fun x => rfl, ?_⟩, by decide +kernel, by decide +kernel⟩
  change ∀ u < 3, ∀ v < u, cloudDist (unitLine 2) [0, 1, 3] u v = 2 * cloudDist (unitLine 1) [0, 1, 3] u v
  decide +kernel

end Permaviss
