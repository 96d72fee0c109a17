import Verif.Lemmas.Clusters
import Verif.Props.Invariance

/-!
# Clouds made of separate clusters (C85)
-/

namespace Permaviss

section

variable {α : Type} [LinearOrder α] [Zero α] {p : ℕ} {Pt : Type}

theorem cloudDist_append_left {pdist : List Pt → List (List α)} {d : Pt → Pt → α} (hd : IsDistTable pdist d)
    (A B : List Pt) {u v : ℕ} (hu : u < A.length) (hv : v < A.length) :
    cloudDist pdist A u v = cloudDist pdist (A ++ B) u v := by
  rw [cloudDist_getElem hd hu hv, cloudDist_getElem hd (by rw [List.length_append]; omega)
    (by rw [List.length_append]; omega), List.getElem_append_left hu, List.getElem_append_left hv]

theorem cloudDist_append_right {pdist : List Pt → List (List α)} {d : Pt → Pt → α} (hd : IsDistTable pdist d)
    (A B : List Pt) {u v : ℕ} (hu : u < B.length) (hv : v < B.length) :
    cloudDist pdist B u v = cloudDist pdist (A ++ B) (A.length + u) (A.length + v) := by
  rw [cloudDist_getElem hd hu hv, cloudDist_getElem hd (by rw [List.length_append]; omega)
    (by rw [List.length_append]; omega)]
  simp

theorem rank_clusters (hp : p.Prime) {pdist : List Pt → List (List α)} {d : Pt → Pt → α}
    (hd : IsDistTable pdist d) (A B : List Pt) (e : ℕ) {s t : α} (hst : s ≤ t)
    (hfar : ∀ a ∈ A, ∀ b ∈ B, t < d b a) :
    Module.finrank (ZMod p) (LinearMap.range (vrMap (ZMod p) (cloudDist pdist (A ++ B)) (A ++ B).length e hst)) =
      Module.finrank (ZMod p) (LinearMap.range (vrMap (ZMod p) (cloudDist pdist A) A.length e hst)) +
      Module.finrank (ZMod p) (LinearMap.range (vrMap (ZMod p) (cloudDist pdist B) B.length e hst)) := by
  rw [List.length_append]
  refine rank_parts hp ?_ ?_ e hst ?_
  · exact fun u hu v hv => cloudDist_append_left hd A B hu (hv.trans hu)
  · exact fun u hu v hv => cloudDist_append_right hd A B hu (hv.trans hu)
  · intro u hu v hv
    rw [cloudDist_getElem hd (by rw [List.length_append]; omega) (by rw [List.length_append]; omega),
      List.getElem_append_left hu]
    have : (A ++ B)[A.length + v]'(by rw [List.length_append]; omega) = B[v] := by simp
    rw [this]
    exact hfar _ (List.getElem_mem hu) _ (List.getElem_mem hv)

theorem rank_no_points (hp : p.Prime) (dist : ℕ → ℕ → α) (e : ℕ) {s t : α} (hst : s ≤ t) :
    Module.finrank (ZMod p) (LinearMap.range (vrMap (ZMod p) dist 0 e hst)) = 0 := by
  have := Fact.mk hp
  have h0 : vrCycles (ZMod p) dist 0 e s = ⊥ := by
    refine le_bot_iff.1 (inf_le_left.trans ?_)
    unfold vrChains
    have : {x | VRSimplex dist 0 e s x} = ∅ := by
      refine Set.eq_empty_of_forall_notMem ?_
      rintro x ⟨h1, h2, -⟩
      obtain ⟨v, hv⟩ := List.exists_mem_of_length_pos (l := x) (by omega)
      exact absurd (h2 v hv) (Nat.not_lt_zero _)
    rw [this, Finsupp.supported_empty]
  rw [finrank_vrMap hp, h0, Submodule.map_bot, finrank_bot]

/-- **C85**, two clusters: if all the distances between the points of `A` and those of `B` are at least `max_r`, the
bars of the cloud with the points of `A` and of `B`, in any order, are those of `A` together with those of `B`. -/
theorem C85_two_clusters (hp : p.Prime) {pdist : List Pt → List (List α)} {d : Pt → Pt → α}
    (hd : IsDistTable pdist d) (hsym : ∀ a b, d a b = d b a) {argsort argsort' argsort'' : List α → List Nat}
    (ha : IsArgsort argsort) (ha' : IsArgsort argsort') (ha'' : IsArgsort argsort'') (rnd rnd' rnd'' : α → α)
    {cloud A B : List Pt} (hperm : cloud.Perm (A ++ B)) {maxR : α} (hmax : 0 < maxR)
    (hfar : ∀ a ∈ A, ∀ b ∈ B, maxR ≤ d a b) (maxDim : Int) {L LA LB : LocalOut α}
    (hL : localPersistentHomology pdist argsort rnd cloud maxR maxDim p = .ok L)
    (hLA : localPersistentHomology pdist argsort' rnd' A maxR maxDim p = .ok LA)
    (hLB : localPersistentHomology pdist argsort'' rnd'' B maxR maxDim p = .ok LB)
    (e : ℕ) (he : (e : Int) < max maxDim 1) :
    ∃ X XA XB, L.ph.hom[e]? = some X ∧ LA.ph.hom[e]? = some XA ∧ LB.ph.hom[e]? = some XB ∧
      X.barcode.Perm (XA.barcode ++ XB.barcode) := by
  obtain ⟨X, hX, h1, h2⟩ := local_ranks hp hd.isPdist ha hmax hL he
  obtain ⟨XA, hXA, a1, a2⟩ := local_ranks hp hd.isPdist ha' hmax hLA he
  obtain ⟨XB, hXB, b1, b2⟩ := local_ranks hp hd.isPdist ha'' hmax hLB he
  refine ⟨X, XA, XB, hX, hXA, hXB, perm_of_ranks (maxR := maxR) (fun b hb => ⟨(h1 b hb).1, (h1 b hb).2.1,
    (h1 b hb).2.2.1⟩) ?_ ?_⟩
  · intro b hb
    rcases List.mem_append.1 hb with hb | hb
    · exact ⟨(a1 b hb).1, (a1 b hb).2.1, (a1 b hb).2.2.1⟩
    · exact ⟨(b1 b hb).1, (b1 b hb).2.1, (b1 b hb).2.2.1⟩
  · intro s t hst hs ht
    have hsum : barsThrough (XA.barcode ++ XB.barcode) s t =
        barsThrough XA.barcode s t + barsThrough XB.barcode s t := by
      unfold barsThrough; rw [List.countP_append]
    rw [hsum, h2 s t hst hs ht, a2 s t hst hs ht, b2 s t hst hs ht, ← rank_clusters hp hd A B e hst]
    · exact rank_perm hp hd hsym hperm e hst []
    · intro a haA b hbB
      rw [hsym b a]
      exact ht.trans_le (hfar a haA b hbB)

/-- **C85**, any number of clusters: if points of different clusters are at distance at least `max_r`, the bars of the
whole cloud, in any order, are those of all the clusters together. -/
theorem C85_clusters (hp : p.Prime) {pdist : List Pt → List (List α)} {d : Pt → Pt → α}
    (hd : IsDistTable pdist d) (hsym : ∀ a b, d a b = d b a) {argsort : List α → List Nat}
    (ha : IsArgsort argsort) (rnd : α → α) {cloud : List Pt} {clusters : List (List Pt)}
    (hperm : cloud.Perm clusters.flatten) {maxR : α} (hmax : 0 < maxR)
    (hfar : clusters.Pairwise fun A B => ∀ a ∈ A, ∀ b ∈ B, maxR ≤ d a b) (maxDim : Int) {L : LocalOut α}
    (hL : localPersistentHomology pdist argsort rnd cloud maxR maxDim p = .ok L)
    (e : ℕ) (he : (e : Int) < max maxDim 1) {bars : List (List (α × α))}
    (hbars : List.Forall₂ (fun A b => ∃ LA XA, localPersistentHomology pdist argsort rnd A maxR maxDim p = .ok LA ∧
      LA.ph.hom[e]? = some XA ∧ XA.barcode = b) clusters bars) :
    ∃ X, L.ph.hom[e]? = some X ∧ X.barcode.Perm bars.flatten := by
  obtain ⟨X, hX, h1, h2⟩ := local_ranks hp hd.isPdist ha hmax hL he
  have key : ∀ (clusters : List (List Pt)) (bars : List (List (α × α))),
      clusters.Pairwise (fun A B => ∀ a ∈ A, ∀ b ∈ B, maxR ≤ d a b) →
      List.Forall₂ (fun A b => ∃ LA XA, localPersistentHomology pdist argsort rnd A maxR maxDim p = .ok LA ∧
        LA.ph.hom[e]? = some XA ∧ XA.barcode = b) clusters bars →
      (∀ b ∈ bars.flatten, 0 ≤ b.1 ∧ b.1 < b.2 ∧ b.2 ≤ maxR) ∧
      ∀ s t (hst : s ≤ t), 0 ≤ s → t < maxR → barsThrough bars.flatten s t =
        Module.finrank (ZMod p) (LinearMap.range
          (vrMap (ZMod p) (cloudDist pdist clusters.flatten) clusters.flatten.length e hst)) := by
    intro clusters
    induction clusters with
    | nil =>
      intro bars _ hb
      cases hb
      refine ⟨by simp, fun s t hst _ _ => ?_⟩
      exact (rank_no_points hp _ e hst).symm
    | cons A cs ih =>
      intro bars hf hb
      obtain ⟨hf1, hf2⟩ := List.pairwise_cons.1 hf
      cases hb with
      | @cons _ b0 _ bs hb0 hbs =>
        obtain ⟨LA, XA, c1, c2, rfl⟩ := hb0
        obtain ⟨XA', d1, d2, d3⟩ := local_ranks hp hd.isPdist ha hmax c1 he
        rw [c2] at d1
        obtain rfl := Option.some.inj d1
        obtain ⟨i1, i2⟩ := ih bs hf2 hbs
        refine ⟨?_, fun s t hst hs ht => ?_⟩
        · intro b hb
          rw [List.flatten_cons, List.mem_append] at hb
          rcases hb with hb | hb
          · exact ⟨(d2 b hb).1, (d2 b hb).2.1, (d2 b hb).2.2.1⟩
          · exact i1 b hb
        · rw [List.flatten_cons, List.flatten_cons, rank_clusters hp hd A cs.flatten e hst, ← d3 s t hst hs ht,
            ← i2 s t hst hs ht]
          · unfold barsThrough; rw [List.countP_append]
          · intro a haA b hbB
            obtain ⟨B, hB, hbB⟩ := List.mem_flatten.1 hbB
            rw [hsym b a]
            exact ht.trans_le (hf1 B hB a haA b hbB)
  obtain ⟨k1, k2⟩ := key clusters bars hfar hbars
  refine ⟨X, hX, perm_of_ranks (maxR := maxR) (fun b hb => ⟨(h1 b hb).1, (h1 b hb).2.1, (h1 b hb).2.2.1⟩) k1 ?_⟩
  intro s t hst hs ht
  rw [h2 s t hst hs ht, k2 s t hst hs ht]
  exact rank_perm hp hd hsym hperm e hst []

end

/-- Two squares of side one with distance ten, whose points are listed alternately: each has a bar in degree one. -/
example : ([(0, 0), (10, 0), (1, 0), (11, 0), (0, 1), (10, 1), (1, 1), (11, 1)] : List (Int × Int)).Perm
      (([[(0, 0), (1, 0), (0, 1), (1, 1)], [(10, 0), (11, 0), (10, 1), (11, 1)]] : List (List (Int × Int))).flatten) ∧
    (([[(0, 0), (1, 0), (0, 1), (1, 1)], [(10, 0), (11, 0), (10, 1), (11, 1)]] : List (List (Int × Int))).Pairwise
      fun A B => ∀ a ∈ A, ∀ b ∈ B, 3 ≤ fourD a b) ∧
    (fourBars [(0, 0), (1, 0), (0, 1), (1, 1)] 3 2 5).map (fun l => l[1]?) = .ok (some [(1, 2)]) ∧
    (fourBars [(0, 0), (10, 0), (1, 0), (11, 0), (0, 1), (10, 1), (1, 1), (11, 1)] 3 2 5).map (fun l => l[1]?) =
      .ok (some [(1, 2), (1, 2)]) := by
  decide +kernel

end Permaviss
