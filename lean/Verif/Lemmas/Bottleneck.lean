import Verif.Spec.Bottleneck
import Verif.Lemmas.LocalRanks
import Verif.Props.Complexes
import Verif.Props.Invariance
import Mathlib.Algebra.Order.Field.Basic
import Mathlib.Data.Finset.Lattice.Fold
import Mathlib.Data.Finset.Option
import Mathlib.Tactic.Linarith
import Mathlib.Tactic.FieldSimp
import Mathlib.Tactic.Ring

/-!
# Stability of the barcodes in the bottleneck distance

The distances are deformed linearly into each other.  As long as no two of them change their order, the complexes
are the same up to a reparametrisation, and the bars move with the distances.
-/

namespace Permaviss

attribute [-instance] instMulZeroClassOfSemiring

/-! ## Matchings -/

section

variable {K : Type} [AddCommGroup K] [LinearOrder K] [IsOrderedAddMonoid K]

/-- The bars of positive length. -/
def proper (l : List (K × K)) : List (K × K) := l.filter fun b => decide (b.1 < b.2)

/-- A matching in which the left over bars are matched with bars of length zero. -/
def Matched (ε : K) (A B : List (K × K)) : Prop :=
  ∃ M : List ((K × K) × (K × K)), A.Perm (proper (M.map Prod.fst)) ∧ B.Perm (proper (M.map Prod.snd)) ∧
    ∀ m ∈ M, |m.1.1 - m.2.1| ≤ ε ∧ |m.1.2 - m.2.2| ≤ ε

theorem proper_map {β : Type} (f : β → K × K) (M : List β) :
    proper (M.map f) = (M.filter fun m => decide ((f m).1 < (f m).2)).map f := by
  unfold proper
  rw [List.filter_map]
  rfl

theorem proper_append (l l' : List (K × K)) : proper (l ++ l') = proper l ++ proper l' := List.filter_append ..

theorem proper_perm {l l' : List (K × K)} (h : l.Perm l') : (proper l).Perm (proper l') := h.filter _

theorem Matched.within {ε : K} {A B : List (K × K)} (h : Matched ε A B) : BarsWithin ε A B := by
  obtain ⟨M, hA, hB, hM⟩ := h
  set q1 : (K × K) × (K × K) → Bool := fun m => decide (m.1.1 < m.1.2) with hq1
  set q2 : (K × K) × (K × K) → Bool := fun m => decide (m.2.1 < m.2.2) with hq2
  rw [proper_map] at hA hB
  refine ⟨(M.filter q1).filter q2, ((M.filter q1).filter fun m => !q2 m).map Prod.fst,
    ((M.filter q2).filter fun m => !q1 m).map Prod.snd, ?_, ?_, ?_, ?_⟩
  · rw [← List.map_append]
    exact hA.trans ((List.filter_append_perm q2 _).symm.map _)
  · rw [← List.map_append, List.filter_comm]
    exact hB.trans ((List.filter_append_perm q1 _).symm.map _)
  · intro m hm
    exact hM m (List.mem_of_mem_filter (List.mem_of_mem_filter hm))
  · intro b hb
    rcases List.mem_append.1 hb with hb | hb
    · obtain ⟨m, hm, rfl⟩ := List.mem_map.1 hb
      obtain ⟨h1, h2⟩ := List.mem_filter.1 hm
      obtain ⟨g1, g2⟩ := hM m (List.mem_of_mem_filter h1)
      have h3 : m.2.2 ≤ m.2.1 := by simpa [hq2] using h2
      rw [abs_le] at g1 g2
      have e1 : m.1.2 ≤ m.2.2 + ε := sub_le_iff_le_add'.1 g2.2
      have e2 : m.2.1 - ε ≤ m.1.1 := by
        have := g1.1
        rw [neg_le_sub_iff_le_add] at this
        exact sub_le_iff_le_add.2 this
      calc m.1.2 - m.1.1 ≤ (m.2.2 + ε) - (m.2.1 - ε) := sub_le_sub e1 e2
        _ ≤ (m.2.1 + ε) - (m.2.1 - ε) := sub_le_sub_right (add_le_add_left h3 ε) _
        _ = ε + ε := by abel
    · obtain ⟨m, hm, rfl⟩ := List.mem_map.1 hb
      obtain ⟨h1, h2⟩ := List.mem_filter.1 hm
      obtain ⟨g1, g2⟩ := hM m (List.mem_of_mem_filter h1)
      have h3 : m.1.2 ≤ m.1.1 := by simpa [hq1] using h2
      rw [abs_le] at g1 g2
      have e1 : m.2.2 ≤ m.1.2 + ε := by
        have := g2.1
        rw [neg_le_sub_iff_le_add] at this
        exact this
      have e2 : m.1.1 - ε ≤ m.2.1 := sub_le_comm.1 g1.2
      calc m.2.2 - m.2.1 ≤ (m.1.2 + ε) - (m.1.1 - ε) := sub_le_sub e1 e2
        _ ≤ (m.1.1 + ε) - (m.1.1 - ε) := sub_le_sub_right (add_le_add_left h3 ε) _
        _ = ε + ε := by abel

/-- A permutation of the first components comes from a permutation of the pairs. -/
theorem exists_perm_map {β γ : Type} (f : β → γ) {l : List γ} {N : List β} (h : l.Perm (N.map f)) :
    ∃ N' : List β, N'.Perm N ∧ N'.map f = l := by
  generalize hk : N.map f = k at h
  induction h generalizing N with
  | nil => exact ⟨[], by simp [List.map_eq_nil_iff.1 hk], rfl⟩
  | cons x _ ih =>
    obtain ⟨a, N, rfl, rfl, h2⟩ := List.map_eq_cons_iff.1 hk
    obtain ⟨N', p1, p2⟩ := ih h2
    exact ⟨a :: N', p1.cons a, by simp [p2]⟩
  | swap x y l =>
    obtain ⟨a, N, rfl, rfl, h2⟩ := List.map_eq_cons_iff.1 hk
    obtain ⟨b, N, rfl, rfl, h3⟩ := List.map_eq_cons_iff.1 h2
    exact ⟨b :: a :: N, List.Perm.swap _ _ _, by simp [h3]⟩
  | trans _ _ ih1 ih2 =>
    obtain ⟨N', p1, p2⟩ := ih2 hk
    obtain ⟨N'', q1, q2⟩ := ih1 p2
    exact ⟨N'', q1.trans p1, q2⟩

theorem Matched.trans {ε δ : K} (hε : 0 ≤ ε) (hδ : 0 ≤ δ) {A B C : List (K × K)} (h : Matched ε A B)
    (h' : Matched δ B C) : Matched (ε + δ) A C := by
  obtain ⟨M, hA, hB, hM⟩ := h
  obtain ⟨N, hB', hC, hN⟩ := h'
  set q1 : (K × K) × (K × K) → Bool := fun m => decide (m.1.1 < m.1.2) with hq1
  set q2 : (K × K) × (K × K) → Bool := fun m => decide (m.2.1 < m.2.2) with hq2
  -- the bars of `B` on both sides
  have hperm : ((M.filter q2).map Prod.snd).Perm ((N.filter q1).map Prod.fst) := by
    rw [proper_map] at hB hB'
    exact hB.symm.trans hB'
  obtain ⟨N', hN', hN2⟩ := exists_perm_map Prod.fst hperm
  have hlen : (M.filter q2).length = N'.length := by
    have := congrArg List.length hN2
    simpa using this.symm
  set Z := (M.filter q2).zip N' with hZ
  have z1 : Z.map (fun z => z.1.1) = (M.filter q2).map Prod.fst := by
    rw [← List.map_fst_zip (l₁ := M.filter q2) (l₂ := N') (by omega), List.map_map]
    rfl
  have z2 : Z.map (fun z => z.2.2) = N'.map Prod.snd := by
    conv_rhs => rw [← List.map_snd_zip (l₁ := M.filter q2) (l₂ := N') (by omega), List.map_map]
    rfl
  have z3 : ∀ z ∈ Z, z.1.2 = z.2.1 := by
    intro z hz
    obtain ⟨i, hi, rfl⟩ := List.getElem_of_mem hz
    rw [List.length_zip] at hi
    have h1 : i < (M.filter q2).length := by omega
    have h2 : i < N'.length := by omega
    rw [List.getElem_zip]
    have := congrArg (fun l => l[i]?) hN2
    simp only [List.getElem?_map, List.getElem?_eq_getElem h1, List.getElem?_eq_getElem h2,
      Option.map_some] at this
    exact (Option.some.inj this).symm
  have hMs := List.filter_append_perm q2 M
  have hNs := List.filter_append_perm q1 N
  have triv : ∀ (l : List ((K × K) × (K × K))) (f : (K × K) × (K × K) → K × K),
      (∀ m ∈ l, ¬ (f m).1 < (f m).2) → proper (l.map f) = [] := by
    intro l f hl
    rw [proper_map, List.map_eq_nil_iff, List.filter_eq_nil_iff]
    intro m hm
    simpa using hl m hm
  refine ⟨(M.filter fun m => !q2 m) ++ Z.map (fun z => (z.1.1, z.2.2)) ++ (N.filter fun m => !q1 m), ?_, ?_, ?_⟩
  · rw [List.map_append, List.map_append, proper_append, proper_append, List.map_map]
    have e1 : (Prod.fst ∘ fun z : ((K × K) × (K × K)) × ((K × K) × (K × K)) => (z.1.1, z.2.2)) =
      fun z => z.1.1 := rfl
    rw [e1, z1, triv (N.filter fun m => !q1 m) Prod.fst (by
      intro m hm
      have := (List.mem_filter.1 hm).2
      simpa [hq1] using this), List.append_nil, ← proper_append, ← List.map_append]
    exact hA.trans (proper_perm ((List.perm_append_comm.trans hMs).symm.map _))
  · rw [List.map_append, List.map_append, proper_append, proper_append, List.map_map]
    have e1 : (Prod.snd ∘ fun z : ((K × K) × (K × K)) × ((K × K) × (K × K)) => (z.1.1, z.2.2)) =
      fun z => z.2.2 := rfl
    rw [e1, z2, triv (M.filter fun m => !q2 m) Prod.snd (by
      intro m hm
      have := (List.mem_filter.1 hm).2
      simpa [hq2] using this), List.nil_append, ← proper_append, ← List.map_append]
    exact hC.trans (proper_perm (((hN'.append_right _).trans hNs).symm.map _))
  · intro m hm
    rcases List.mem_append.1 hm with hm | hm
    · rcases List.mem_append.1 hm with hm | hm
      · obtain ⟨h1, h2⟩ := hM m (List.mem_of_mem_filter hm)
        exact ⟨h1.trans (le_add_of_nonneg_right hδ), h2.trans (le_add_of_nonneg_right hδ)⟩
      · obtain ⟨z, hz, rfl⟩ := List.mem_map.1 hm
        have hz' : z ∈ (M.filter q2).zip N' := hz
        obtain ⟨h1, h2⟩ := hM z.1 (List.mem_of_mem_filter (List.of_mem_zip (a := z.1) (b := z.2) hz').1)
        obtain ⟨h3, h4⟩ := hN z.2 (List.mem_of_mem_filter (hN'.subset (List.of_mem_zip (a := z.1) (b := z.2) hz').2))
        rw [← z3 z hz] at h3 h4
        exact ⟨(abs_sub_le _ _ _).trans (add_le_add h1 h3), (abs_sub_le _ _ _).trans (add_le_add h2 h4)⟩
    · obtain ⟨h1, h2⟩ := hN m (List.mem_of_mem_filter hm)
      exact ⟨h1.trans (le_add_of_nonneg_left hε), h2.trans (le_add_of_nonneg_left hε)⟩

end

/-! ## Barcodes of distances -/

section

variable {K : Type} [LinearOrder K] [Zero K] {p : ℕ}

/-- `A` is the barcode in degree `e` of the distances `dist` between `n` points, up to the radius `maxR`. -/
structure IsBars (p : ℕ) (dist : ℕ → ℕ → K) (n e : ℕ) (maxR : K) (A : List (K × K)) : Prop where
  ends : ∀ b ∈ A, 0 ≤ b.1 ∧ b.1 < b.2 ∧ b.2 ≤ maxR
  ranks : ∀ s t (hst : s ≤ t), 0 ≤ s → t < maxR →
    barsThrough A s t = Module.finrank (ZMod p) (LinearMap.range (vrMap (ZMod p) dist n e hst))

/-- The ranks only depend on the complexes at the two radii. -/
theorem rank_congr (hp : p.Prime) {dist dist' : ℕ → ℕ → K} {n : ℕ} (e : ℕ) {s t s' t' : K} (hst : s ≤ t)
    (hst' : s' ≤ t') (h1 : ∀ u < n, ∀ v < u, dist u v ≤ s ↔ dist' u v ≤ s')
    (h2 : ∀ u < n, ∀ v < u, dist u v ≤ t ↔ dist' u v ≤ t') :
    Module.finrank (ZMod p) (LinearMap.range (vrMap (ZMod p) dist n e hst)) =
      Module.finrank (ZMod p) (LinearMap.range (vrMap (ZMod p) dist' n e hst')) := by
  rw [finrank_vrMap hp, finrank_vrMap hp]
  have hch : ∀ e {s s' : K}, (∀ u < n, ∀ v < u, dist u v ≤ s ↔ dist' u v ≤ s') →
      vrChains (ZMod p) dist n e s = vrChains (ZMod p) dist' n e s' := by
    intro e s s' h
    unfold vrChains
    congr 1
    ext x
    change VRSimplex _ _ _ _ x ↔ VRSimplex _ _ _ _ x
    unfold VRSimplex
    refine and_congr_right fun _ => and_congr_right fun hx => ?_
    constructor
    · intro g
      have hinc : x.Pairwise (· < ·) := g.imp fun h => h.1
      refine (pairwise_iff_forall_lt hinc).2 fun u hu v hv huv => ⟨huv, ?_⟩
      exact (h v (hx v hv) u huv).1 ((pairwise_iff_forall_lt hinc).1 g u hu v hv huv).2
    · intro g
      have hinc : x.Pairwise (· < ·) := g.imp fun h => h.1
      refine (pairwise_iff_forall_lt hinc).2 fun u hu v hv huv => ⟨huv, ?_⟩
      exact (h v (hx v hv) u huv).2 ((pairwise_iff_forall_lt hinc).1 g u hu v hv huv).2
  unfold vrCycles vrBoundaries
  rw [hch _ h1, hch _ h2]

theorem IsBars.congr (hp : p.Prime) {dist dist' : ℕ → ℕ → K} {n e : ℕ} {maxR : K} {A : List (K × K)}
    (h : IsBars p dist n e maxR A) (hd : ∀ u < n, ∀ v < u, dist u v = dist' u v) :
    IsBars p dist' n e maxR A := by
  refine ⟨h.ends, fun s t hst hs ht => ?_⟩
  rw [h.ranks s t hst hs ht]
  exact rank_congr hp e hst hst (fun u hu v hv => by rw [hd u hu v hv]) fun u hu v hv => by rw [hd u hu v hv]

theorem IsBars.perm (hp : p.Prime) {dist dist' : ℕ → ℕ → K} {n e : ℕ} {maxR : K} {A B : List (K × K)}
    (h : IsBars p dist n e maxR A) (h' : IsBars p dist' n e maxR B)
    (hd : ∀ u < n, ∀ v < u, dist u v = dist' u v) : A.Perm B := by
  have h2 := h.congr hp hd
  refine perm_of_ranks (maxR := maxR) h2.ends h'.ends fun s t hst hs ht => ?_
  rw [h2.ranks s t hst hs ht, h'.ranks s t hst hs ht]

/-- The barcode of a local computation. -/
theorem local_isBars {Pt : Type} (hp : p.Prime) {pdist : List Pt → List (List K)} (hd : IsPdist pdist)
    {argsort : List K → List Nat} (ha : IsArgsort argsort) {rnd : K → K} {cloud : List Pt} {maxR : K}
    (hmax : 0 < maxR) {maxDim : Int} {L : LocalOut K}
    (hL : localPersistentHomology pdist argsort rnd cloud maxR maxDim p = .ok L)
    {e : ℕ} (he : (e : Int) < max maxDim 1) :
    ∃ B, L.ph.hom[e]? = some B ∧ IsBars p (cloudDist pdist cloud) cloud.length e maxR B.barcode := by
  obtain ⟨B, hB, h1, h2⟩ := local_ranks hp hd ha hmax hL he
  exact ⟨B, hB, fun b hb => ⟨(h1 b hb).1, (h1 b hb).2.1, (h1 b hb).2.2.1⟩, h2⟩

/-- Every table of distances has a barcode. -/
theorem exists_isBars (hp : p.Prime) (dist : ℕ → ℕ → K) (hpos : ∀ u v, 0 ≤ dist u v) (n e : ℕ) {maxR : K}
    (hmax : 0 < maxR) : ∃ A, IsBars p dist n e maxR A := by
  have hd : IsDistTable (fun c : List ℕ => c.map fun a => c.map (dist a)) dist := ⟨fun c => rfl, hpos⟩
  obtain ⟨L, hL, -⟩ := C27_local_persistent_homology_total hp _ hd.isPdist stableArgsort stableArgsort_isArgsort id
    (List.range n) maxR hmax (e + 1)
  obtain ⟨B, -, hB⟩ := local_isBars hp hd.isPdist stableArgsort_isArgsort hmax hL (e := e) (by omega)
  rw [List.length_range] at hB
  refine ⟨B.barcode, hB.congr hp fun u hu v hv => ?_⟩
  rw [cloudDist_getElem hd (by simpa using hu) (by simpa using hv.trans hu)]
  simp

/-! ## Reparametrisation -/

/-- Pairs of points, and an entry for the birth of the vertices. -/
def edgeIdx (n : ℕ) : Finset (Option (ℕ × ℕ)) :=
  Finset.insertNone ((Finset.range n ×ˢ Finset.range n).filter fun e => e.2 < e.1)

def edgeVal (dist : ℕ → ℕ → K) : Option (ℕ × ℕ) → K
  | none => 0
  | some e => dist e.1 e.2

theorem none_mem_edgeIdx (n : ℕ) : none ∈ edgeIdx n := by simp [edgeIdx]

theorem some_mem_edgeIdx {n u v : ℕ} : some (u, v) ∈ edgeIdx n ↔ u < n ∧ v < u := by
  simp only [edgeIdx, Finset.some_mem_insertNone, Finset.mem_filter, Finset.mem_product, Finset.mem_range]
  omega

/-- The largest of the values of `f` on the entries at which `g` is at most `x`. -/
def largest (n : ℕ) (g f : ℕ → ℕ → K) (x : K) : K :=
  (insert none ((edgeIdx n).filter fun i => edgeVal g i ≤ x)).sup' ⟨none, Finset.mem_insert_self _ _⟩ (edgeVal f)

theorem largest_nonneg (n : ℕ) (g f : ℕ → ℕ → K) (x : K) : 0 ≤ largest n g f x :=
  Finset.le_sup' (edgeVal f) (Finset.mem_insert_self none _)

theorem le_largest {n : ℕ} {g : ℕ → ℕ → K} (f : ℕ → ℕ → K) {x : K} {i : Option (ℕ × ℕ)} (hi : i ∈ edgeIdx n)
    (h : edgeVal g i ≤ x) : edgeVal f i ≤ largest n g f x :=
  Finset.le_sup' (edgeVal f) (Finset.mem_insert_of_mem (Finset.mem_filter.2 ⟨hi, h⟩))

theorem largest_le {n : ℕ} {g f : ℕ → ℕ → K} {x y : K} (hy : 0 ≤ y)
    (h : ∀ i ∈ edgeIdx n, edgeVal g i ≤ x → edgeVal f i ≤ y) : largest n g f x ≤ y := by
  refine Finset.sup'_le _ _ fun i hi => ?_
  rcases Finset.mem_insert.1 hi with rfl | hi
  · exact hy
  · exact h i (Finset.mem_filter.1 hi).1 (Finset.mem_filter.1 hi).2

theorem exists_largest (n : ℕ) (g f : ℕ → ℕ → K) {x : K} (hx : 0 ≤ x) :
    ∃ i ∈ edgeIdx n, edgeVal g i ≤ x ∧ largest n g f x = edgeVal f i := by
  obtain ⟨i, hi, h⟩ := Finset.exists_mem_eq_sup' (s := insert none ((edgeIdx n).filter fun i => edgeVal g i ≤ x))
    ⟨none, Finset.mem_insert_self _ _⟩ (edgeVal f)
  rcases Finset.mem_insert.1 hi with rfl | hi'
  · exact ⟨none, none_mem_edgeIdx n, hx, h⟩
  · exact ⟨i, (Finset.mem_filter.1 hi').1, (Finset.mem_filter.1 hi').2, h⟩

theorem largest_mono (n : ℕ) (g f : ℕ → ℕ → K) {x y : K} (h : x ≤ y) : largest n g f x ≤ largest n g f y :=
  largest_le (largest_nonneg n g f y) fun _ hi hx => le_largest f hi (hx.trans h)

/-- The ends of the bars are distances, zero, or the maximal radius. -/
theorem IsBars.crit (hp : p.Prime) {dist : ℕ → ℕ → K} {n e : ℕ} {maxR : K} {A : List (K × K)}
    (h : IsBars p dist n e maxR A) {b : K × K} (hb : b ∈ A) :
    (∃ i ∈ edgeIdx n, edgeVal dist i = b.1) ∧ (b.2 < maxR → ∃ i ∈ edgeIdx n, edgeVal dist i = b.2) := by
  obtain ⟨h0, h1, h2⟩ := h.ends b hb
  have hbirth : ∃ i ∈ edgeIdx n, edgeVal dist i = b.1 := by
    by_contra hne
    obtain ⟨i, hi, hix, he⟩ := exists_largest n dist dist h0
    have hlt : edgeVal dist i < b.1 := lt_of_le_of_ne hix fun h' => hne ⟨i, hi, h'⟩
    have hnn : 0 ≤ edgeVal dist i := by rw [← he]; exact largest_nonneg n dist dist b.1
    have hc : ∀ u < n, ∀ v < u, dist u v ≤ b.1 ↔ dist u v ≤ edgeVal dist i := by
      intro u hu v hv
      refine ⟨fun h' => ?_, fun h' => h'.trans hix⟩
      rw [← he]
      exact le_largest dist (some_mem_edgeIdx.2 ⟨hu, hv⟩) h'
    have hr : barsThrough A b.1 b.1 = barsThrough A (edgeVal dist i) b.1 := by
      rw [h.ranks _ _ le_rfl h0 (h1.trans_le h2), h.ranks _ _ hlt.le hnn (h1.trans_le h2)]
      exact rank_congr hp e _ _ hc fun u hu v hv => Iff.rfl
    have hlt' : barsThrough A (edgeVal dist i) b.1 < barsThrough A b.1 b.1 := by
      rw [barsThrough_erase hb (edgeVal dist i), barsThrough_erase hb b.1]
      refine Nat.add_lt_add_of_lt_of_le ?_ ?_
      · simp [barsThrough, h1, hlt]
      · unfold barsThrough
        refine List.countP_mono_left fun c _ hc => ?_
        simp only [Bool.and_eq_true, decide_eq_true_eq] at hc ⊢
        exact ⟨hc.1.trans hlt.le, hc.2⟩
    omega
  refine ⟨hbirth, fun hd => ?_⟩
  by_contra hne
  have hd0 : 0 ≤ b.2 := h0.trans h1.le
  obtain ⟨i, hi, hix, he⟩ := exists_largest n dist dist hd0
  have hlt : edgeVal dist i < b.2 := lt_of_le_of_ne hix fun h' => hne ⟨i, hi, h'⟩
  have hc : ∀ u < n, ∀ v < u, dist u v ≤ edgeVal dist i ↔ dist u v ≤ b.2 := by
    intro u hu v hv
    refine ⟨fun h' => h'.trans hix, fun h' => ?_⟩
    rw [← he]
    exact le_largest dist (some_mem_edgeIdx.2 ⟨hu, hv⟩) h'
  have hbi : b.1 ≤ edgeVal dist i := by
    obtain ⟨j, hj, hj'⟩ := hbirth
    rw [← hj', ← he]
    exact le_largest dist hj (hj' ▸ h1.le)
  have hr : barsThrough A b.1 (edgeVal dist i) = barsThrough A b.1 b.2 := by
    rw [h.ranks _ _ hbi h0 (hlt.trans hd), h.ranks _ _ h1.le h0 hd]
    exact rank_congr hp e _ _ (fun u hu v hv => Iff.rfl) hc
  have hlt' : barsThrough A b.1 b.2 < barsThrough A b.1 (edgeVal dist i) := by
    rw [barsThrough_erase hb b.1 b.2, barsThrough_erase hb b.1 (edgeVal dist i)]
    refine Nat.add_lt_add_of_lt_of_le ?_ ?_
    · simp [barsThrough, hlt]
    · unfold barsThrough
      refine List.countP_mono_left fun c _ hc => ?_
      simp only [Bool.and_eq_true, decide_eq_true_eq] at hc ⊢
      exact ⟨hc.1, hlt.trans hc.2⟩
  omega

/-- The order of the distances `g` refines that of the distances `f`. -/
def OrderRefines (n : ℕ) (g f : ℕ → ℕ → K) : Prop :=
  ∀ i ∈ edgeIdx n, ∀ j ∈ edgeIdx n, edgeVal g i ≤ edgeVal g j → edgeVal f i ≤ edgeVal f j

/-- How the ends of the bars move from the distances `g` to the distances `f`. -/
def transport (n : ℕ) (g f : ℕ → ℕ → K) (maxG maxR : K) (x : K) : K :=
  if maxG ≤ x then maxR else min maxR (largest n g f x)

/-- The barcode of `f` from that of `g`. -/
theorem IsBars.transport (hp : p.Prime) {g f : ℕ → ℕ → K} {n e : ℕ} {maxG maxR : K} {A : List (K × K)}
    (h : IsBars p g n e maxG A) (hmax : 0 < maxR) (hG : ∀ i ∈ edgeIdx n, edgeVal g i < maxG)
    (ho : OrderRefines n g f) :
    IsBars p f n e maxR ((A.map fun b => (transport n g f maxG maxR b.1, transport n g f maxG maxR b.2)).filter
      fun b => decide (b.1 < b.2)) := by
  have hnn : ∀ x, 0 ≤ Permaviss.transport n g f maxG maxR x := by
    intro x
    unfold Permaviss.transport
    split_ifs
    · exact hmax.le
    · exact le_min hmax.le (largest_nonneg n g f x)
  refine ⟨?_, fun s t hst hs ht => ?_⟩
  · intro b hb
    obtain ⟨h1, h2⟩ := List.mem_filter.1 hb
    obtain ⟨c, hc, rfl⟩ := List.mem_map.1 h1
    refine ⟨hnn _, by simpa using h2, ?_⟩
    dsimp only [Permaviss.transport]
    split_ifs
    · exact le_rfl
    · exact min_le_left _ _
  · -- the radius in `g`
    have key : ∀ x, 0 ≤ x → ∀ i ∈ edgeIdx n, edgeVal f i ≤ x ↔ edgeVal g i ≤ largest n f g x := by
      intro x hx i hi
      refine ⟨fun h' => le_largest g hi h', fun h' => ?_⟩
      obtain ⟨j, hj, hjx, he⟩ := exists_largest n f g hx
      rw [he] at h'
      exact (ho i hi j hj h').trans hjx
    have small : ∀ x, largest n f g x < maxG := by
      intro x
      refine (Finset.sup'_lt_iff _).2 fun i hi => ?_
      rcases Finset.mem_insert.1 hi with rfl | hi
      · exact hG none (none_mem_edgeIdx n)
      · exact hG i (Finset.mem_filter.1 hi).1
    have ht0 : 0 ≤ t := hs.trans hst
    have hr : Module.finrank (ZMod p) (LinearMap.range (vrMap (ZMod p) f n e hst)) =
        Module.finrank (ZMod p) (LinearMap.range (vrMap (ZMod p) g n e (largest_mono n f g hst))) :=
      rank_congr hp e _ _ (fun u hu v hv => key s hs (some (u, v)) (some_mem_edgeIdx.2 ⟨hu, hv⟩))
        fun u hu v hv => key t ht0 (some (u, v)) (some_mem_edgeIdx.2 ⟨hu, hv⟩)
    rw [hr, ← h.ranks _ _ (largest_mono n f g hst) (largest_nonneg n f g s) (small t)]
    unfold barsThrough
    rw [List.countP_filter, List.countP_map]
    refine List.countP_congr fun b hb => ?_
    obtain ⟨h0, h1, h2⟩ := h.ends b hb
    obtain ⟨⟨i, hi, hib⟩, hd⟩ := h.crit hp hb
    have big : ∀ j ∈ edgeIdx n, ∀ x, 0 ≤ x → (largest n g f (edgeVal g j) ≤ x ↔ edgeVal f j ≤ x) := by
      intro j hj x hx
      refine ⟨fun h' => (le_largest f hj le_rfl).trans h', fun h' => largest_le hx fun k hk hkj => ?_⟩
      exact (ho k hk j hj hkj).trans h'
    have e1 : Permaviss.transport n g f maxG maxR b.1 ≤ s ↔ b.1 ≤ largest n f g s := by
      unfold Permaviss.transport
      rw [if_neg (not_le.2 (h1.trans_le h2)), min_le_iff, or_iff_right (not_le.2 (hst.trans_lt ht)), ← hib,
        big i hi s hs, key s hs i hi]
    have e2 : t < Permaviss.transport n g f maxG maxR b.2 ↔ largest n f g t < b.2 := by
      unfold Permaviss.transport
      by_cases hc : maxG ≤ b.2
      · rw [if_pos hc]
        exact ⟨fun _ => (small t).trans_le hc, fun _ => ht⟩
      · rw [if_neg hc]
        obtain ⟨j, hj, hjb⟩ := hd (not_le.1 hc)
        rw [lt_min_iff, and_iff_right ht, ← hjb, ← not_le, ← not_le, big j hj t ht0, key t ht0 j hj]
    simp only [Function.comp_apply, Bool.and_eq_true, decide_eq_true_eq, e1, e2]
    constructor
    · rintro ⟨h3, -⟩
      exact h3
    · intro h3
      exact ⟨h3, ((e1.2 h3.1).trans hst).trans_lt (e2.2 h3.2)⟩

end

/-! ## Deformation -/

section

variable {K : Type} [Field K] [LinearOrder K] [IsStrictOrderedRing K] {p : ℕ}

/-- Two tables of distances whose orders are refined by that of a third one. -/
theorem matched_of_refines (hp : p.Prime) {g f f' : ℕ → ℕ → K} {n e : ℕ} {maxR : K} (hmax : 0 < maxR)
    (hg : ∀ u v, 0 ≤ g u v) (h1 : OrderRefines n g f) (h2 : OrderRefines n g f') {A B : List (K × K)}
    (hA : IsBars p f n e maxR A) (hB : IsBars p f' n e maxR B) {δ : K} (hδ0 : 0 ≤ δ)
    (hδ : ∀ u < n, ∀ v < u, |f u v - f' u v| ≤ δ) : Matched δ A B := by
  set maxG : K := largest n g g (largest n (fun _ _ => 0) g 0) + 1 with hmaxG
  have hG : ∀ i ∈ edgeIdx n, edgeVal g i < maxG := by
    intro i hi
    refine lt_of_le_of_lt (le_largest (x := largest n (fun _ _ => 0) g 0) g hi (le_largest g hi ?_)) (lt_add_one _)
    cases i <;> exact le_rfl
  obtain ⟨C, hC⟩ := exists_isBars (p := p) hp g hg n e (maxR := maxG) (hG none (none_mem_edgeIdx n))
  have t1 := hC.transport hp hmax hG h1
  have t2 := hC.transport hp hmax hG h2
  have hval : ∀ i ∈ edgeIdx n, |edgeVal f i - edgeVal f' i| ≤ δ := by
    intro i hi
    match i, hi with
    | none, _ => simpa [edgeVal] using hδ0
    | some (u, v), hi =>
      obtain ⟨hu, hv⟩ := some_mem_edgeIdx.1 hi
      exact hδ u hu v hv
  have hmv : ∀ x, |Permaviss.transport n g f maxG maxR x - Permaviss.transport n g f' maxG maxR x| ≤ δ := by
    intro x
    unfold Permaviss.transport
    split_ifs
    · simpa using hδ0
    · have s1 : largest n g f x ≤ largest n g f' x + δ := by
        refine largest_le (add_nonneg (largest_nonneg n g f' x) hδ0) fun i hi hx => ?_
        have := (abs_le.1 (hval i hi)).2
        have := le_largest f' hi hx
        linarith
      have s2 : largest n g f' x ≤ largest n g f x + δ := by
        refine largest_le (add_nonneg (largest_nonneg n g f x) hδ0) fun i hi hx => ?_
        have := (abs_le.1 (hval i hi)).1
        have := le_largest f hi hx
        linarith
      rw [abs_le]
      rcases min_choice maxR (largest n g f x) with c1 | c1 <;>
        rcases min_choice maxR (largest n g f' x) with c2 | c2 <;> rw [c1, c2] <;>
        have d1 := min_le_right maxR (largest n g f x) <;> have d2 := min_le_right maxR (largest n g f' x) <;>
        have d3 := min_le_left maxR (largest n g f x) <;> have d4 := min_le_left maxR (largest n g f' x) <;>
        constructor <;> linarith
  refine ⟨C.map fun b => ((Permaviss.transport n g f maxG maxR b.1, Permaviss.transport n g f maxG maxR b.2),
    (Permaviss.transport n g f' maxG maxR b.1, Permaviss.transport n g f' maxG maxR b.2)), ?_, ?_, ?_⟩
  · rw [List.map_map]
    exact hA.perm hp t1 fun _ _ _ _ => rfl
  · rw [List.map_map]
    exact hB.perm hp t2 fun _ _ _ _ => rfl
  · intro m hm
    obtain ⟨b, -, rfl⟩ := List.mem_map.1 hm
    exact ⟨hmv b.1, hmv b.2⟩

/-- The deformation of one table of distances into another one. -/
def deform (f f' : ℕ → ℕ → K) (l : K) (u v : ℕ) : K := (1 - l) * f u v + l * f' u v

theorem edgeVal_deform (f f' : ℕ → ℕ → K) (l : K) (i : Option (ℕ × ℕ)) :
    edgeVal (deform f f' l) i = (1 - l) * edgeVal f i + l * edgeVal f' i := by
  cases i with
  | none => simp [edgeVal]
  | some e => rfl

/-- The times at which two distances change their order. -/
def crossings (n : ℕ) (f f' : ℕ → ℕ → K) : Finset K :=
  (edgeIdx n ×ˢ edgeIdx n).image fun ij =>
    (edgeVal f ij.1 - edgeVal f ij.2) /
      ((edgeVal f ij.1 - edgeVal f ij.2) - (edgeVal f' ij.1 - edgeVal f' ij.2))

theorem refines_of_no_crossing {n : ℕ} {f f' : ℕ → ℕ → K} {a b m c : K} (ham : a ≤ m) (hmb : m ≤ b)
    (hm : m = a ∨ a < m ∧ m < b) (hc : c = a ∨ c = b)
    (hno : ∀ z ∈ crossings n f f', ¬ (a < z ∧ z < b)) (hab : m = a → b = a) :
    OrderRefines n (deform f f' m) (deform f f' c) := by
  intro i hi j hj hij
  rw [edgeVal_deform, edgeVal_deform] at hij ⊢
  set x := edgeVal f i - edgeVal f j with hx
  set y := edgeVal f' i - edgeVal f' j with hy
  have hz : x / (x - y) ∈ crossings n f f' := Finset.mem_image.2 ⟨(i, j), Finset.mem_product.2 ⟨hi, hj⟩, rfl⟩
  have h1 : (1 - m) * x + m * y ≤ 0 := by rw [hx, hy]; linarith
  suffices h2 : (1 - c) * x + c * y ≤ 0 by rw [hx, hy] at h2; linarith
  rcases hm with rfl | ⟨hm1, hm2⟩
  · have := hab rfl
    rcases hc with rfl | rfl
    · exact h1
    · rw [this]; exact h1
  · by_contra hcon
    have h2 : 0 < (1 - c) * x + c * y := not_le.1 hcon
    have hne : x - y ≠ 0 := by
      intro h0
      have : x = y := sub_eq_zero.1 h0
      rw [this] at h1 h2
      linarith
    set z := x / (x - y) with hzd
    have hxz : x = z * (x - y) := by rw [hzd, div_mul_cancel₀ _ hne]
    have h3 : (z - m) * (x - y) ≤ 0 := by
      have : (z - m) * (x - y) = (1 - m) * x + m * y := by
        rw [sub_mul, ← hxz]; ring
      rw [this]; exact h1
    have h4 : 0 < (z - c) * (x - y) := by
      have : (z - c) * (x - y) = (1 - c) * x + c * y := by
        rw [sub_mul, ← hxz]; ring
      rw [this]; exact h2
    refine hno z hz ?_
    rcases lt_or_gt_of_ne hne with hneg | hpos
    · have g1 : m ≤ z := by
        by_contra g
        have := mul_pos_of_neg_of_neg (sub_neg.2 (not_le.1 g)) hneg
        linarith
      have g2 : z < c := by
        by_contra g
        have := mul_nonpos_of_nonneg_of_nonpos (sub_nonneg.2 (not_lt.1 g)) hneg.le
        linarith
      rcases hc with rfl | rfl
      · linarith
      · exact ⟨by linarith, g2⟩
    · have g1 : z ≤ m := by
        by_contra g
        have := mul_pos (sub_pos.2 (not_le.1 g)) hpos
        linarith
      have g2 : c < z := by
        by_contra g
        have := mul_nonpos_of_nonpos_of_nonneg (sub_nonpos.2 (not_lt.1 g)) hpos.le
        linarith
      rcases hc with rfl | rfl
      · exact ⟨g2, by linarith⟩
      · linarith

theorem deform_nonneg {f f' : ℕ → ℕ → K} (hf : ∀ u v, 0 ≤ f u v) (hf' : ∀ u v, 0 ≤ f' u v) {l : K} (h0 : 0 ≤ l)
    (h1 : l ≤ 1) (u v : ℕ) : 0 ≤ deform f f' l u v :=
  add_nonneg (mul_nonneg (sub_nonneg.2 h1) (hf u v)) (mul_nonneg h0 (hf' u v))

theorem matched_deform (hp : p.Prime) {f f' : ℕ → ℕ → K} {n e : ℕ} {maxR : K} (hmax : 0 < maxR)
    (hf : ∀ u v, 0 ≤ f u v) (hf' : ∀ u v, 0 ≤ f' u v) {ε : K} (hε0 : 0 ≤ ε)
    (hε : ∀ u < n, ∀ v < u, |f u v - f' u v| ≤ ε) (k : ℕ) : ∀ {a b : K}, 0 ≤ a → a ≤ b → b ≤ 1 →
    ((crossings n f f').filter fun z => a < z ∧ z < b).card = k → ∀ {A B : List (K × K)},
    IsBars p (deform f f' a) n e maxR A → IsBars p (deform f f' b) n e maxR B →
    Matched ((b - a) * ε) A B := by
  induction k using Nat.strong_induction_on with
  | _ k ih =>
    intro a b ha hab hb hk A B hA hB
    by_cases hex : ∃ z ∈ crossings n f f', a < z ∧ z < b
    · obtain ⟨z, hz, haz, hzb⟩ := hex
      obtain ⟨C, hC⟩ := exists_isBars (p := p) hp (deform f f' z)
        (deform_nonneg hf hf' (ha.trans haz.le) (hzb.le.trans hb)) n e hmax
      have hsub : ∀ c d, a ≤ c → d ≤ b → ¬ (c < z ∧ z < d) →
          ((crossings n f f').filter fun y => c < y ∧ y < d).card < k := by
        intro c d hac hdb hn
        rw [← hk]
        refine Finset.card_lt_card ⟨fun y hy => ?_, fun h => ?_⟩
        · obtain ⟨y1, y2, y3⟩ := Finset.mem_filter.1 hy
          exact Finset.mem_filter.2 ⟨y1, lt_of_le_of_lt hac y2, lt_of_lt_of_le y3 hdb⟩
        · exact hn (Finset.mem_filter.1 (h (Finset.mem_filter.2 ⟨hz, haz, hzb⟩))).2
      have m1 := ih _ (hsub a z le_rfl hzb.le fun h => lt_irrefl _ h.2) ha haz.le (hzb.le.trans hb) rfl hA hC
      have m2 := ih _ (hsub z b haz.le le_rfl fun h => lt_irrefl _ h.1) (ha.trans haz.le) hzb.le hb rfl hC hB
      have := m1.trans (mul_nonneg (sub_nonneg.2 haz.le) hε0) (mul_nonneg (sub_nonneg.2 hzb.le) hε0) m2
      have e1 : (z - a) * ε + (b - z) * ε = (b - a) * ε := by ring
      rwa [e1] at this
    · have hno : ∀ z ∈ crossings n f f', ¬ (a < z ∧ z < b) := fun z hz h => hex ⟨z, hz, h⟩
      set m : K := (a + b) / 2 with hm
      have hm' : m + m = a + b := by rw [hm]; exact add_halves (a + b)
      have ham : a ≤ m := by linarith
      have hmb : m ≤ b := by linarith
      have hcase : m = a ∨ a < m ∧ m < b := by
        rcases hab.eq_or_lt with h | h
        · left; linarith
        · right; constructor <;> linarith
      have hab' : m = a → b = a := fun h => by linarith
      refine matched_of_refines hp hmax (deform_nonneg hf hf' (ha.trans ham) (hmb.trans hb))
        (refines_of_no_crossing ham hmb hcase (Or.inl rfl) hno hab')
        (refines_of_no_crossing ham hmb hcase (Or.inr rfl) hno hab') hA hB
        (mul_nonneg (sub_nonneg.2 hab) hε0) fun u hu v hv => ?_
      have e1 : deform f f' a u v - deform f f' b u v = (b - a) * (f u v - f' u v) := by
        unfold deform; ring
      rw [e1, abs_mul, abs_of_nonneg (sub_nonneg.2 hab)]
      exact mul_le_mul_of_nonneg_left (hε u hu v hv) (sub_nonneg.2 hab)

/-- Distances which differ by at most `ε` have barcodes at distance at most `ε`. -/
theorem within_of_close (hp : p.Prime) {f f' : ℕ → ℕ → K} {n e : ℕ} {maxR : K} (hmax : 0 < maxR)
    (hf : ∀ u v, 0 ≤ f u v) (hf' : ∀ u v, 0 ≤ f' u v) {ε : K} (hε0 : 0 ≤ ε)
    (hε : ∀ u < n, ∀ v < u, |f u v - f' u v| ≤ ε) {A B : List (K × K)} (hA : IsBars p f n e maxR A)
    (hB : IsBars p f' n e maxR B) : BarsWithin ε A B := by
  have h := matched_deform hp hmax hf hf' hε0 hε _ le_rfl zero_le_one le_rfl rfl
    (hA.congr hp (dist' := deform f f' 0) fun u _ v _ => by simp [deform])
    (hB.congr hp (dist' := deform f f' 1) fun u _ v _ => by simp [deform])
  rw [sub_zero, one_mul] at h
  exact h.within

end

end Permaviss
