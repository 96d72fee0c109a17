import Verif.Props.Samples
import Verif.Props.Bottleneck
import Mathlib.Data.Fintype.Pigeonhole
import Mathlib.Data.Fintype.Option

/-!
# C100: how well the points of `take_sample` stand for the cloud
-/

namespace Permaviss

open Spec

section

variable {K : Type} [Field K] [LinearOrder K] [IsStrictOrderedRing K] [FloorRing K]

/-- **C100, within a factor two of the best choice.**  If some `k ≤ max(1, no_samples)` points, of the cloud or not, have
every point of the cloud within `r`, then `take_sample` returns points that have every point of the cloud within `2 r`.
Unlike C55 this needs the triangle inequality. -/
theorem C100_near_optimal {d : List K → List K → K} (hd : IsDist d) (htri : ∀ x y z, d x z ≤ d x y + d y z)
    (cloud : List (List K)) (hne : cloud ≠ []) (noSamples : Int) (u : K) (hu0 : 0 ≤ u) (hu1 : u < 1)
    (centres : List (List K)) (hk : (centres.length : Int) ≤ max 1 noSamples) (r : K)
    (hr : ∀ x ∈ cloud, ∃ c ∈ centres, d x c ≤ r) :
    ∃ S, takeSample d cloud noSamples u = .ok S ∧ (∀ s ∈ S, s ∈ cloud) ∧ ∀ x ∈ cloud, ∃ s ∈ S, d x s ≤ r + r := by
  obtain ⟨S, hS, hlen, f, hf, hF⟩ := C55_take_sample hd cloud hne noSamples u hu0 hu1
  refine ⟨S, hS, fun s hs => ?_, fun x hx => ?_⟩
  · obtain ⟨k, rfl⟩ := List.mem_iff_get.1 hs
    rw [hf k]; exact List.get_mem _ _
  have hr0 : 0 ≤ r := by
    obtain ⟨c, _, h⟩ := hr x hx
    exact (hd.nonneg _ _).trans h
  obtain ⟨i, rfl⟩ := List.mem_iff_get.1 hx
  have hn : 0 < cloud.length := List.length_pos_iff.2 hne
  by_cases hall : S.length = cloud.length
  · -- all points are taken
    obtain ⟨k, hk'⟩ := (hF.injective.bijective_of_nat_card_le (by simp [hall])).2 i
    refine ⟨S.get k, List.get_mem _ _, ?_⟩
    rw [hf k, hk', hd.self]; exact add_nonneg hr0 hr0
  have hm : centres.length ≤ S.length := by omega
  -- the nearest centres of the point and of the sample
  have hc : ∀ y : Option (Fin S.length), ∃ c : Fin centres.length,
      d ((y.map S.get).getD (cloud.get i)) (centres.get c) ≤ r := by
    intro y
    have hy : (y.map S.get).getD (cloud.get i) ∈ cloud := by
      cases y with
      | none => exact List.get_mem _ _
      | some k => simp only [Option.map_some, Option.getD_some, hf k]; exact List.get_mem _ _
    obtain ⟨c, hc, h⟩ := hr _ hy
    obtain ⟨j, rfl⟩ := List.mem_iff_get.1 hc
    exact ⟨j, h⟩
  choose g hg using hc
  obtain ⟨y, z, hyz, he⟩ := Fintype.exists_ne_map_eq_of_card_lt g (by simp; omega)
  have hdist : ∀ y z, g y = g z →
      d ((y.map S.get).getD (cloud.get i)) ((z.map S.get).getD (cloud.get i)) ≤ r + r := by
    intro y z he
    refine (htri _ (centres.get (g y)) _).trans (add_le_add (hg y) ?_)
    rw [hd.symm, he]; exact hg z
  obtain ⟨a, ha⟩ := hF.covers i
  rcases y with _ | b <;> rcases z with _ | c
  · exact absurd rfl hyz
  · exact ⟨S.get c, List.get_mem _ _, hdist _ _ he⟩
  · exact ⟨S.get b, List.get_mem _ _, hdist _ _ he.symm⟩
  · refine ⟨S.get a, List.get_mem _ _, ?_⟩
    have h1 := ha b c (fun h => hyz (by rw [h]))
    have h2 := hdist _ _ he
    simp only [Option.map_some, Option.getD_some] at h2
    rw [hf b, hf c] at h2
    rw [hf a]
    exact h1.trans h2

/-- A round of `take_sample` only appends. -/
theorem takeStep_prefix {D : Nat → Nat → K} {n : Nat} {sel sel' : List Int} (h : takeStep D n sel = .ok sel') :
    sel <+: sel' := by
  unfold takeStep at h
  split at h
  · cases h
  · injection h with h
    rw [← h]; exact List.prefix_append _ _

theorem takeLoop_prefix {D : Nat → Nat → K} {n : Nat} (L : List Nat) : ∀ {sel sel' : List Int},
    L.foldlM (fun sel _ => takeStep D n sel) sel = .ok sel' → sel <+: sel' := by
  induction L with
  | nil => intro sel sel' h; injection h with h; rw [h]
  | cons x L ih =>
    intro sel sel' h
    rw [List.foldlM_cons] at h
    cases e : takeStep D n sel with
    | error e' => rw [e] at h; cases h
    | ok s => rw [e] at h; exact (takeStep_prefix e).trans (ih h)

/-- **C100, samples are nested.**  With the same random number a smaller sample is the beginning of a larger one: the
points of `take_sample` are listed from the most to the least important. -/
theorem C100_nested {d : List K → List K → K} (cloud : List (List K)) {k k' : Int} (hk : k ≤ k') (u : K)
    {S S' : List (List K)} (h : takeSample d cloud k u = .ok S) (h' : takeSample d cloud k' u = .ok S') : S <+: S' := by
  unfold takeSample at h h'
  split at h
  · cases h
  rename_i hne
  rw [if_neg hne] at h'
  obtain ⟨t, ht⟩ := Nat.exists_eq_add_of_le
    (show (min (cloud.length : Int) k - 1).toNat ≤ (min (cloud.length : Int) k' - 1).toNat by omega)
  rw [ht, List.range_add, List.foldlM_append] at h'
  generalize (List.range (min (cloud.length : Int) k - 1).toNat).foldlM
    (fun sel _ => takeStep (squareform d cloud) cloud.length sel) [⌊u * (cloud.length : K)⌋ - 1] = x at h h'
  cases x with
  | error e => cases h
  | ok sel =>
    injection h with h
    simp only [bind, Except.bind] at h'
    generalize e : ((List.range t).map fun x => (min (cloud.length : Int) k - 1).toNat + x).foldlM
      (fun sel _ => takeStep (squareform d cloud) cloud.length sel) sel = y at h'
    cases y with
    | error e => cases h'
    | ok sel' =>
      injection h' with h'
      rw [← h, ← h']
      exact (takeLoop_prefix _ e).map _

/-- **C100, barcodes.**  Under the same conditions the barcodes of the sample are at bottleneck distance at most `4 r` of
those of the cloud, in every degree that is computed. -/
theorem C100_barcodes {p : ℕ} (hp : p.Prime) {pdist : List (List K) → List (List K)} {d : List K → List K → K}
    (hpd : IsDistTable pdist d) (hd : IsDist d) (htri : ∀ x y z, d x z ≤ d x y + d y z)
    {argsort argsort' : List K → List Nat} (ha : IsArgsort argsort) (ha' : IsArgsort argsort') (rnd rnd' : K → K)
    (cloud : List (List K)) (hne : cloud ≠ []) (noSamples : Int) (u : K) (hu0 : 0 ≤ u) (hu1 : u < 1)
    (centres : List (List K)) (hk : (centres.length : Int) ≤ max 1 noSamples) (r : K)
    (hr : ∀ x ∈ cloud, ∃ c ∈ centres, d x c ≤ r) {S : List (List K)} (hS : takeSample d cloud noSamples u = .ok S)
    {maxR : K} (hmax : 0 < maxR) (maxDim : Int) {L L' : LocalOut K}
    (hL : localPersistentHomology pdist argsort rnd cloud maxR maxDim p = .ok L)
    (hL' : localPersistentHomology pdist argsort' rnd' S maxR maxDim p = .ok L')
    (e : ℕ) (he : (e : Int) < max maxDim 1) :
    ∃ B B', L.ph.hom[e]? = some B ∧ L'.ph.hom[e]? = some B' ∧
      BarsWithin (r + r + (r + r)) B.barcode B'.barcode := by
  obtain ⟨S', h, hsub, hnear⟩ := C100_near_optimal hd htri cloud hne noSamples u hu0 hu1 centres hk r hr
  obtain rfl : S = S' := by rw [hS] at h; injection h
  obtain ⟨x, hx⟩ := List.exists_mem_of_ne_nil _ hne
  obtain ⟨c, _, hc⟩ := hr x hx
  have hr0 : 0 ≤ r := (hd.nonneg _ _).trans hc
  refine C87_samples hp hpd hd.symm hd.self htri ha ha' rnd rnd' (add_nonneg hr0 hr0) hnear
    (fun b hb => ⟨b, hsub b hb, ?_⟩) hmax maxDim hL hL' e he
  rw [hd.self]; exact add_nonneg hr0 hr0

/-- **C100, barcodes of `create_MV_ss`.**  The same for `create_MV_ss` with `max_dim = 2` on the cloud and on the sample,
in degrees zero and one, whatever the covers, under the conditions of C75. -/
theorem C100_cover_barcodes {pdist : List (List K) → List (List K)} {d : List K → List K → K}
    {argsort argsort' : List K → List Nat} {rnd rnd' : K → K} {maxR : K} {maxDiv maxDiv' dim dim' : ℕ}
    {overlap overlap' : K} {cloud S : List (List K)} {p : ℕ} {lo hi lo' hi' : ℕ → K} {side side' : K}
    {out out' : MVOut K} (h : CoverRun pdist d argsort rnd maxR maxDiv overlap dim cloud p lo hi side out)
    (h' : CoverRun pdist d argsort' rnd' maxR maxDiv' overlap' dim' S p lo' hi' side' out')
    (hd : IsDist d) (htri : ∀ x y z, d x z ≤ d x y + d y z) (hne : cloud ≠ []) (noSamples : Int) (u : K)
    (hu0 : 0 ≤ u) (hu1 : u < 1) (hS : takeSample d cloud noSamples u = .ok S)
    (centres : List (List K)) (hk : (centres.length : Int) ≤ max 1 noSamples) (r : K)
    (hr : ∀ x ∈ cloud, ∃ c ∈ centres, d x c ≤ r) :
    ∀ i < 2, BarsWithin (r + r + (r + r)) (entryBars out.persistentHomology i)
      (entryBars out'.persistentHomology i) := by
  obtain ⟨S', e, hsub, hnear⟩ := C100_near_optimal hd htri cloud hne noSamples u hu0 hu1 centres hk r hr
  obtain rfl : S = S' := by rw [hS] at e; injection e
  obtain ⟨x, hx⟩ := List.exists_mem_of_ne_nil _ hne
  obtain ⟨c, _, hc⟩ := hr x hx
  have hr0 : 0 ≤ r := (hd.nonneg _ _).trans hc
  refine C87_cover_samples h h' hd.symm hd.self htri (add_nonneg hr0 hr0) hnear (fun b hb => ⟨b, hsub b hb, ?_⟩)
  rw [hd.self]; exact add_nonneg hr0 hr0

end

/-! ## Concrete cases -/

/-- Nine points on a line, and three centres with all points within one.  The sample of three points has all points within
two, and not within less: the bound is attained. -/
example : (∀ x y z, lineDist x z ≤ lineDist x y + lineDist y z) ∧
    (∀ x ∈ [[0], [1], [2], [10], [11], [12], [20], [21], [22]], ∃ c ∈ [[1], [11], [21]], lineDist x c ≤ 1) ∧
    (takeSample lineDist [[0], [1], [2], [10], [11], [12], [20], [21], [22]] 3 (1 / 9)).toOption =
      some [[0], [22], [11]] ∧
    lineDist [2] [0] = 1 + 1 := by
  refine ⟨fun x y z => by unfold lineDist; exact abs_sub_le _ _ _, by decide +kernel, by decide +kernel, by decide +kernel⟩

def lineDistTable (c : List (List ℚ)) : List (List ℚ) := c.map fun a => c.map (lineDist a)

/-- These points and their sample, for `C100_barcodes`. -/
example : IsDistTable lineDistTable lineDist ∧
    ((localPersistentHomology lineDistTable stableArgsort id [[0], [1], [2], [10], [11], [12], [20], [21], [22]] 30 1 5).map
      fun L => (L.ph.hom.take 1).map fun B => B.barcode) =
        .ok [[(0, 30), (0, 8), (0, 8), (0, 1), (0, 1), (0, 1), (0, 1), (0, 1), (0, 1)]] ∧
    ((localPersistentHomology lineDistTable stableArgsort id [[0], [22], [11]] 30 1 5).map
      fun L => (L.ph.hom.take 1).map fun B => B.barcode) = .ok [[(0, 30), (0, 11), (0, 11)]] := by
  refine ⟨⟨fun _ => rfl, fun a b => by unfold lineDist; positivity⟩, by decide +kernel, by decide +kernel⟩

/-- The points `0, 1, 3` and the sample `0, 3`, for `C100_cover_barcodes`. -/
example : (∃ out out', CoverRun numDist numD stableArgsort id 2 2 2 1 [[0], [1], [3]] 5
      (fun _ => 0) (fun _ => 3) (3 / 2) out ∧
      CoverRun numDist numD stableArgsort id 2 2 2 1 [[0], [3]] 5 (fun _ => 0) (fun _ => 3) (3 / 2) out') ∧
    IsDist numD ∧ (takeSample numD [[0], [1], [3]] 2 (1 / 2)).toOption = some [[0], [3]] ∧
    (∀ x ∈ ([[0], [1], [3]] : List (List ℚ)), ∃ c ∈ ([[1 / 2], [3]] : List (List ℚ)), numD x c ≤ 1 / 2) := by
  obtain ⟨out, h⟩ := num_coverRun (cloud := [[0], [1], [3]]) (overlap := 2) (by simp) (by simp)
    (by decide +kernel) (by norm_num) (by decide +kernel)
  obtain ⟨out', h'⟩ := num_coverRun (cloud := [[0], [3]]) (overlap := 2) (by simp) (by simp)
    (by decide +kernel) (by norm_num) (by decide +kernel)
  exact ⟨⟨out, out', h, h'⟩, ⟨fun _ _ => abs_nonneg _, fun a => by simp [numD], fun a b => abs_sub_comm _ _⟩,
    by decide +kernel, by decide +kernel⟩

/-- Nested samples. -/
example : (takeSample lineDist [[0], [1], [4], [6], [10]] 3 (1 / 10)).toOption = some [[10], [0], [4]] ∧
    (takeSample lineDist [[0], [1], [4], [6], [10]] 4 (1 / 10)).toOption = some [[10], [0], [4], [6]] := by
  decide +kernel

end Permaviss
