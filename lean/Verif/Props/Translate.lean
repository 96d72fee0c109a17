import Verif.Lemmas.Translate
import Verif.Props.OneCube

/-!
# The position of the cloud has no influence (C80)
-/

namespace Permaviss

/-- `pt + v`, coordinate by coordinate. -/
def translate {K : Type} [Add K] (v pt : List K) : List K := List.zipWith (· + ·) pt v

section

variable {K : Type} [Field K] [LinearOrder K] [FloorRing K] [IsStrictOrderedRing K]
  {pdist : List (List K) → List (List K)} {d : List K → List K → K} {cloud : List (List K)} {dim : ℕ} {v : List K}

omit [LinearOrder K] [FloorRing K] [IsStrictOrderedRing K] in
theorem translate_moves (hlen : ∀ pt ∈ cloud, pt.length = dim) (hv : v.length = dim) :
    Moves dim cloud (translate v) fun k => v.getD k 0 := by
  intro pt hpt k hk
  have h1 := hlen pt hpt
  unfold translate
  dsimp only
  rw [List_getD_eq_getElem _ _ (by rw [List.length_zipWith]; omega), List_getD_eq_getElem _ _ (by omega),
    List_getD_eq_getElem _ _ (by omega), List.getElem_zipWith]

/-- The cover of a translated cloud consists of the same sets of points, and has the same nerve. -/
theorem C80_cover (hlen : ∀ pt ∈ cloud, pt.length = dim) (hv : v.length = dim) (maxDiv : ℕ) (overlap : K) :
    (generateCover maxDiv overlap dim (cloud.map (translate v))).map (fun c => (c.pointsIN, c.nerve)) =
      (generateCover maxDiv overlap dim cloud).map fun c => (c.pointsIN, c.nerve) := by
  by_cases hne : cloud = []
  · rw [hne]; rfl
  rw [generateCover_moves (translate_moves hlen hv) hne]
  cases generateCover maxDiv overlap dim cloud with
  | error e => rfl
  | ok c => rfl

/-- **C80**.  If translations keep the distances, `create_MV_ss` gives the same result for the translated cloud:
the same pages, the same representatives and the same barcodes, or the same exception. -/
theorem C80_translation (hd : IsDistTable pdist d) (hlen : ∀ pt ∈ cloud, pt.length = dim) (hv : v.length = dim)
    (hinv : ∀ a ∈ cloud, ∀ b ∈ cloud, d (translate v a) (translate v b) = d a b) (argsort : List K → List Nat)
    (rnd : K → K) (maxR : K) (maxDim maxDiv : ℕ) (overlap : K) (p : ℕ) :
    createMVss pdist argsort rnd maxR maxDim maxDiv overlap dim (cloud.map (translate v)) p =
      createMVss pdist argsort rnd maxR maxDim maxDiv overlap dim cloud p := by
  by_cases hne : cloud = []
  · rw [hne]; rfl
  unfold createMVss
  rw [createEnv_moves (translate_moves hlen hv) hne ?_]
  intro c hc
  rw [hd.table, hd.table, List.map_map]
  refine List.map_congr_left fun a ha => ?_
  rw [Function.comp_apply, List.map_map]
  exact List.map_congr_left fun b hb => hinv a (hc a ha) b (hc b hb)

/-- Every distance that is a function of the differences of the coordinates is kept by translations. -/
theorem C80_differences {f : List K → K} (hd : IsDistTable pdist fun a b => f (List.zipWith (· - ·) a b))
    (hlen : ∀ pt ∈ cloud, pt.length = dim) (hv : v.length = dim) (argsort : List K → List Nat)
    (rnd : K → K) (maxR : K) (maxDim maxDiv : ℕ) (overlap : K) (p : ℕ) :
    createMVss pdist argsort rnd maxR maxDim maxDiv overlap dim (cloud.map (translate v)) p =
      createMVss pdist argsort rnd maxR maxDim maxDiv overlap dim cloud p := by
  refine C80_translation hd hlen hv (fun a ha b hb => congrArg f ?_) argsort rnd maxR maxDim maxDiv overlap p
  have h1 := hlen a ha
  have h2 := hlen b hb
  unfold translate
  refine List.ext_getElem (by simp only [List.length_zipWith]; omega) fun i hi1 hi2 => ?_
  simp only [List.getElem_zipWith]
  ring

end

/-- The sum of the absolute values. -/
def absSum (x : List ℚ) : ℚ := (x.map fun t => |t|).sum

/-- The hypotheses of `C80_differences` are met by the square; the moved square has its loop. -/
example : IsDistTable (fun c => c.map fun a => c.map fun b => absSum (List.zipWith (· - ·) a b))
      (fun a b : List ℚ => absSum (List.zipWith (· - ·) a b)) ∧
    (∀ pt ∈ squareCloud, pt.length = 2) ∧ squareCloud.map (translate [10, -1/2]) ≠ squareCloud ∧
    ((createMVss (fun c => c.map fun a => c.map fun b => absSum (List.zipWith (· - ·) a b)) stableArgsort id 5 2 1 5 2
      (squareCloud.map (translate [10, -1/2])) 3).map fun o => o.persistentHomology.map fun B => B.barcode) =
      .ok [[(0, 5), (0, 2), (0, 2), (0, 2)], [(2, 4)]] := by
  refine ⟨⟨fun c => rfl, fun a b => ?_⟩, by decide, by decide +kernel, by decide +kernel⟩
  unfold absSum
  exact List.sum_nonneg fun x hx => by
    obtain ⟨t, -, rfl⟩ := List.mem_map.1 hx
    exact abs_nonneg t

end Permaviss
