import Verif.Lemmas.NerveRows

/-!
# What is known after page zero

Gathers the facts about the computations of `create_MV_ss` on a cover, so that the theorems on the pages do not
depend on the way the cover was found.
-/

namespace Permaviss

open Finset

section

variable {K : Type} [Field K] [LinearOrder K]

/-- The spectral sequence `E` was started on pieces of the cloud. -/
structure RunEnv (pdist : List (List K) → List (List K)) (d : List K → List K → K) (argsort : List K → List Nat)
    (rnd : K → K) (maxR : K) (maxDim dim : ℕ) (cloud : List (List K)) (p : ℕ) (E : SSEnv K) : Prop where
  prime : p.Prime
  dist : IsDistTable pdist d
  sort : IsArgsort argsort
  radius : 0 < maxR
  points : cloud ≠ []
  dim_pos : 0 < dim
  ok : SSOK rnd E (diam d fun v => cloud.getD v [])
  char : E.p = p
  bound : E.maxR = maxR
  rows : E.rows = maxDim
  cols : E.columns.length = 2 ^ dim
  pages : E.noPages = min (maxDim + 2) (2 ^ dim)
  numbers : E.spxNumber.length = 2 ^ dim + 1

/-- The pieces cover the complex of the whole cloud. -/
structure CoveredEnv (pdist : List (List K) → List (List K)) (d : List K → List K → K) (argsort : List K → List Nat)
    (rnd : K → K) (maxR : K) (maxDim dim : ℕ) (cloud : List (List K)) (p : ℕ) (E : SSEnv K) : Prop extends
    RunEnv pdist d argsort rnd maxR maxDim dim cloud p E where
  cover : ∃ D, CoverOK E (diam d fun v => cloud.getD v []) cloud.length D ∧
    ∀ n, n + 1 < E.columns.length → ∀ l < E.spx (n + 1), ∃ k < E.spx n, ∀ pts pts',
      E.pts n k = .ok pts → E.pts (n + 1) l = .ok pts' → pts' ⊆ pts
  nerve : ∃ N S adj, NerveOK E N S adj

/-- The pages and the result were computed from the first page. -/
structure MVOut.Run (rnd : K → K) (out : MVOut K) : Prop where
  pages : allPages rnd out.env (out.env.spxNumber.length - 1) = .ok out.pages
  list : persistentList rnd out.env out.pages out.env.spxNumber.length = .ok out.persistentHomology

end

section

variable {K : Type} [Field K] [LinearOrder K] [IsStrictOrderedRing K] {rnd : K → K} {E : SSEnv K}
  {ρ : List ℕ → K}

/-- With two columns only, the Čech differential is injective. -/
theorem NerveOK.cechInj {N : ℕ} {S : ℕ → List (List ℕ)} {adj : ℕ → ℕ → Prop} (H : NerveOK E N S adj)
    (h : SSOK rnd E ρ) (hc : E.columns.length = 2) (D : Mat) (hD : E.nerveDiff[0]? = some D) : E.CechInj ρ D := by
  intro deg hdeg t c hp hz l hl
  obtain ⟨D', hD'⟩ := h.hasDiff 1 (by omega)
  obtain ⟨q, -, hq⟩ := cech_exact_succ h H (n := 0) (by omega) hdeg hD hD' hp hz
  have h2 : E.spx 2 = 0 := by rw [← hc]; exact H.last
  rw [hq l hl]
  unfold SSEnv.cechSum
  simp [h2]

end

section

variable {K : Type} [Field K] [LinearOrder K] [IsStrictOrderedRing K] [FloorRing K]
  {pdist : List (List K) → List (List K)} {d : List K → List K → K} {argsort : List K → List Nat}
  {rnd : K → K} {maxR : K} {maxDim dim : ℕ} {cloud : List (List K)} {p : ℕ} {div : List ℕ}
  {In : List ℕ → ℕ → Prop} {out : CoverOut K} {C : List (List (List ℕ))} {L : List (List ℕ)} {E : SSEnv K}

/-- A cover by a grid. -/
theorem GridCover.coveredEnv (hG : GridCover cloud div In out C L) (hp : p.Prime) (hdist : IsDistTable pdist d)
    (ha : IsArgsort argsort) (hmax : 0 < maxR) (hne : cloud ≠ []) (hdim : 0 < dim) (hdl : div.length = dim)
    (hpos : ∀ x ∈ div, 0 < x)
    (hconv : ∀ p q r i, In p i → In q i → (∀ j < dim, min (p.getD j 0) (q.getD j 0) ≤ r.getD j 0 ∧
      r.getD j 0 ≤ max (p.getD j 0) (q.getD j 0)) → In r i)
    (hcov : ∀ s : List ℕ, s ≠ [] → (∀ v ∈ s, v < cloud.length) →
      (∀ u ∈ s, ∀ v ∈ s, u < v → d (cloud.getD v []) (cloud.getD u []) < maxR) →
      ∃ pos, IsPos div pos ∧ ∀ v ∈ s, In pos v) (rnd : K → K) (maxDim : ℕ) :
    ∃ E, envOf pdist argsort rnd maxR maxDim p out = .ok E ∧
      CoveredEnv pdist d argsort rnd maxR maxDim dim cloud p E := by
  obtain ⟨E, h1, hS, h3, h4, h5, h6, h7, h8, -⟩ := envOf_ok hp hdist ha rnd hmax maxDim hdl hG
  exact ⟨E, h1, ⟨⟨hp, hdist, ha, hmax, hne, hdim, hS, h3, h4, h5, h7, h6, h8⟩,
    envOf_coverOK hp hdist ha hmax hdl hG hpos hconv hdim hcov h1,
    envOf_nerveOK hp hdist ha hmax hdl hG hpos hconv h1⟩⟩

end

end Permaviss
