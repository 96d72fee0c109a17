import Verif.Props.Tree
import Verif.Props.Components

/-!
# Shortest connecting trees computed with a cover (C105)
-/

namespace Permaviss

attribute [-instance] instMulZeroClassOfSemiring

section

variable {K : Type} [Field K] [LinearOrder K] [FloorRing K] [IsStrictOrderedRing K]
  {pdist : List (List K) → List (List K)} {d : List K → List K → K} {argsort : List K → List Nat} {rnd : K → K}
  {maxR : K} {maxDim maxDiv : ℕ} {overlap : K} {dim : ℕ} {cloud : List (List K)} {p : ℕ} {lo hi : ℕ → K} {side : K}

/-- **C105**, with a cover: when `create_MV_ss` returns, its first barcode consists of `[0, max_r)` and of the lengths of
the edges of a shortest tree that connects the points, although no cube may contain all of them. -/
theorem C105_cover (h : MVInput pdist d argsort maxR maxDiv dim cloud p lo hi side) (hsym : ∀ a b, d a b = d b a)
    (hw : ∀ i < dim, lo i < hi i) (ho : maxR ≤ overlap)
    (hcoord : ∀ a ∈ cloud, ∀ b ∈ cloud, ∀ i < dim, |a.getD i 0 - b.getD i 0| ≤ d a b)
    (out : MVOut K) (hrun : createMVss pdist argsort rnd maxR maxDim maxDiv overlap dim cloud p = .ok out)
    (hround : ∀ n m, ∀ a ∈ out.env.firstBars 0 n, ∀ b ∈ out.env.firstBars 0 m,
      ∀ x, x = a.1 ∨ x = a.2 → ∀ y, y = b.1 ∨ y = b.2 → rnd x ≤ rnd y → x ≤ y) :
    ∃ (B : Basis K) (T : List (Fin cloud.length × Fin cloud.length)), out.persistentHomology[0]? = some B ∧
      Connects T ∧ T.length + 1 = cloud.length ∧
      B.barcode.Perm ((0, maxR) ::
        ((T.map (edgeLength d cloud)).filter fun x => decide (0 < x)).map fun x => (0, min x maxR)) ∧
      ∀ T' : List (Fin cloud.length × Fin cloud.length), Connects T' → ∀ t,
        (T.filter fun e => decide (t < edgeLength d cloud e)).length ≤
          (T'.filter fun e => decide (t < edgeLength d cloud e)).length := by
  obtain ⟨B, L, B', h1, h2, h3, h4⟩ := C61_components h hw ho hcoord out hrun hround
  obtain ⟨B'', T, g1, g2, g3, g4, g5⟩ := C105_shortest_tree h.prime h.dist hsym h.sort rnd h.points h.radius maxDim h2
  rw [h3] at g1
  obtain rfl := Option.some.inj g1
  exact ⟨B, T, h1, g2, g3, h4.trans g4, g5⟩

end

/-- The hypotheses are met by the four corners of a rectangle.  The shortest tree has two sides of length three and one
of length four. -/
example : MVInput rectDist rectD stableArgsort 6 2 2 rectCloud 5 (fun _ => 0) (fun d => 3 + d) 2 ∧
    (∀ i : ℕ, i < 2 → (0 : ℚ) < 3 + (i : ℚ)) ∧ (6 : ℚ) ≤ 7 ∧ (∀ a b, rectD a b = rectD b a) ∧
    (∀ a ∈ rectCloud, ∀ b ∈ rectCloud, ∀ i < 2, |a.getD i 0 - b.getD i 0| ≤ rectD a b) ∧
    (rectRun.map fun o => (o.persistentHomology.take 1).map fun B => B.barcode) =
      .ok [[(0, 6), (0, 4), (0, 3), (0, 3)]] := by
  refine ⟨rect_input, ?_, by norm_num, ?_, by decide +kernel, by decide +kernel⟩
  · intro i _
    have : (0 : ℚ) ≤ (i : ℚ) := Nat.cast_nonneg i
    linarith
  · intro a b
    unfold rectD
    simp only [eq_comm (a := a.getD 0 0), eq_comm (a := a.getD 1 0)]

end Permaviss
