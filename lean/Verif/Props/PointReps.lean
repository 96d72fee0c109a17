import Verif.Lemmas.ZeroReps
import Verif.Props.Loops

/-!
# The points and the cycles stored with the first column (C93)
-/

namespace Permaviss

open Finset

attribute [-instance] instMulZeroClassOfSemiring

section

variable {K : Type} [Field K] [LinearOrder K] [FloorRing K] [IsStrictOrderedRing K]
  {pdist : List (List K) → List (List K)} {d : List K → List K → K} {argsort : List K → List Nat}
  {rnd : K → K} {maxR : K} {maxDim maxDiv dim : ℕ} {overlap : K} {cloud : List (List K)} {p : ℕ}
  {lo hi : ℕ → K} {side : K}

/-- Degree zero, for any cover; see `C93_components`. -/
theorem CoveredEnv.component_reps {out : MVOut K} (h : CoveredEnv pdist d argsort rnd maxR maxDim dim cloud p out.env)
    (hround : ∀ x y, BarEnd d maxR cloud x → BarEnd d maxR cloud y → rnd x ≤ rnd y → x ≤ y)
    (hrun : out.Run rnd) :
    ∃ (B : Basis K) (X : LChains), out.persistentHomology[0]? = some B ∧
      (B.barcode ≠ [] → out.pages.reps (out.env.noPages - 1) 0 0 = [X]) ∧
      CycleBasis p (cloudDist pdist cloud) cloud.length 0 maxR B.barcode (cubesSum p out.env 0 X) := by
  obtain ⟨hS, hph⟩ := id hrun
  obtain ⟨hOK, h1, h2, h3, h4⟩ := h.facts
  have h5 := h.pages
  have h6 := h.numbers
  obtain ⟨D, hC, -⟩ := h.cover
  have hrows : 0 < maxDim := by
    by_contra hc
    unfold persistentList at hph
    rw [if_pos (by omega)] at hph
    exact absurd hph (by simp)
  have hfirst : out.persistentHomology[0]? =
      some (out.pages.hom (out.env.noPages - 1) 0 0).basis := by
    unfold persistentList at hph
    rw [if_neg (by omega), bind_ok] at hph
    obtain ⟨rest, -, hph⟩ := hph
    rw [← Except.ok.inj hph]
    rfl
  have hSS : allPages rnd out.env out.env.columns.length = .ok out.pages := by
    rw [h6, Nat.add_sub_cancel, ← h4] at hS
    exact hS
  have hdpos := h.dim_pos
  have hpow : 2 ≤ 2 ^ dim := by
    calc 2 = 2 ^ 1 := rfl
      _ ≤ 2 ^ dim := Nat.pow_le_pow_right (by omega) (by omega)
  have hF := Fact.mk hOK.prime
  obtain ⟨X, L⟩ := component_cycles hOK hC (by omega) (fun n m a ha b hb x hx y hy => by
      have hA := h.bar_ends 0 (by omega) n a ha
      have hB := h.bar_ends 0 (by omega) m b hb
      refine hround x y ?_ ?_
      · rcases hx with rfl | rfl
        · exact hA.1
        · exact hA.2
      · rcases hy with rfl | rfl
        · exact hB.1
        · exact hB.2) (by omega) (by omega) hSS
  obtain ⟨BD, hR⟩ := L.res
  have := h.cycleBasis hF L.wf hR
  refine ⟨_, X, hfirst, L.reps, ?_⟩
  subst h1
  rw [show cubesSum out.env.p out.env 0 X = fun j => out.env.valSum 0 X j from funext fun _ => cubesSum_eq]
  exact this

/-- Diagonals with one entry, for any cover; see `C93_one_entry`. -/
theorem CoveredEnv.one_entry_reps {out : MVOut K} (h : CoveredEnv pdist d argsort rnd maxR maxDim dim cloud p out.env)
    (hround : ∀ x y, BarEnd d maxR cloud x → BarEnd d maxR cloud y → rnd x ≤ rnd y → x ≤ y)
    (hrun : out.Run rnd) {e : ℕ} (he : e + 1 < maxDim) (hone : OneEntry out dim e) :
    ∃ X : LChains, ((out.pages.hom 1 0 (e + 1)).basis.barcode ≠ [] → out.pages.reps 1 0 (e + 1) = [X]) ∧
      CycleBasis p (cloudDist pdist cloud) cloud.length (e + 1) maxR (out.pages.hom 1 0 (e + 1)).basis.barcode
        (cubesSum p out.env (e + 1) X) := by
  obtain ⟨hS, -⟩ := id hrun
  obtain ⟨hOK, h1, h2, h3, h4⟩ := h.facts
  have h5 := h.pages
  have h6 := h.numbers
  obtain ⟨D, hC, -⟩ := h.cover
  obtain ⟨N, S, adj, H⟩ := h.nerve
  have hSS : allPages rnd out.env out.env.columns.length = .ok out.pages := by
    rw [h6, Nat.add_sub_cancel, ← h4] at hS
    exact hS
  have hdpos := h.dim_pos
  have hpow : 2 ≤ 2 ^ dim := by
    calc 2 = 2 ^ 1 := rfl
      _ ≤ 2 ^ dim := Nat.pow_le_pow_right (by omega) (by omega)
  have hF := Fact.mk hOK.prime
  obtain ⟨X, L⟩ := collapse_cycles hOK hC H (e := e) (by omega) (by omega) (by omega)
    (fun i hi n m a ha b hb x hx y hy => by
      have hA := h.bar_ends i (by omega) n a ha
      have hB := h.bar_ends i (by omega) m b hb
      refine hround x y ?_ ?_
      · rcases hx with rfl | rfl
        · exact hA.1
        · exact hA.2
      · rcases hy with rfl | rfl
        · exact hB.1
        · exact hB.2)
    hSS (fun n deg hn hc => hone n deg (by omega) hc)
  obtain ⟨BD, hR⟩ := L.res
  have := h.cycleBasis hF L.wf hR
  refine ⟨X, L.reps, ?_⟩
  subst h1
  rw [show cubesSum out.env.p out.env (e + 1) X = fun j => out.env.valSum (e + 1) X j from
    funext fun _ => cubesSum_eq]
  exact this

/-- **C93**, degree zero, for any cover: if `create_MV_ss` returns, then the chains of points stored with the first
barcode of its result, summed over the cubes, represent a basis of the homology of degree zero of the whole cloud at
every radius below `max_r`: up to boundaries of edges every combination of points is, in exactly one way, a
combination of the stored ones whose bars contain the radius. -/
theorem C93_components (h : MVInput pdist d argsort maxR maxDiv dim cloud p lo hi side)
    (hw : ∀ i < dim, lo i < hi i) (ho : maxR ≤ overlap)
    (hcoord : ∀ a ∈ cloud, ∀ b ∈ cloud, ∀ i < dim, |a.getD i 0 - b.getD i 0| ≤ d a b)
    (hround : ∀ x y, BarEnd d maxR cloud x → BarEnd d maxR cloud y → rnd x ≤ rnd y → x ≤ y)
    (out : MVOut K) (hrun : createMVss pdist argsort rnd maxR maxDim maxDiv overlap dim cloud p = .ok out) :
    ∃ (B : Basis K) (X : LChains), out.persistentHomology[0]? = some B ∧
      (B.barcode ≠ [] → out.pages.reps (out.env.noPages - 1) 0 0 = [X]) ∧
      CycleBasis p (cloudDist pdist cloud) cloud.length 0 maxR B.barcode (cubesSum p out.env 0 X) :=
  (h.coveredEnv hw ho hcoord (createMVss_parts hrun).1).component_reps hround (createMVss_run hrun)

/-- **C93**, higher degrees: if the second page has no classes outside the first column in total degree `e + 1` and
outside the first two columns in total degree `e + 2`, the chains stored with the first column of the second page,
summed over the cubes, represent a basis of the homology of degree `e + 1` of the whole cloud. -/
theorem C93_one_entry (h : MVInput pdist d argsort maxR maxDiv dim cloud p lo hi side)
    (hw : ∀ i < dim, lo i < hi i) (ho : maxR ≤ overlap)
    (hcoord : ∀ a ∈ cloud, ∀ b ∈ cloud, ∀ i < dim, |a.getD i 0 - b.getD i 0| ≤ d a b)
    (hround : ∀ x y, BarEnd d maxR cloud x → BarEnd d maxR cloud y → rnd x ≤ rnd y → x ≤ y)
    (out : MVOut K) (hrun : createMVss pdist argsort rnd maxR maxDim maxDiv overlap dim cloud p = .ok out)
    {e : ℕ} (he : e + 1 < maxDim) (hone : OneEntry out dim e) :
    ∃ X : LChains, ((out.pages.hom 1 0 (e + 1)).basis.barcode ≠ [] → out.pages.reps 1 0 (e + 1) = [X]) ∧
      CycleBasis p (cloudDist pdist cloud) cloud.length (e + 1) maxR (out.pages.hom 1 0 (e + 1)).basis.barcode
        (cubesSum p out.env (e + 1) X) :=
  (h.coveredEnv hw ho hcoord (createMVss_parts hrun).1).one_entry_reps hround (createMVss_run hrun) he hone

end

/-- What is stored in degree zero for the four corners of a rectangle: a point, which stays until `max_r`, and
differences of points, which vanish when the two points are joined. -/
theorem rect_points : (rectRun.map fun o => ((o.pages.hom (o.env.noPages - 1) 0 0).basis.barcode,
      (o.pages.reps (o.env.noPages - 1) 0 0).flatMap fun X =>
        (List.range 4).map fun g => (List.range (o.env.spx 0)).flatMap fun k =>
          (List.range (o.env.G 0 k 0).length).filterMap fun j =>
            if X.val k g j = 0 then none else some ((o.env.G 0 k 0).getD j [], X.val k g j))) =
    .ok ([(0, 6), (0, 4), (0, 3), (0, 3)],
      [[([0], 1)], [([1], 1), ([2], 4)], [([0], 1), ([1], 4)], [([2], 1), ([3], 4)]]) := by
  decide +kernel

/-- C93 applies to the rectangle; `X` are the chains of `rect_points`. -/
example : ∃ out X, rectRun = .ok out ∧ out.pages.reps (out.env.noPages - 1) 0 0 = [X] ∧
    CycleBasis 5 (cloudDist rectDist rectCloud) rectCloud.length 0 6 [(0, 6), (0, 4), (0, 3), (0, 3)]
      (cubesSum 5 out.env 0 X) := by
  have hrun := rect_points
  cases hr : rectRun with
  | error e => rw [hr] at hrun; cases hrun
  | ok out =>
    rw [hr] at hrun
    have h1 := congrArg Prod.fst (Except.ok.inj hrun)
    obtain ⟨B, X, hB, hX, hC⟩ := C93_components rect_input (fun i _ => by
        have : (0 : ℚ) ≤ (i : ℚ) := Nat.cast_nonneg i
        linarith) (by norm_num) (by decide +kernel)
      (fun x y _ _ h => h) out hr
    have hBe : B = (out.pages.hom (out.env.noPages - 1) 0 0).basis := by
      have hph := (createMVss_run hr).list
      unfold persistentList at hph
      split at hph
      · cases hph
      rw [bind_ok] at hph
      obtain ⟨rest, -, hph⟩ := hph
      rw [← Except.ok.inj hph] at hB
      exact (Option.some.inj hB).symm
    dsimp only at h1
    rw [hBe, h1] at hX hC
    exact ⟨out, X, rfl, hX (by simp), hC⟩

/-- C93 applies to the octahedron in degree two; the sphere stored is that of `octa_reps`. -/
example : ∃ out X, octaRun = .ok out ∧ OneEntry out 2 1 ∧ out.pages.reps 1 0 2 = [X] ∧
    CycleBasis 3 (cloudDist octaDist octaCloud) octaCloud.length 2 4 [(2, 3)] (cubesSum 3 out.env 2 X) := by
  have hrun := octa_run
  have hreps := octa_reps
  cases hr : octaRun with
  | error e => rw [hr] at hrun; cases hrun
  | ok out =>
    rw [hr] at hrun hreps
    have h2 := congrArg (fun x => x.2.2) (Except.ok.inj hrun)
    have h3 := congrArg Prod.fst (Except.ok.inj hreps)
    have hone : OneEntry out 2 1 := by
      intro n deg hn hc
      by_contra hne
      have hm : (n, deg) ∈ ((List.range 4).flatMap fun n => (List.range 4).map fun deg => (n, deg)).filter
          fun x => (out.pages.hom 1 x.1 x.2).basis.barcode != [] := by
        rw [List.mem_filter]
        refine ⟨?_, by simpa using hne⟩
        rw [List.mem_flatMap]
        exact ⟨n, List.mem_range.2 hn, List.mem_map.2 ⟨deg, List.mem_range.2 (by omega), rfl⟩⟩
      dsimp only at h2
      rw [h2] at hm
      simp only [List.mem_cons, Prod.mk.injEq, List.not_mem_nil, or_false] at hm
      omega
    obtain ⟨X, hX, hC⟩ := C93_one_entry octa_input (by decide +kernel) (by norm_num) (by decide +kernel)
      (fun x y _ _ h => h) out hr (e := 1) (by norm_num) hone
    dsimp only at h3
    rw [h3] at hX hC
    exact ⟨out, X, rfl, hone, hX (by simp), hC⟩

end Permaviss
