import Verif.Lemmas.RunEnv
import Verif.Lemmas.MPHAll
import Verif.Lemmas.PageTwo
import Verif.Props.ZigZag

/-!
# The second page (C60)
-/

namespace Permaviss

open Finset

/-- Row `deg` of the first page as a chain complex: the barcodes of the columns and the differentials
between them. -/
structure FirstPageRow {K : Type} [LinearOrder K] [Zero K] (E : SSEnv K) (deg : ℕ)
    (D : List Mat) (Base : List (Basis K)) : Prop where
  bars : ∀ n, barsAt Base n = if n < E.columns.length then E.firstBars deg n else []
  diff : ∀ n, n + 1 < E.columns.length → firstDifferential E n deg = .ok (diffAt D (n + 1))

section

variable {K : Type} [Field K] [LinearOrder K] [FloorRing K] [IsStrictOrderedRing K]
  {pdist : List (List K) → List (List K)} {d : List K → List K → K} {argsort : List K → List Nat}
  {rnd : K → K} {maxR : K} {maxDim maxDiv dim : ℕ} {overlap : K} {cloud : List (List K)} {p : ℕ}
  {lo hi : ℕ → K} {side : K}

/-- The parts of a run of `create_MV_ss`. -/
theorem createMVss_parts {out : MVOut K}
    (h : createMVss pdist argsort rnd maxR maxDim maxDiv overlap dim cloud p = .ok out) :
    createEnv pdist argsort rnd maxR maxDim maxDiv overlap dim cloud p = .ok out.env ∧
      allPages rnd out.env (out.env.spxNumber.length - 1) = .ok out.pages ∧
      persistentList rnd out.env out.pages out.env.spxNumber.length = .ok out.persistentHomology := by
  unfold createMVss at h
  rw [bind_ok] at h
  obtain ⟨E, h1, h⟩ := h
  rw [bind_ok] at h
  obtain ⟨S, h2, h⟩ := h
  rw [bind_ok] at h
  obtain ⟨ph, h3, h⟩ := h
  cases h
  exact ⟨h1, h2, h3⟩

theorem MVInput.env' (h : MVInput pdist d argsort maxR maxDiv dim cloud p lo hi side) {E : SSEnv K}
    (hE : createEnv pdist argsort rnd maxR maxDim maxDiv overlap dim cloud p = .ok E) :
    E.noPages = min (maxDim + 2) (2 ^ dim) ∧ E.spxNumber.length = 2 ^ dim + 1 := by
  obtain ⟨E', _, _, _, h1, -, -, -, -, h6, -, h8, -⟩ := createEnv_ok h.prime h.dist h.sort rnd h.radius
    maxDim overlap h.points h.dim_pos h.div_pos h.box h.side_pos
  rw [hE] at h1
  obtain rfl := Except.ok.inj h1
  exact ⟨h6, h8⟩

theorem RunEnv.facts {E : SSEnv K} (h : RunEnv pdist d argsort rnd maxR maxDim dim cloud p E) :
    SSOK rnd E (diam d fun v => cloud.getD v []) ∧ E.p = p ∧ E.maxR = maxR ∧ E.rows = maxDim ∧
      E.columns.length = 2 ^ dim := ⟨h.ok, h.char, h.bound, h.rows, h.cols⟩

theorem MVInput.runEnv (h : MVInput pdist d argsort maxR maxDiv dim cloud p lo hi side) {E : SSEnv K}
    (hE : createEnv pdist argsort rnd maxR maxDim maxDiv overlap dim cloud p = .ok E) :
    RunEnv pdist d argsort rnd maxR maxDim dim cloud p E := by
  obtain ⟨hOK, h1, h2, h3, h4⟩ := h.env hE
  obtain ⟨h5, h6⟩ := h.env' hE
  exact ⟨h.prime, h.dist, h.sort, h.radius, h.points, h.dim_pos, hOK, h1, h2, h3, h4, h5, h6⟩

theorem createMVss_run {out : MVOut K}
    (h : createMVss pdist argsort rnd maxR maxDim maxDiv overlap dim cloud p = .ok out) : out.Run rnd :=
  ⟨(createMVss_parts h).2.1, (createMVss_parts h).2.2⟩

/-- The second page, for any cover; see `C60_second_page_partial`. -/
theorem RunEnv.second_page {out : MVOut K} (h : RunEnv pdist d argsort rnd maxR maxDim dim cloud p out.env) (hrun : out.Run rnd)
    (deg : ℕ) (hdeg : deg < maxDim)
    (hround : ∀ n m, ∀ a ∈ out.env.firstBars deg n, ∀ b ∈ out.env.firstBars deg m,
      ∀ x, x = a.1 ∨ x = a.2 → ∀ y, y = b.1 ∨ y = b.2 → rnd x ≤ rnd y → x ≤ y) :
    ∃ D Base, FirstPageRow out.env deg D Base ∧
      (∀ n t, modBounds p D Base n t ≤ modCycles p D Base n t) ∧
      ∀ n < 2 ^ dim, (∀ b ∈ (out.pages.hom 1 n deg).basis.barcode, b.1 < b.2) ∧
        ((∀ s t, s ≤ t → barsThrough (out.pages.hom 1 n deg).basis.barcode s t = homRank p D Base n s t) ↔
          ¬ (0 < n ∧ barsAt Base (n - 1) = [] ∧ ∃ t, modBounds p D Base n t ≠ ⊥)) := by
  obtain ⟨hS, -⟩ := hrun
  obtain ⟨hOK, h1, h2, h3, h4⟩ := h.facts
  have h5 := h.pages
  have h6 := h.numbers
  have hpow : 0 < 2 ^ dim := by positivity
  obtain ⟨base, diffs, hrow⟩ := row_input hOK (by omega) (by omega) hround
  refine ⟨⟨0, []⟩ :: diffs, base, ⟨hrow.bars, hrow.diff⟩, ?_, ?_⟩
  · rw [← h1]; exact hrow.input.complex
  · intro n hn
    have := Fact.mk h.prime
    rw [show out.env.spxNumber.length - 1 = out.env.columns.length by omega] at hS
    obtain rfl := h1
    have := (second_page_all hOK (by omega) (by omega) hS (by omega) hround hrow (n := n) (by omega)).1
    exact ⟨this.bars hrow.input.bars, this.right_iff hrow.input.bars (hrow.input.complex n)⟩

/-- **C60**, with the exact exception.  If `create_MV_ss` returns, the bars of the second page at position
`(n, deg)` are those of the homology of row `deg` of the first page (for `s ≤ t`, the number of bars that
contain `s` and `t` is the rank of the map from `s` to `t` in the homology, at column `n`, of the complex of
persistence modules made of the first page and its differentials) exactly when it is not the case that column
`n - 1` of the row has no classes and some classes of column `n` are boundaries.  A position of this kind does
no harm to the others.  The rounding must not put two ends of bars of the row in the wrong order. -/
theorem C60_second_page_partial (h : MVInput pdist d argsort maxR maxDiv dim cloud p lo hi side)
    (out : MVOut K) (hrun : createMVss pdist argsort rnd maxR maxDim maxDiv overlap dim cloud p = .ok out)
    (deg : ℕ) (hdeg : deg < maxDim)
    (hround : ∀ n m, ∀ a ∈ out.env.firstBars deg n, ∀ b ∈ out.env.firstBars deg m,
      ∀ x, x = a.1 ∨ x = a.2 → ∀ y, y = b.1 ∨ y = b.2 → rnd x ≤ rnd y → x ≤ y) :
    ∃ D Base, FirstPageRow out.env deg D Base ∧
      (∀ n t, modBounds p D Base n t ≤ modCycles p D Base n t) ∧
      ∀ n < 2 ^ dim, (∀ b ∈ (out.pages.hom 1 n deg).basis.barcode, b.1 < b.2) ∧
        ((∀ s t, s ≤ t → barsThrough (out.pages.hom 1 n deg).basis.barcode s t = homRank p D Base n s t) ↔
          ¬ (0 < n ∧ barsAt Base (n - 1) = [] ∧ ∃ t, modBounds p D Base n t ≠ ⊥)) := by
  exact (h.runEnv (createMVss_parts hrun).1).second_page (createMVss_run hrun) deg hdeg hround

end

/-- The hypotheses are met: the rectangle with `max_dim = 2`; all four columns of row `1` have classes, so
the row has no gap, and the second page keeps one class. -/
example : MVInput rectDist rectD stableArgsort 6 2 2 rectCloud 5 (fun _ => 0) (fun d => 3 + d) 2 ∧
    (rectRun.map fun o => (List.range 4).map fun n => o.env.firstBars 1 n) = .ok
      [List.replicate 4 (4, 5), List.replicate 6 (4, 5), List.replicate 4 (4, 5), [(4, 5)]] ∧
    (rectRun.map fun o => (List.range 4).map fun n => (o.pages.hom 1 n 1).basis.barcode) =
      .ok [[(4, 5)], [], [], []] := by
  refine ⟨rect_input, ?_, ?_⟩ <;> decide +kernel

end Permaviss
