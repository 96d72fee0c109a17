import Verif.Lemmas.CubeCycles
import Verif.Props.OneEntry

/-!
# The cycles stored with the first column of the second page (C77)
-/

namespace Permaviss

open Finset

attribute [-instance] instMulZeroClassOfSemiring

section

/-- The chain stored for the cube `k` in expression `g` of the local coordinates `X`, as a chain of simplices of
the whole cloud: column `j` of the stored matrix is the coefficient of the simplex `j` of the cube. -/
noncomputable def cubeChain {K : Type} (p : ℕ) (E : SSEnv K) (deg : ℕ) (X : LChains) (g k : ℕ) :
    List ℕ →₀ ZMod p :=
  toChain (ZMod p) (E.G 0 k deg) fun j => (X.val k g j : ZMod p)

/-- The sum of the chains stored for all the cubes. -/
noncomputable def cubesSum {K : Type} (p : ℕ) (E : SSEnv K) (deg : ℕ) (X : LChains) (g : ℕ) :
    List ℕ →₀ ZMod p :=
  ∑ k ∈ range (E.spx 0), cubeChain p E deg X g k

variable {K : Type} [Field K] [LinearOrder K] [FloorRing K] [IsStrictOrderedRing K]
  {pdist : List (List K) → List (List K)} {d : List K → List K → K} {argsort : List K → List Nat}
  {rnd : K → K} {maxR : K} {maxDim maxDiv dim : ℕ} {overlap : K} {cloud : List (List K)} {p : ℕ}
  {lo hi : ℕ → K} {side : K}

/-- **C77**: if `create_MV_ss` returns, then in every degree below `max_dim` the representatives stored with the
first column of the second page are a generating set for the cycles in the cubes.  If there are bars, one list
`X` of local coordinates is stored, and for the bar `g = [b, d)`:

* on every cube the chain stored is a cycle of the Vietoris-Rips complex at `b` with all its vertices in the
  cube,
* from `d` on, the sum over the cubes is a boundary of the Vietoris-Rips complex of the whole cloud,

and for `0 ≤ t < max_r` every cycle of the Vietoris-Rips complex at `t` with vertices in one cube is a combination
of sums for the bars that contain `t`, up to a boundary. -/
theorem C77_cube_cycles (h : MVInput pdist d argsort maxR maxDiv dim cloud p lo hi side)
    (hw : ∀ i < dim, lo i < hi i) (ho : maxR ≤ overlap)
    (hcoord : ∀ a ∈ cloud, ∀ b ∈ cloud, ∀ i < dim, |a.getD i 0 - b.getD i 0| ≤ d a b)
    (hround : ∀ x y, BarEnd d maxR cloud x → BarEnd d maxR cloud y → rnd x ≤ rnd y → x ≤ y)
    (out : MVOut K) (hrun : createMVss pdist argsort rnd maxR maxDim maxDiv overlap dim cloud p = .ok out)
    (deg : ℕ) (hdeg : deg < maxDim) :
    ∃ X : LChains, ((out.pages.hom 1 0 deg).basis.barcode ≠ [] → out.pages.reps 1 0 deg = [X]) ∧
      (∀ g b, (out.pages.hom 1 0 deg).basis.barcode[g]? = some b → 0 ≤ b.1 ∧ b.1 < b.2 ∧ b.2 ≤ maxR ∧
        (∀ k < out.env.spx 0, ∀ pts, out.env.pts 0 k = .ok pts →
          cubeChain p out.env deg X g k ∈ vrCycles (ZMod p) (cloudDist pdist cloud) cloud.length deg b.1 ∧
          ∀ s ∈ (cubeChain p out.env deg X g k).support, ∀ v ∈ s, v ∈ pts) ∧
        ∀ t, b.2 ≤ t → t < maxR → cubesSum p out.env deg X g ∈
          vrBoundaries (ZMod p) (cloudDist pdist cloud) cloud.length deg t) ∧
      ∀ t, 0 ≤ t → t < maxR → ∀ k < out.env.spx 0, ∀ pts, out.env.pts 0 k = .ok pts →
        ∀ z ∈ vrCycles (ZMod p) (cloudDist pdist cloud) cloud.length deg t,
        (∀ s ∈ z.support, ∀ v ∈ s, v ∈ pts) →
        ∃ c : ℕ → ZMod p, (∀ g, ¬ AliveBar (out.pages.hom 1 0 deg).basis.barcode g t → c g = 0) ∧
          z - ∑ g ∈ range (out.pages.hom 1 0 deg).basis.barcode.length, c g • cubesSum p out.env deg X g ∈
            vrBoundaries (ZMod p) (cloudDist pdist cloud) cloud.length deg t := by
  obtain ⟨hE, hS, -⟩ := createMVss_parts hrun
  obtain ⟨hOK, h1, h2, h3, h4⟩ := h.env hE
  obtain ⟨h5, h6⟩ := h.env' hE
  have hdpos := h.dim_pos
  have hpow : 2 ≤ 2 ^ dim := by
    calc 2 = 2 ^ 1 := rfl
      _ ≤ 2 ^ dim := Nat.pow_le_pow_right (by omega) (by omega)
  obtain ⟨D, hC, -⟩ := h.coverOK hw ho hcoord hE
  have hSS : allPages rnd out.env out.env.columns.length = .ok out.pages := by
    rw [h6, Nat.add_sub_cancel, ← h4] at hS
    exact hS
  have hc0 : 0 < out.env.columns.length := by omega
  have hde : deg < out.env.rows := by omega
  obtain ⟨w, w1, w2, w3⟩ := first_column_cycles hOK hC hde
    (fun n m a ha b hb x hx y hy => by
      have hA := C68_bar_ends h hw ho hcoord hE deg hdeg n a ha
      have hB := C68_bar_ends h hw ho hcoord hE deg hdeg m b hb
      refine hround x y ?_ ?_
      · rcases hx with rfl | rfl
        · exact hA.1
        · exact hA.2
      · rcases hy with rfl | rfl
        · exact hB.1
        · exact hB.2)
    (fun b hb => by
      rcases (C68_bar_ends h hw ho hcoord hE deg hdeg 0 b hb).1 with e | e | ⟨x, hx, y, hy, e⟩
      · exact e.ge
      · rw [e]; exact h.radius.le
      · rw [e]; exact (abs_nonneg _).trans (hcoord x hx y hy 0 hdpos))
    (by omega) (by omega) hSS
  subst h1
  have ev : ∀ e t, 0 ≤ t → vrChains (ZMod out.env.p) (cloudDist pdist cloud) cloud.length e t =
      out.env.chG (diam d fun v => cloud.getD v []) cloud.length e t := by
    intro e t ht
    refine vrChains_eq ?_ ht
    intro u hu v hv
    exact cloudDist_eq h.dist hu hv
  have eZ : ∀ t, 0 ≤ t → vrCycles (ZMod out.env.p) (cloudDist pdist cloud) cloud.length deg t =
      out.env.ZG (diam d fun v => cloud.getD v []) cloud.length deg t := by
    intro t ht
    unfold vrCycles SSEnv.ZG
    rw [ev _ _ ht]
  have eB : ∀ t, 0 ≤ t → vrBoundaries (ZMod out.env.p) (cloudDist pdist cloud) cloud.length deg t =
      out.env.BG (diam d fun v => cloud.getD v []) cloud.length deg t := by
    intro t ht
    unfold vrBoundaries SSEnv.BG
    rw [ev _ _ ht]
  obtain ⟨X, hX, hXv⟩ : ∃ X : LChains, ((out.pages.hom 1 0 deg).basis.barcode ≠ [] → out.pages.reps 1 0 deg = [X]) ∧
      ∀ k < out.env.spx 0, ∀ g < (out.pages.hom 1 0 deg).basis.barcode.length,
        (fun j => (X.val k g j : ZMod out.env.p)) = w g k := by
    by_cases hne : (out.pages.hom 1 0 deg).basis.barcode = []
    · exact ⟨[], fun hc => absurd hne hc, fun k _ g hg => by rw [hne] at hg; cases hg⟩
    · obtain ⟨X, x1, x2⟩ := w1 hne
      exact ⟨X, fun _ => x1, x2⟩
  have hcc : ∀ k < out.env.spx 0, ∀ g < (out.pages.hom 1 0 deg).basis.barcode.length,
      cubeChain out.env.p out.env deg X g k = out.env.gl 0 k deg (w g k) := by
    intro k hk g hg
    unfold cubeChain
    rw [hXv k hk g hg]; rfl
  have hcs : ∀ g < (out.pages.hom 1 0 deg).basis.barcode.length,
      cubesSum out.env.p out.env deg X g = out.env.glSum deg (w g) := by
    intro g hg
    unfold cubesSum
    rw [glSum_eq]
    exact Finset.sum_congr rfl fun k hk => hcc k (mem_range.1 hk) g hg
  refine ⟨X, hX, fun g b hb => ?_, fun t ht0 ht k hk pts hpts z hz hin => ?_⟩
  · have hg := (List.getElem?_eq_some_iff.1 hb).1
    obtain ⟨b0, b1, b2, b3, b4⟩ := w2 g b hb
    refine ⟨b0, b1, h2 ▸ b2, fun k hk pts hpts => ?_, fun t hbt ht => ?_⟩
    · rw [hcc k hk g hg, eZ _ b0]
      constructor
      · have := glSum_cycle hOK hC hde (w := fun l => if l = k then w g k else 0) (t := b.1) fun l hl => by
          by_cases hlk : l = k
          · subst hlk; rw [if_pos rfl]; exact b3 l hl
          · rw [if_neg hlk]; exact ⟨fun i hi => absurd rfl hi, map_zero _⟩
        rwa [glSum_eq, Finset.sum_eq_single k (fun l _ hl => by rw [if_neg hl, map_zero])
          (fun hn => absurd (mem_range.2 hk) hn), if_pos rfl] at this
      · intro s hs
        by_cases hsG : s ∈ out.env.G 0 k deg
        · exact ((hOK.mem 0 hc0 k hk pts hpts deg hde.le s).1 hsG).2.2.1
        · exfalso
          refine Finsupp.mem_support_iff.1 hs ?_
          rw [gl_eq, Finsupp.finset_sum_apply]
          refine Finset.sum_eq_zero fun j hj => ?_
          have hj' := mem_range.1 hj
          rw [Finsupp.smul_apply, List_getD_eq_getElem _ _ hj', Finsupp.single_eq_of_ne, smul_zero]
          rintro rfl
          exact hsG (List.getElem_mem _)
    · rw [hcs g hg, eB _ (b0.trans (b1.le.trans hbt))]
      exact b4 t hbt (h2 ▸ ht)
  · rw [eZ _ ht0] at hz
    obtain ⟨c, hc, hm⟩ := w3 t (h2 ▸ ht) k hk pts hpts z hz fun s hs => hin s (Finsupp.mem_support_iff.2 hs)
    refine ⟨c, hc, ?_⟩
    rw [eB _ ht0]
    rwa [Finset.sum_congr rfl fun g hg => by rw [hcs g (mem_range.1 hg)]]

end

/-- The triangles of the first square, in the order of the columns. -/
theorem octa_triangles : (octaRun.map fun o => (o.env.G 0 0 2).take 9) =
    .ok [[0, 2, 4], [1, 2, 4], [0, 3, 4], [1, 3, 4], [0, 2, 5], [1, 2, 5], [0, 3, 5], [1, 3, 5], [0, 1, 2]] := by
  decide +kernel

/-- What is stored for the octahedron in degree two. -/
theorem octa_reps : (octaRun.map fun o => ((o.pages.hom 1 0 2).basis.barcode,
      (o.pages.reps 1 0 2).map fun X => (List.range (o.env.spx 0)).map fun k => (List.range 9).map fun j =>
        X.val k 0 j)) =
    .ok ([(2, 3)], [[[2, 1, 1, 2, 1, 2, 2, 1, 0], [0, 0, 0, 0, 0, 0, 0, 0, 0]]]) := by
  decide +kernel

/-- C77 applies to the octahedron; the bar `[2, 3)` of degree two is stored with the sum of the eight faces in the
first square (see `octa_reps` for the coefficients). -/
example : ∃ out, octaRun = .ok out ∧ (out.pages.hom 1 0 2).basis.barcode = [(2, 3)] ∧
    ∃ X : LChains, ∀ g b, (out.pages.hom 1 0 2).basis.barcode[g]? = some b →
      ∀ t, b.2 ≤ t → t < 4 → cubesSum 3 out.env 2 X g ∈
        vrBoundaries (ZMod 3) (cloudDist octaDist octaCloud) octaCloud.length 2 t := by
  have hrun := octa_reps
  cases hr : octaRun with
  | error e => rw [hr] at hrun; cases hrun
  | ok out =>
    rw [hr] at hrun
    have h1 := congrArg Prod.fst (Except.ok.inj hrun)
    obtain ⟨X, -, hX, -⟩ := C77_cube_cycles octa_input (by decide +kernel) le_rfl (by decide +kernel)
      (fun x y _ _ h => h) out hr 2 (by norm_num)
    exact ⟨out, rfl, h1, X, fun g b hb => (hX g b hb).2.2.2.2⟩

end Permaviss
