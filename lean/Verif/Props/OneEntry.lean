import Verif.Lemmas.CollapsePages
import Verif.Lemmas.NerveRows
import Verif.Props.Plane

/-!
# A second page which shows that a barcode is right (C76)
-/

namespace Permaviss

open Finset

section

variable {K : Type} [Field K] [LinearOrder K] [FloorRing K] [IsStrictOrderedRing K]
  {pdist : List (List K) → List (List K)} {d : List K → List K → K} {argsort : List K → List Nat}
  {rnd : K → K} {maxR : K} {maxDim maxDiv dim : ℕ} {overlap : K} {cloud : List (List K)} {p : ℕ}
  {lo hi : ℕ → K} {side : K}

/-- The second page of a result has no classes at the positions of total degree `e + 1`, except in the first
column, nor at the positions of total degree `e + 2`, except in the first two columns. -/
def OneEntry (out : MVOut K) (dim e : ℕ) : Prop :=
  ∀ n deg, n < 2 ^ dim → (1 ≤ n ∧ n + deg = e + 1) ∨ (2 ≤ n ∧ n + deg = e + 2) →
    (out.pages.hom 1 n deg).basis.barcode = []

/-- See `C76_collapse_degree`. -/
theorem CoveredEnv.collapse_degree {out : MVOut K} (h : CoveredEnv pdist d argsort rnd maxR maxDim dim cloud p out.env)
    (hround : ∀ x y, BarEnd d maxR cloud x → BarEnd d maxR cloud y → rnd x ≤ rnd y → x ≤ y)
    (hrun : out.Run rnd) :
    ∃ (B0 : Basis K) (B : ℕ → Option (Basis K)),
      out.persistentHomology = B0 :: (List.range (maxDim - 1)).filterMap B ∧
      ∀ e, e + 1 < maxDim → OneEntry out dim e →
        (∀ Q, B e = some Q → (∀ b ∈ Q.barcode, 0 ≤ b.1 ∧ b.1 < b.2 ∧ b.2 ≤ maxR) ∧
          ∀ s t (hst : s ≤ t), 0 ≤ s → t < maxR →
            barsThrough Q.barcode s t = Module.finrank (ZMod p) (LinearMap.range
              (vrMap (ZMod p) (cloudDist pdist cloud) cloud.length (e + 1) hst))) ∧
        (B e = none → ∀ s t (hst : s ≤ t), 0 ≤ s → t < maxR →
          Module.finrank (ZMod p) (LinearMap.range
            (vrMap (ZMod p) (cloudDist pdist cloud) cloud.length (e + 1) hst)) = 0) := by
  obtain ⟨hS, hph⟩ := hrun
  obtain ⟨hOK, h1, h2, h3, h4⟩ := h.facts
  have h5 := h.pages
  have h6 := h.numbers
  have hdpos := h.dim_pos
  have hpow : 2 ≤ 2 ^ dim := by
    calc 2 = 2 ^ 1 := rfl
      _ ≤ 2 ^ dim := Nat.pow_le_pow_right (by omega) (by omega)
  obtain ⟨D, hC, -⟩ := h.cover
  obtain ⟨N, S, adj, H⟩ := h.nerve
  unfold persistentList at hph
  split at hph
  · cases hph
  rw [bind_ok] at hph
  obtain ⟨rest, hrest, hph⟩ := hph
  have hph := (Except.ok.inj hph).symm
  obtain ⟨l1, l2⟩ := mapM_ok_spec hrest
  rw [List.length_map, List.length_range] at l1
  refine ⟨(out.pages.hom (out.env.noPages - 1) 0 0).basis, fun i => rest.getD i none, ?_, ?_⟩
  · rw [hph, filterMap_getD, l1, h3]
  intro e he hone
  have hi : e < rest.length := by omega
  have hd : diagonal rnd out.env out.pages out.env.spxNumber.length (e + 1) = .ok (rest.getD e none) := by
    have := l2 e (by simp; omega) hi
    rw [List.getElem_map, List.getElem_range] at this
    rw [List_getD_eq_getElem _ _ hi]
    exact this
  have hSS : allPages rnd out.env out.env.columns.length = .ok out.pages := by
    rw [h6, Nat.add_sub_cancel, ← h4] at hS
    exact hS
  have key := collapse_diagonal hOK hC H (e := e) (by omega) (by omega) (by omega)
    (fun i hi n m a ha b hb x hx y hy => by
      have hA := h.bar_ends i (by omega) n a ha
      have hB := h.bar_ends i (by omega) m b hb
      refine hround x y ?_ ?_
      · rcases hx with rfl | rfl
        · exact hA.1
        · exact hA.2
      · rcases hy with rfl | rfl
        · exact hB.1
        · exact hB.2)
    hSS (fun n deg hn hc => hone n deg (by omega) hc) (by omega) hd
  exact h.degree_of_diagonal _ key

/-- **C76**, in terms of homology: if `create_MV_ss` returns, its persistent homology is a first entry followed
by the results for the degrees `1, …, max_dim - 1`, without those that are empty.  For every degree `e + 1`
such that the second page that was computed satisfies `OneEntry`, the result counts homology classes: for
`0 ≤ s ≤ t < max_r` the number of its bars that contain `s` and `t` is the rank of the map from `H_{e+1}` of the
Vietoris-Rips complex at `s` to the one at `t`, and all these ranks are zero when the result is missing.  The
cover and the degree are arbitrary.

The distance must bound the differences of coordinates, `overlap` must be at least `max_r`, the cloud must
not be contained in a coordinate hyperplane, and rounding must not put two distances in the wrong order. -/
theorem C76_collapse_degree (h : MVInput pdist d argsort maxR maxDiv dim cloud p lo hi side)
    (hw : ∀ i < dim, lo i < hi i) (ho : maxR ≤ overlap)
    (hcoord : ∀ a ∈ cloud, ∀ b ∈ cloud, ∀ i < dim, |a.getD i 0 - b.getD i 0| ≤ d a b)
    (hround : ∀ x y, BarEnd d maxR cloud x → BarEnd d maxR cloud y → rnd x ≤ rnd y → x ≤ y)
    (out : MVOut K) (hrun : createMVss pdist argsort rnd maxR maxDim maxDiv overlap dim cloud p = .ok out) :
    ∃ (B0 : Basis K) (B : ℕ → Option (Basis K)),
      out.persistentHomology = B0 :: (List.range (maxDim - 1)).filterMap B ∧
      ∀ e, e + 1 < maxDim → OneEntry out dim e →
        (∀ Q, B e = some Q → (∀ b ∈ Q.barcode, 0 ≤ b.1 ∧ b.1 < b.2 ∧ b.2 ≤ maxR) ∧
          ∀ s t (hst : s ≤ t), 0 ≤ s → t < maxR →
            barsThrough Q.barcode s t = Module.finrank (ZMod p) (LinearMap.range
              (vrMap (ZMod p) (cloudDist pdist cloud) cloud.length (e + 1) hst))) ∧
        (B e = none → ∀ s t (hst : s ≤ t), 0 ≤ s → t < maxR →
          Module.finrank (ZMod p) (LinearMap.range
            (vrMap (ZMod p) (cloudDist pdist cloud) cloud.length (e + 1) hst)) = 0) := by
  exact (h.coveredEnv hw ho hcoord (createMVss_parts hrun).1).collapse_degree hround (createMVss_run hrun)

/-- **C76**: if `create_MV_ss` returns, its persistent homology is a first entry followed by the results for the
degrees `1, …, max_dim - 1`, without those that are empty; and for every degree `e + 1` such that the second page
has no classes outside the first column in total degree `e + 1` and outside the first two columns in total degree
`e + 2`, the barcode returned is that of the ordinary computation on the whole cloud, up to the order of the
bars, and no barcode is returned only if that one is empty. -/
theorem C76_collapse (h : MVInput pdist d argsort maxR maxDiv dim cloud p lo hi side)
    (hw : ∀ i < dim, lo i < hi i) (ho : maxR ≤ overlap)
    (hcoord : ∀ a ∈ cloud, ∀ b ∈ cloud, ∀ i < dim, |a.getD i 0 - b.getD i 0| ≤ d a b)
    (hround : ∀ x y, BarEnd d maxR cloud x → BarEnd d maxR cloud y → rnd x ≤ rnd y → x ≤ y)
    (out : MVOut K) (hrun : createMVss pdist argsort rnd maxR maxDim maxDiv overlap dim cloud p = .ok out) :
    ∃ (B0 : Basis K) (B : ℕ → Option (Basis K)) (L : LocalOut K),
      out.persistentHomology = B0 :: (List.range (maxDim - 1)).filterMap B ∧
      localPersistentHomology pdist argsort rnd cloud maxR maxDim p = .ok L ∧
      ∀ e, e + 1 < maxDim → OneEntry out dim e → ∃ B', L.ph.hom[e + 1]? = some B' ∧
        (∀ Q, B e = some Q → Q.barcode.Perm B'.barcode) ∧ (B e = none → B'.barcode = []) := by
  obtain ⟨B0, B, hB, hmain⟩ := C76_collapse_degree h hw ho hcoord hround out hrun
  have e0 : cloud = (List.range cloud.length).map fun v => cloud.getD v [] := by
    apply List.ext_getElem (by simp)
    intro i i1 i2
    simp [List.getD_eq_getElem?_getD, i1]
  obtain ⟨L, hL, -⟩ := local_piece h.prime h.dist h.sort rnd (fun v => cloud.getD v [])
    (pts := List.range cloud.length) List.pairwise_lt_range h.radius maxDim
  rw [← e0] at hL
  refine ⟨B0, B, L, hB, hL, fun e he hone => ?_⟩
  obtain ⟨q1, q2⟩ := hmain e he hone
  exact h.barcodes_of_degree he q1 q2 hL

end

/-! ### An octahedron in two squares -/

/-- Three pairs of opposite points. -/
def octaCloud : List (List ℚ) := [[0, 0], [2, 1], [2, 0], [0, 1], [1, 0], [1, 1]]

/-- Opposite points are at distance three, others at distance two. -/
def octaD (a b : List ℚ) : ℚ :=
  if a = b then 0 else if a.getD 0 0 + b.getD 0 0 = 2 ∧ a.getD 1 0 + b.getD 1 0 = 1 then 3 else 2

def octaDist (c : List (List ℚ)) : List (List ℚ) := c.map fun a => c.map (octaD a)

def octaRun : Except PyErr (MVOut ℚ) := createMVss octaDist stableArgsort id 4 3 2 4 2 octaCloud 3

theorem octa_input : MVInput octaDist octaD stableArgsort 4 2 2 octaCloud 3
    (fun _ => 0) (fun i => if i = 0 then 2 else 1) 1 where
  prime := by decide
  dist := ⟨fun c => rfl, fun a b => by unfold octaD; split_ifs <;> norm_num⟩
  sort := stableArgsort_isArgsort
  radius := by norm_num
  points := by simp [octaCloud]
  dim_pos := by norm_num
  div_pos := by norm_num
  box := by
    have hall : ∀ pt ∈ octaCloud, ∀ d < 2, 0 ≤ pt.getD d 0 ∧ pt.getD d 0 ≤ if d = 0 then 2 else 1 := by
      decide +kernel
    refine ⟨?_, ?_, ⟨⟨0, by omega, by norm_num⟩, ?_⟩⟩
    · intro d hd
      refine ⟨⟨[0, 0], by simp [octaCloud], ?_⟩, ?_⟩
      · have : d = 0 ∨ d = 1 := by omega
        rcases this with rfl | rfl <;> rfl
      · rintro x ⟨pt, hpt, rfl⟩
        exact (hall pt hpt d hd).1
    · intro d hd
      refine ⟨⟨[2, 1], by simp [octaCloud], ?_⟩, ?_⟩
      · have : d = 0 ∨ d = 1 := by omega
        rcases this with rfl | rfl <;> simp
      · rintro x ⟨pt, hpt, rfl⟩
        exact (hall pt hpt d hd).2
    · rintro x ⟨d, hd, rfl⟩
      have : ∀ d < 2, (if d = 0 then 2 else 1) - (0 : ℚ) ≤ (2 : ℕ) * 1 := by decide +kernel
      exact this d hd
  side_pos := by norm_num

/-- What is read off the run. -/
theorem octa_run : (octaRun.map fun o => (o.persistentHomology.map Basis.barcode,
      [o.env.firstBars 2 0, o.env.firstBars 2 1],
      ((List.range 4).flatMap fun n => (List.range 4).map fun deg => (n, deg)).filter fun x =>
        (o.pages.hom 1 x.1 x.2).basis.barcode != [])) =
    .ok ([(0, 4) :: List.replicate 5 (0, 2), [(2, 3)]], [[(2, 3), (2, 3)], [(2, 3)]], [(0, 0), (0, 2)]) := by
  decide +kernel

/-- C76 applies to the octahedron in degree two (`e = 1`), where the barcode is not empty. -/
example : ∃ out, octaRun = .ok out ∧ OneEntry out 2 1 ∧
    out.persistentHomology.map Basis.barcode = [(0, 4) :: List.replicate 5 (0, 2), [(2, 3)]] ∧
    (∀ i < 2, (0 : ℚ) < if i = 0 then 2 else 1) ∧
    (∀ a ∈ octaCloud, ∀ b ∈ octaCloud, ∀ i < 2, |a.getD i 0 - b.getD i 0| ≤ octaD a b) ∧
    ∀ x y : ℚ, id x ≤ id y → x ≤ y := by
  have hrun := octa_run
  cases hr : octaRun with
  | error e => rw [hr] at hrun; cases hrun
  | ok out =>
    rw [hr] at hrun
    have hrun := Except.ok.inj hrun
    have h1 := congrArg Prod.fst hrun
    have h2 := congrArg (fun x => x.2.2) hrun
    refine ⟨out, rfl, fun n deg hn hc => ?_, h1, by decide +kernel, by decide +kernel, fun x y h => h⟩
    by_contra hne
    have hm : (n, deg) ∈ ((List.range 4).flatMap fun n => (List.range 4).map fun deg => (n, deg)).filter
        fun x => (out.pages.hom 1 x.1 x.2).basis.barcode != [] := by
      rw [List.mem_filter]
      refine ⟨?_, by simpa using hne⟩
      rw [List.mem_flatMap]
      exact ⟨n, List.mem_range.2 hn, List.mem_map.2 ⟨deg, List.mem_range.2 (by omega), rfl⟩⟩
    dsimp only at h2
    rw [h2] at hm
    have h3 := hm
    simp only [List.mem_cons, Prod.mk.injEq, List.not_mem_nil, or_false] at h3
    omega

end Permaviss
