import Verif.Lemmas.LastReps
import Verif.Spec.CycleBasis
import Verif.Props.CubeCycles
import Verif.Props.PlaneEx

/-!
# The cycles stored with the last page (C92)
-/

namespace Permaviss

open Finset

attribute [-instance] instMulZeroClassOfSemiring

section

variable {K : Type} [Field K] [LinearOrder K] [FloorRing K] [IsStrictOrderedRing K]
  {pdist : List (List K) → List (List K)} {d : List K → List K → K} {argsort : List K → List Nat}
  {rnd : K → K} {maxR : K} {maxDim maxDiv dim : ℕ} {overlap : K} {cloud : List (List K)} {p : ℕ}
  {lo hi : ℕ → K} {side : K}

theorem cubesSum_eq {K : Type} [LinearOrder K] [Zero K] {E : SSEnv K} {e g : ℕ} {X : LChains} :
    cubesSum E.p E e X g = E.valSum e X g := by
  unfold cubesSum SSEnv.valSum
  rw [glSum_eq]
  rfl

/-- Chains which resolve the homology of the whole complex represent a basis of it. -/
theorem CoveredEnv.cycleBasis {E : SSEnv K} (h : CoveredEnv pdist d argsort rnd maxR maxDim dim cloud p E) {e : ℕ}
    {bars : List (K × K)} {w : ℕ → List ℕ →₀ ZMod E.p} {BD : ℕ → ℕ → ZMod E.p} (hF : Fact E.p.Prime)
    (hwf : ∀ b ∈ bars, b.1 < b.2 ∧ b.2 ≤ E.maxR)
    (hR : Resolves bars E.maxR BD (E.ZG (diam d fun v => cloud.getD v []) cloud.length e)
      (E.BG (diam d fun v => cloud.getD v []) cloud.length e) w) :
    CycleBasis E.p (cloudDist pdist cloud) cloud.length e maxR bars w := by
  obtain ⟨hOK, h1, h2, h3, h4⟩ := h.facts
  subst h1
  have ev : ∀ e t, 0 ≤ t → vrChains (ZMod E.p) (cloudDist pdist cloud) cloud.length e t =
      E.chG (diam d fun v => cloud.getD v []) cloud.length e t := by
    intro e t ht
    refine vrChains_eq ?_ ht
    intro u hu v hv
    exact cloudDist_eq h.dist hu hv
  have eZ : ∀ t, 0 ≤ t → vrCycles (ZMod E.p) (cloudDist pdist cloud) cloud.length e t =
      E.ZG (diam d fun v => cloud.getD v []) cloud.length e t := by
    intro t ht
    unfold vrCycles SSEnv.ZG
    rw [ev _ _ ht]
  have eB : ∀ t, 0 ≤ t → vrBoundaries (ZMod E.p) (cloudDist pdist cloud) cloud.length e t =
      E.BG (diam d fun v => cloud.getD v []) cloud.length e t := by
    intro t ht
    unfold vrBoundaries SSEnv.BG
    rw [ev _ _ ht]
  have h0 : ∀ b ∈ bars, 0 ≤ b.1 := by
    intro b hb
    by_contra hneg
    push Not at hneg
    obtain ⟨j, hj⟩ := List.mem_iff_getElem?.1 hb
    have hz := hR.born j b hj
    have hz0 : w j = 0 := by
      ext s
      by_contra hs
      have hm := hz.1
      unfold SSEnv.chG at hm
      obtain ⟨-, -, -, hd⟩ := (Finsupp.mem_supported _ _).1 hm (Finsupp.mem_support_iff.2 hs)
      exact absurd (hd.trans_lt hneg) (not_lt.2 (diam_nonneg _ _ s))
    have := hR.indep b.1 (hneg.trans hOK.maxR) (Pi.single j 1) (by
      refine Submodule.sum_mem _ fun i _ => ?_
      by_cases hi : i = j
      · subst hi; rw [hz0, smul_zero]; exact Submodule.zero_mem _
      · rw [Pi.single_eq_of_ne hi, zero_smul]; exact Submodule.zero_mem _)
      (fun i hi => Pi.single_eq_of_ne (by rintro rfl; exact hi ⟨b, hj, le_rfl, (hwf b hb).1⟩) _) j
    rw [Pi.single_eq_same] at this
    exact one_ne_zero this
  refine ⟨fun b hb => ⟨h0 b hb, (hwf b hb).1, h2 ▸ (hwf b hb).2⟩, fun j b hb => ?_, fun t ht0 ht y hy => ?_⟩
  · rw [eZ _ (h0 b (List.mem_of_getElem? hb))]
    exact hR.born j b hb
  rw [eZ _ ht0, hR.span t (h2 ▸ ht)] at hy
  rw [eB _ ht0]
  obtain ⟨u, hu, r, hr, rfl⟩ := Submodule.mem_sup.1 hy
  obtain ⟨c, hc, rfl⟩ : ∃ c : ℕ → ZMod E.p, (∀ j, ¬ AliveBar bars j t → c j = 0) ∧
      ∑ j ∈ range bars.length, c j • w j = u := by
    refine Submodule.span_induction (p := fun u _ => ∃ c : ℕ → ZMod E.p,
      (∀ j, ¬ AliveBar bars j t → c j = 0) ∧ ∑ j ∈ range bars.length, c j • w j = u) ?_ ?_ ?_ ?_ hu
    · rintro x ⟨j, hj, rfl⟩
      refine ⟨Pi.single j 1, fun i hi => Pi.single_eq_of_ne (by rintro rfl; exact hi hj) _, ?_⟩
      rw [Finset.sum_eq_single j (fun i _ hi => by rw [Pi.single_eq_of_ne hi, zero_smul]) (fun hn => ?_),
        Pi.single_eq_same, one_smul]
      obtain ⟨b, hb, -⟩ := hj
      exact absurd (mem_range.2 (List.getElem?_eq_some_iff.1 hb).1) hn
    · exact ⟨0, fun _ _ => rfl, by simp⟩
    · rintro x y - - ⟨c, hc, rfl⟩ ⟨c', hc', rfl⟩
      refine ⟨c + c', fun j hj => by rw [Pi.add_apply, hc j hj, hc' j hj, add_zero], ?_⟩
      simp only [Pi.add_apply, add_smul, Finset.sum_add_distrib]
    · rintro a x - ⟨c, hc, rfl⟩
      refine ⟨a • c, fun j hj => by rw [Pi.smul_apply, hc j hj, smul_zero], ?_⟩
      simp only [Pi.smul_apply, Finset.smul_sum, smul_assoc]
  refine ⟨c, ⟨hc, by rwa [add_sub_cancel_left]⟩, fun c' hc' => ?_⟩
  have hd := hR.indep t (h2 ▸ ht) (c' - c) (by
    have := Submodule.sub_mem _ hr hc'.2
    have e : ∑ j ∈ range bars.length, (c' - c) j • w j = ∑ j ∈ range bars.length, c' j • w j -
        ∑ j ∈ range bars.length, c j • w j := by
      simp only [Pi.sub_apply, sub_smul, Finset.sum_sub_distrib]
    rw [e]
    convert this using 1
    abel)
    (fun j hj => by rw [Pi.sub_apply, hc j hj, hc'.1 j hj, sub_zero])
  funext j
  have := hd j
  rw [Pi.sub_apply, sub_eq_zero] at this
  exact this

/-- What is stored with the last page in total degree `e + 1`, for a result with cycles of the whole complex. -/
theorem CoveredEnv.last_cycles {out : MVOut K} (h : CoveredEnv pdist d argsort rnd maxR maxDim dim cloud p out.env)
    {e : ℕ} (hF : Fact out.env.p.Prime) {X Y : LChains}
    (L : LastCycles out.env (diam d fun v => cloud.getD v []) cloud.length out.pages e X Y) :
    CycleBasis p (cloudDist pdist cloud) cloud.length (e + 1) maxR
      ((out.pages.hom (out.env.noPages - 1) 0 (e + 1)).basis.barcode ++
        (out.pages.hom (out.env.noPages - 1) 1 e).basis.barcode)
      (fun j => if j < (out.pages.hom (out.env.noPages - 1) 0 (e + 1)).basis.barcode.length
        then cubesSum p out.env (e + 1) X j
        else cubesSum p out.env (e + 1) Y
          (j - (out.pages.hom (out.env.noPages - 1) 0 (e + 1)).basis.barcode.length)) := by
  obtain ⟨hOK, h1, -⟩ := h.facts
  subst h1
  have hcs : ∀ X g, cubesSum out.env.p out.env (e + 1) X g = out.env.valSum (e + 1) X g := fun X g => cubesSum_eq
  simp only [hcs]
  obtain ⟨BD, hR⟩ := L.res
  exact h.cycleBasis hF L.wf hR

/-- The conclusion of C92: `X` and `Y` are the chains on the cubes that are stored with the two barcodes of total
degree `e + 1` on the last page, and their sums over the cubes represent a basis of the homology of the whole cloud. -/
structure LastBasis (pdist : List (List K) → List (List K)) (cloud : List (List K)) (p : ℕ) (maxR : K) (out : MVOut K)
    (e : ℕ) (X Y : LChains) : Prop where
  /-- The first column stores one list of chains, on the cubes. -/
  first : (out.pages.hom (out.env.noPages - 1) 0 (e + 1)).basis.barcode ≠ [] →
    out.pages.reps (out.env.noPages - 1) 0 (e + 1) = [X]
  /-- The second column stores chains on the intersections of two cubes and then chains on the cubes. -/
  second : (out.pages.hom (out.env.noPages - 1) 1 e).basis.barcode ≠ [] →
    ∃ C, out.pages.reps (out.env.noPages - 1) 1 e = [C, Y]
  basis : CycleBasis p (cloudDist pdist cloud) cloud.length (e + 1) maxR
    ((out.pages.hom (out.env.noPages - 1) 0 (e + 1)).basis.barcode ++
      (out.pages.hom (out.env.noPages - 1) 1 e).basis.barcode)
    fun j => if j < (out.pages.hom (out.env.noPages - 1) 0 (e + 1)).basis.barcode.length
      then cubesSum p out.env (e + 1) X j
      else cubesSum p out.env (e + 1) Y (j - (out.pages.hom (out.env.noPages - 1) 0 (e + 1)).basis.barcode.length)

/-- Covers without triple intersections. -/
theorem CoveredEnv.thin_cycles {out : MVOut K} (h : CoveredEnv pdist d argsort rnd maxR maxDim dim cloud p out.env)
    (hrun : out.Run rnd)
    (hthin : (∀ n deg, 2 ≤ n → out.env.firstBars deg n = []) ∧ ∀ D, out.env.nerveDiff[0]? = some D →
      out.env.CechInj (diam d fun v => cloud.getD v []) D) {e : ℕ} (he : e + 1 < maxDim)
    (hskip : out.env.firstBars e 1 ≠ [] → ∀ k < out.env.spx 0, out.env.classes 0 e k = 0 → out.env.G 0 k e = [])
    (hround : ∀ x y, BarEnd d maxR cloud x → BarEnd d maxR cloud y → rnd x ≤ rnd y → x ≤ y) :
    ∃ X Y, LastBasis pdist cloud p maxR out e X Y := by
  obtain ⟨hS, hph⟩ := hrun
  obtain ⟨hOK, h1, h2, h3, h4⟩ := h.facts
  have h5 := h.pages
  have h6 := h.numbers
  obtain ⟨D, hC, hfaces⟩ := h.cover
  obtain ⟨hzb, hinj⟩ := hthin
  have hdpos := h.dim_pos
  have hpow : 2 ≤ 2 ^ dim := by
    calc 2 = 2 ^ 1 := rfl
      _ ≤ 2 ^ dim := Nat.pow_le_pow_right (by omega) (by omega)
  have hpos : 0 < out.env.spx 0 := by
    obtain ⟨k, hk, -⟩ := hC.cover [0] (by simp) (by simp) (by simp)
      (by simpa using List.length_pos_of_ne_nil h.points) (diam_lt_iff.2 ⟨hOK.maxR, by simp⟩)
    omega
  have hcols := hC.cols
  unfold persistentList at hph
  split at hph
  · cases hph
  rw [bind_ok] at hph
  obtain ⟨rest, hrest, hph⟩ := hph
  obtain ⟨l1, l2⟩ := mapM_ok_spec hrest
  rw [List.length_map, List.length_range] at l1
  have hi : e < rest.length := by omega
  have hd : diagonal rnd out.env out.pages out.env.spxNumber.length (e + 1) = .ok (rest.getD e none) := by
    have := l2 e (by simp; omega) hi
    rw [List.getElem_map, List.getElem_range] at this
    rw [List_getD_eq_getElem _ _ hi]
    exact this
  have hSS : allPages rnd out.env out.env.columns.length = .ok out.pages := by
    rw [h6, Nat.add_sub_cancel, ← h4] at hS
    exact hS
  have hF := Fact.mk hOK.prime
  obtain ⟨X, Y, L⟩ := strip_cycles hOK hC (hinj D hC.diff) (by omega) hpos (by omega) (by omega) hzb hSS (e := e)
    (by omega) (fun i j hi hj n m a ha b hb x hx y hy => by
      have hA := h.bar_ends i (by omega) n a ha
      have hB := h.bar_ends j (by omega) m b hb
      refine hround x y ?_ ?_
      · rcases hx with rfl | rfl
        · exact hA.1
        · exact hA.2
      · rcases hy with rfl | rfl
        · exact hB.1
        · exact hB.2) (gap_of_skip hOK (by omega) hcols (hfaces 0 hcols) hskip) hskip
    (nc := out.env.spxNumber.length) (by omega) (Or.inl ⟨_, hd⟩)
  exact ⟨X, Y, L.repsX, L.repsY, h.last_cycles hF L⟩

/-- Degree one, for any cover. -/
theorem CoveredEnv.loops {out : MVOut K} (h : CoveredEnv pdist d argsort rnd maxR maxDim dim cloud p out.env)
    (hzero : ∀ a ∈ cloud, ∀ b ∈ cloud, ∀ c ∈ cloud, d a c = 0 → d b c = 0 → d a b = 0)
    (hround : ∀ x y, BarEnd d maxR cloud x → BarEnd d maxR cloud y → rnd x ≤ rnd y → x ≤ y)
    (hrun : out.Run rnd) (hdim : 2 ≤ maxDim) :
    ∃ X Y, LastBasis pdist cloud p maxR out 0 X Y := by
  obtain ⟨hS, hph⟩ := id hrun
  obtain ⟨hOK, h1, h2, h3, h4⟩ := h.facts
  have h5 := h.pages
  have h6 := h.numbers
  obtain ⟨N, S, adj, H⟩ := h.nerve
  by_cases hd1 : dim = 1
  · subst hd1
    exact h.thin_cycles hrun ⟨fun n deg hn => by
      unfold SSEnv.firstBars
      rw [List.getElem?_eq_none (by omega)], fun D hD => H.cechInj hOK (by omega) D hD⟩ (by omega)
      (fun _ k hk hc => skip_zero hOK (by omega) (by rw [h4]; positivity) hk hc) hround
  have hdpos := h.dim_pos
  have hpow : 4 ≤ 2 ^ dim := by
    calc 4 = 2 ^ 2 := rfl
      _ ≤ 2 ^ dim := Nat.pow_le_pow_right (by omega) (by omega)
  obtain ⟨D, hC, hfaces⟩ := h.cover
  have hpos : 0 < out.env.spx 0 := by
    obtain ⟨k, hk, -⟩ := hC.cover [0] (by simp) (by simp) (by simp)
      (by simpa using List.length_pos_of_ne_nil h.points) (diam_lt_iff.2 ⟨hOK.maxR, by simp⟩)
    omega
  unfold persistentList at hph
  split at hph
  · cases hph
  rw [bind_ok] at hph
  obtain ⟨rest, hrest, hph⟩ := hph
  obtain ⟨l1, l2⟩ := mapM_ok_spec hrest
  rw [List.length_map, List.length_range] at l1
  have hi : 0 < rest.length := by omega
  have hd : diagonal rnd out.env out.pages out.env.spxNumber.length 1 = .ok (rest.getD 0 none) := by
    have := l2 0 (by simp; omega) hi
    rw [List.getElem_map, List.getElem_range] at this
    rw [List_getD_eq_getElem _ _ hi]
    exact this
  have hSS : allPages rnd out.env out.env.columns.length = .ok out.pages := by
    rw [h6, Nat.add_sub_cancel, ← h4] at hS
    exact hS
  obtain ⟨D', hD'⟩ := hOK.hasDiff 1 (by omega)
  have hF := Fact.mk hOK.prime
  obtain ⟨X, Y, L⟩ := plane_cycles hOK hC
    (fun deg hdeg t c hc hz => cech_exact_succ hOK H (n := 0) (by omega) hdeg hC.diff hD' hc hz)
    (by omega) hpos (by omega) (by omega) (by omega) hD' (by rw [h2]; exact h.radius)
    (fun n h0 => by
      by_cases hn : n + 1 < out.env.columns.length
      · exact row_zero_gap hOK (by omega) hn (hfaces n hn) h0
      · unfold SSEnv.firstBars
        rw [List.getElem?_eq_none (by omega)])
    (fun n hn a ha => by
      obtain ⟨l, hl, s, hs, e⟩ := hOK.birth_radius hn (by omega) ha
      obtain ⟨o, pts, -, hpts, -⟩ := hOK.piece n hn l hl
      obtain ⟨m1, -⟩ := (hOK.mem n hn l hl pts hpts 0 (by omega) s).1 hs
      rw [e]
      obtain ⟨v, rfl⟩ := List.length_eq_one_iff.1 m1
      simp [diam])
    (zero_cycles h.dist.nonneg hzero out.env)
    (fun i j hi hj n m a ha b hb x hx y hy => by
      have hA := h.bar_ends i (by omega) n a ha
      have hB := h.bar_ends j (by omega) m b hb
      refine hround x y ?_ ?_
      · rcases hx with rfl | rfl
        · exact hA.1
        · exact hA.2
      · rcases hy with rfl | rfl
        · exact hB.1
        · exact hB.2) hSS (by omega) hd
  exact ⟨X, Y, L.repsX, L.repsY, h.last_cycles hF L⟩

/-- **C92**, degree one, for any cover: if `create_MV_ss` returns and `max_dim ≥ 2`, the chains on the cubes which
are stored with the last page at the two positions of total degree one, summed over the cubes, are loops of the whole
cloud which represent a basis of the first homology at every radius below `max_r`. -/
theorem C92_loops (h : MVInput pdist d argsort maxR maxDiv dim cloud p lo hi side)
    (hw : ∀ i < dim, lo i < hi i) (ho : maxR ≤ overlap)
    (hcoord : ∀ a ∈ cloud, ∀ b ∈ cloud, ∀ i < dim, |a.getD i 0 - b.getD i 0| ≤ d a b)
    (hzero : ∀ a ∈ cloud, ∀ b ∈ cloud, ∀ c ∈ cloud, d a c = 0 → d b c = 0 → d a b = 0)
    (hround : ∀ x y, BarEnd d maxR cloud x → BarEnd d maxR cloud y → rnd x ≤ rnd y → x ≤ y)
    (out : MVOut K) (hrun : createMVss pdist argsort rnd maxR maxDim maxDiv overlap dim cloud p = .ok out)
    (hdim : 2 ≤ maxDim) :
    ∃ X Y, LastBasis pdist cloud p maxR out 0 X Y :=
  (h.coveredEnv hw ho hcoord (createMVss_parts hrun).1).loops hzero hround (createMVss_run hrun) hdim

/-- **C92**, degree `e + 1`, when no point lies in three cubes next to each other (`hthin`).  The condition `hskip` is
that of C54: if there are classes of degree `e` on intersections of cubes, a cube without classes of degree `e` has no
simplices of dimension `e`. -/
theorem C92_thin (h : MVInput pdist d argsort maxR maxDiv dim cloud p lo hi side)
    (hw : ∀ i < dim, lo i < hi i) (hthin : NoTriple dim lo hi side overlap cloud) (ho : maxR ≤ overlap)
    (hcoord : ∀ a ∈ cloud, ∀ b ∈ cloud, ∀ i < dim, |a.getD i 0 - b.getD i 0| ≤ d a b)
    (hround : ∀ x y, BarEnd d maxR cloud x → BarEnd d maxR cloud y → rnd x ≤ rnd y → x ≤ y)
    (out : MVOut K) (hrun : createMVss pdist argsort rnd maxR maxDim maxDiv overlap dim cloud p = .ok out)
    {e : ℕ} (he : e + 1 < maxDim)
    (hskip : out.env.firstBars e 1 ≠ [] → ∀ k < out.env.spx 0, out.env.classes 0 e k = 0 → out.env.G 0 k e = []) :
    ∃ X Y, LastBasis pdist cloud p maxR out e X Y :=
  (h.coveredEnv hw ho hcoord (createMVss_parts hrun).1).thin_cycles (createMVss_run hrun) (h.thin hw hthin out hrun)
    he hskip hround

end

/-- The bars of total degree one on the last page for the ring of seventeen points. -/
theorem ring_loops : (ringRun.map fun o => ((o.pages.hom (o.env.noPages - 1) 0 1).basis.barcode,
      (o.pages.hom (o.env.noPages - 1) 1 0).basis.barcode)) =
    .ok ([(5, 11/2), (5, 11/2)], [(9/2, 11/2), (9/2, 5)]) := by
  decide +kernel

/-- The two loops stored with the second column: the edges in the four squares, with their coefficients.  The first
one goes around the ring, through the points `0, 2, 4, 6, 10, 12, 14, 15, 13, 11, 7, 5, 3`; the second one around the
hexagon `0, 2, 4, 1, 5, 3`. -/
theorem ring_edges : (ringRun.map fun o => ((o.pages.reps (o.env.noPages - 1) 1 0).drop 1).flatMap fun Y =>
      (List.range 2).map fun g => (List.range (o.env.spx 0)).flatMap fun k =>
        (List.range (o.env.G 0 k 1).length).filterMap fun j =>
          if Y.val k g j = 0 then none else some ((o.env.G 0 k 1).getD j [], Y.val k g j)) =
    .ok [[([6, 10], 1), ([10, 12], 1), ([12, 14], 1), ([4, 6], 1), ([0, 2], 1), ([2, 4], 1),
        ([7, 11], 4), ([11, 13], 4), ([13, 15], 4), ([14, 15], 1), ([5, 7], 4), ([0, 3], 4), ([3, 5], 4)],
      [([0, 2], 4), ([1, 4], 1), ([2, 4], 4), ([0, 3], 1), ([1, 5], 4), ([3, 5], 1)]] := by
  decide +kernel

/-- C92 applies to the ring; `Y` are the loops of `ring_edges`. -/
example : ∃ out, ringRun = .ok out ∧ ∃ X Y, LastBasis ladderDist ringCloud 5 (11/2) out 0 X Y ∧
    (∃ C, out.pages.reps (out.env.noPages - 1) 1 0 = [C, Y]) := by
  have hrun := ring_loops
  cases hr : ringRun with
  | error e => rw [hr] at hrun; cases hrun
  | ok out =>
    rw [hr] at hrun
    have h1 := congrArg Prod.snd (Except.ok.inj hrun)
    obtain ⟨X, Y, hL⟩ := C92_loops ring_input (by decide +kernel) le_rfl (by decide +kernel)
      (fun a _ b _ c _ => ladderD_zero a b c) (fun x y _ _ h => h) out hr le_rfl
    refine ⟨out, rfl, X, Y, hL, hL.second ?_⟩
    dsimp only at h1
    rw [h1]; simp

end Permaviss
