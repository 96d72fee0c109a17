import Verif.Lemmas.CreateEnv
import Verif.Lemmas.CechAlg
import Verif.Props.MV

/-!
# The Čech differential (C45, C46)
-/

namespace Permaviss

open Finset

attribute [-instance] instMulZeroClassOfSemiring

section

variable {K : Type} [Field K] [LinearOrder K] [FloorRing K] [IsStrictOrderedRing K]
  {pdist : List (List K) → List (List K)} {d : List K → List K → K} {argsort : List K → List Nat}
  {rnd : K → K} {maxR : K} {maxDim maxDiv dim : ℕ} {overlap : K} {cloud : List (List K)} {p : ℕ}
  {lo hi : ℕ → K} {side : K} {E : SSEnv K}

theorem MVInput.env (h : MVInput pdist d argsort maxR maxDiv dim cloud p lo hi side)
    (hE : createEnv pdist argsort rnd maxR maxDim maxDiv overlap dim cloud p = .ok E) :
    SSOK rnd E (diam d fun v => cloud.getD v []) ∧ E.p = p ∧ E.maxR = maxR ∧ E.rows = maxDim ∧
      E.columns.length = 2 ^ dim := by
  obtain ⟨E', _, _, _, h1, h2, h3, h4, h5, -, h7, -⟩ := createEnv_ok h.prime h.dist h.sort rnd h.radius
    maxDim overlap h.points h.dim_pos h.div_pos h.box h.side_pos
  rw [hE] at h1
  obtain rfl := Except.ok.inj h1
  exact ⟨h2, h3, h4, h5, h7⟩

theorem coef_of_get {α : Type} [LinearOrder α] [Zero α] {E : SSEnv α} {n k deg : ℕ}
    (hG : (E.G n k deg).Nodup) (C : LChains) (g : ℕ) {j : ℕ} (hj : j < (E.G n k deg).length) :
    E.coef n deg C k g (E.G n k deg)[j] = (C.val k g j : ZMod E.p) := by
  unfold SSEnv.coef
  rw [if_pos (List.getElem_mem hj), List.Nodup.idxOf_getElem hG]

/-- Page `0` is always completed: on every input considered, the cover, its nerve and the persistent
homology of all the pieces are computed, and every piece holds the Vietoris-Rips complex of its
points. -/
theorem C45_page_zero (h : MVInput pdist d argsort maxR maxDiv dim cloud p lo hi side) (rnd : K → K)
    (maxDim : ℕ) (overlap : K) :
    ∃ E, createEnv pdist argsort rnd maxR maxDim maxDiv overlap dim cloud p = .ok E ∧
      ∀ n < 2 ^ dim, ∀ k < E.spx n, ∃ pts, E.pts n k = .ok pts ∧ ∀ deg ≤ maxDim,
        (E.G n k deg).Nodup ∧ ∀ s, s ∈ E.G n k deg ↔ s.length = deg + 1 ∧ s.Pairwise (· < ·) ∧
          (∀ v ∈ s, v ∈ pts) ∧ diam d (fun v => cloud.getD v []) s < maxR := by
  obtain ⟨E, _, _, _, h1, h2, h3, h4, h5, -, h7, -⟩ := createEnv_ok h.prime h.dist h.sort rnd h.radius
    maxDim overlap h.points h.dim_pos h.div_pos h.box h.side_pos
  refine ⟨E, h1, fun n hn k hk => ?_⟩
  obtain ⟨o, pts, e1, e2, e3⟩ := h2.piece n (by omega) k hk
  refine ⟨pts, e2, fun deg hdeg => ⟨h2.G_nodup (by omega) hk deg, fun s => ?_⟩⟩
  have := h2.mem n (by omega) k hk pts e2 deg (by omega) s
  rw [h4] at this
  exact this

/-- **What `cech_diff` computes.** On every cover, for chains on a column `n + 1` that is not empty,
`cech_diff` succeeds, its entries are reduced mod `p`, and the coefficient of a simplex `s` on piece
`k` is `(-1) ^ deg` times the sum, over the pieces `l` of column `n + 1`, of the entry of the
differential of the nerve times the coefficient of the same simplex on `l`. -/
theorem C45_cech_diff (h : MVInput pdist d argsort maxR maxDiv dim cloud p lo hi side)
    (hE : createEnv pdist argsort rnd maxR maxDim maxDiv overlap dim cloud p = .ok E) (n deg : ℕ)
    (hn : n + 1 < 2 ^ dim) (hdeg : deg ≤ maxDim) (hpos : 0 < E.spx (n + 1)) (C : LChains)
    (hC : C.WF (E.widths (n + 1) deg)) :
    ∃ D C', E.nerveDiff[n]? = some D ∧ cechDiff E n deg C = .ok C' ∧ C'.WF (E.widths n deg) ∧
      (∀ e ∈ C', ∀ r ∈ e.coord, ∀ x ∈ r, 0 ≤ x ∧ x < (p : ℤ)) ∧
      ∀ k < E.spx n, ∀ g, ∀ s ∈ E.G n k deg, E.coef n deg C' k g s =
        (-1) ^ deg * ∑ l ∈ range (E.spx (n + 1)), D.z E.p k l * E.coef (n + 1) deg C l g s := by
  obtain ⟨hS, rfl, rfl, rfl, h7⟩ := h.env hE
  obtain ⟨D, hD⟩ := hS.hasDiff n (by omega)
  obtain ⟨C', c1, c2, c3, -, c5⟩ := cechDiff_spec hS hD (by omega) hpos hdeg hC
  refine ⟨D, C', hD, c1, c2, c3, ?_⟩
  intro k hk g s hs
  obtain ⟨j, hj, rfl⟩ := List.getElem_of_mem hs
  rw [coef_of_get (hS.G_nodup (by omega) hk deg) C' g hj, c5 k hk g j hj, Finset.mul_sum]
  refine Finset.sum_congr rfl fun l hl => ?_
  have hl' := mem_range.1 hl
  have e : ∀ i ∈ range (E.G (n + 1) l deg).length,
      cechCoef E D n deg k l j i * (C.val l g i : ZMod E.p) =
      if some (E.G n k deg)[j] = (E.G (n + 1) l deg)[i]? then
        D.z E.p k l * (-1) ^ deg * (C.val l g i : ZMod E.p) else 0 := by
    intro i _
    unfold cechCoef
    rw [List.getElem?_eq_getElem hj]
    split <;> simp
  rw [Finset.sum_congr rfl e, sum_pos (hS.G_nodup (by omega) hl' deg) _ _
    (D.z E.p k l * (-1) ^ deg * (C.val l g ((E.G (n + 1) l deg).idxOf (E.G n k deg)[j]) : ZMod E.p))]
  · unfold SSEnv.coef
    split
    · ring
    · simp
  · intro hm i hi
    obtain ⟨hi', hie⟩ := List.getElem?_eq_some_iff.1 hi
    rw [← hie, List.Nodup.idxOf_getElem (hS.G_nodup (by omega) hl' deg)]

theorem LChains.val_of_wf {ws : List ℕ} {C : LChains} (h : C.WF ws) {k g j : ℕ} (hk : k < ws.length)
    (hj : ws.getD k 0 ≤ j) : C.val k g j = 0 := by
  have hw := h.get hk
  unfold LChains.val LEntry.val
  by_cases hg : g ∈ (C.getD k LEntry.empty).ref
  · have := LEntry.row_length hw hg
    rw [List.getD_eq_getElem?_getD, List.getElem?_eq_none (by omega)]
    rfl
  · exact LEntry.val_neg hg j

theorem LEntry.val_range {e : LEntry} {p : ℤ} (hp : 0 < p)
    (h : ∀ r ∈ e.coord, ∀ x ∈ r, 0 ≤ x ∧ x < p) (hr : e.ref.length = e.coord.length) (g j : ℕ) :
    0 ≤ e.val g j ∧ e.val g j < p := by
  by_cases hg : g ∈ e.ref
  · unfold LEntry.val
    rw [LEntry.row_eq hg]
    have hm := rowOf_mem hr hg
    by_cases hj : j < (rowOf e.ref e.coord g).length
    · exact h _ hm _ (getD_mem' hj)
    · rw [List.getD_eq_getElem?_getD, List.getElem?_eq_none (by omega)]
      exact ⟨le_rfl, hp⟩
  · rw [LEntry.val_neg hg]
    exact ⟨le_rfl, hp⟩

/-- **C45.** Applying `cech_diff` twice to chains on a column `n + 2` that is not empty gives zero:
all the coordinates of the result are `0`. -/
theorem C45_cech_square_zero (h : MVInput pdist d argsort maxR maxDiv dim cloud p lo hi side)
    (hE : createEnv pdist argsort rnd maxR maxDim maxDiv overlap dim cloud p = .ok E) (n deg : ℕ)
    (hn : n + 2 < 2 ^ dim) (hdeg : deg ≤ maxDim) (hpos : 0 < E.spx (n + 2)) (C : LChains)
    (hC : C.WF (E.widths (n + 2) deg)) :
    ∃ C₁ C₂, cechDiff E (n + 1) deg C = .ok C₁ ∧ cechDiff E n deg C₁ = .ok C₂ ∧
      C₂.length = E.spx n ∧ ∀ k g j, C₂.val k g j = 0 := by
  obtain ⟨hS, rfl, rfl, rfl, h7⟩ := h.env hE
  obtain ⟨D, hD⟩ := hS.hasDiff n (by omega)
  obtain ⟨D', hD'⟩ := hS.hasDiff (n + 1) (by omega)
  obtain ⟨C₁, c1, c2, -, -, c5⟩ := cechDiff_spec hS hD' (by omega) hpos hdeg hC
  have hpos1 : 0 < E.spx (n + 1) := by
    by_contra hc
    -- a simplex of column `n + 2` has faces
    have h0 : E.spx (n + 1) = 0 := by omega
    exact hS.spx_pos (n := n + 1) (by omega) hpos h0
  obtain ⟨C₂, b1, b2, b3, -, b5⟩ := cechDiff_spec hS hD (by omega) hpos1 hdeg c2
  have hlen : C₂.length = E.spx n := by rw [b2.length, widths_length]
  refine ⟨C₁, C₂, c1, b1, hlen, ?_⟩
  intro k g j
  by_cases hk : k < E.spx n
  · by_cases hj : j < (E.G n k deg).length
    · have hz : (C₂.val k g j : ZMod E.p) = 0 := by
        rw [b5 k hk g j hj, ← cech_cech hS hD hD' (by omega) hdeg hk hj
          (fun m a => (C.val m g a : ZMod E.p))]
        refine Finset.sum_congr rfl fun l hl => Finset.sum_congr rfl fun i hi => ?_
        rw [c5 l (mem_range.1 hl) g i (mem_range.1 hi)]
      have hkC : k < C₂.length := by omega
      have hw := b2.get (k := k) (by rw [widths_length]; exact hk)
      have hp0 : (0 : ℤ) < E.p := by exact_mod_cast hS.prime.pos
      have hr := LEntry.val_range hp0 (b3 _ (getD_mem' (x := LEntry.empty) hkC)) hw.rows g j
      rw [ZMod.intCast_zmod_eq_zero_iff_dvd] at hz
      exact Int.eq_zero_of_dvd_of_nonneg_of_lt hr.1 hr.2 hz
    · exact LChains.val_of_wf b2 (by rw [widths_length]; exact hk) (by
        rw [widths_getD E hk]; omega)
  · unfold LChains.val
    rw [List.getD_eq_getElem?_getD, List.getElem?_eq_none (by omega)]
    exact LEntry.val_neg (e := LEntry.empty) (by simp [LEntry.empty]) j

omit [FloorRing K] [IsStrictOrderedRing K] in
theorem vert_of_isVertical (hS : SSOK rnd E (diam d fun v => cloud.getD v [])) {n deg : ℕ}
    (hn : n < E.columns.length) (hdeg : deg < E.rows) (c v : ℕ → ℕ → ℕ → ZMod E.p) :
    IsVertical E n deg c v ↔ ∀ k < E.spx n, ∀ g, ∀ i < (E.G n k deg).length,
      v k g i = ∑ j ∈ range (E.G n k (deg + 1)).length, vertCoef E n k deg i j * c k g j := by
  refine forall_congr' fun k => forall_congr' fun hk => ?_
  obtain ⟨o, pts, ho, hpts, hP⟩ := hS.piece n hn k hk
  have hG : ∀ e, E.G n k e = o.glob pts e := fun e => by simp only [SSEnv.G, ho, hpts]
  have hl : deg < o.cpx.simplices.length := by have := hP.levels; omega
  obtain ⟨e1, e2, -⟩ := hP.diff_entry hS.prime.two_le hl
  have hdl : deg < o.diff.length := by
    obtain ⟨n', hd⟩ := hP.diff
    rw [(C19_differentials_boundary hS.prime.two_le hP.cpx n' o.diff hd).2.1]
    exact hl
  have hM : o.diff.getD deg ⟨0, []⟩ = o.diff[deg] := List_getD_eq_getElem _ _ hdl
  rw [hM] at e1 e2
  have hv : ∀ i j, vertCoef E n k deg i j = o.diff[deg].z E.p i j := by
    intro i j
    simp only [vertCoef, ho]
    rw [hM]
  rw [hG, hG, ← e1, ← e2]
  constructor
  · rintro ⟨o', M, ho', hM', hv'⟩ g i hi
    rw [ho] at ho'
    obtain rfl := Except.ok.inj ho'
    rw [List.getElem?_eq_getElem hdl] at hM'
    obtain rfl := Option.some.inj hM'
    rw [hv' g i hi]
    exact Finset.sum_congr rfl fun j _ => by rw [hv]
  · intro hh
    refine ⟨o, o.diff[deg], ho, List.getElem?_eq_getElem hdl, fun g i hi => ?_⟩
    rw [hh g i hi]
    exact Finset.sum_congr rfl fun j _ => by rw [hv]

/-- **C46.** Let `V` hold the vertical boundary of the chains `C` on a column `n + 1` that is not
empty.  Then the vertical boundary of `cech_diff C` is minus `cech_diff V`, mod `p`. -/
theorem C46_anticommute (h : MVInput pdist d argsort maxR maxDiv dim cloud p lo hi side)
    (hE : createEnv pdist argsort rnd maxR maxDim maxDiv overlap dim cloud p = .ok E) (n deg : ℕ)
    (hn : n + 1 < 2 ^ dim) (hdeg : deg < maxDim) (hpos : 0 < E.spx (n + 1)) (C V : LChains)
    (hC : C.WF (E.widths (n + 1) (deg + 1))) (hV : V.WF (E.widths (n + 1) deg))
    (hCV : IsVertical E (n + 1) deg (fun k g j => C.val k g j) fun k g j => V.val k g j) :
    ∃ δC δV, cechDiff E n (deg + 1) C = .ok δC ∧ cechDiff E n deg V = .ok δV ∧
      IsVertical E n deg (fun k g j => δC.val k g j) fun k g j => -δV.val k g j := by
  obtain ⟨hS, rfl, rfl, rfl, h7⟩ := h.env hE
  obtain ⟨D, hD⟩ := hS.hasDiff n (by omega)
  obtain ⟨δC, c1, -, -, -, c5⟩ := cechDiff_spec hS hD (by omega) hpos (by omega) hC
  obtain ⟨δV, b1, -, -, -, b5⟩ := cechDiff_spec hS hD (by omega) hpos (by omega) hV
  refine ⟨δC, δV, c1, b1, ?_⟩
  rw [vert_of_isVertical hS (by omega) hdeg] at hCV ⊢
  intro k hk g j hj
  rw [b5 k hk g j hj, neg_eq_iff_add_eq_zero, ← cech_vert hS hD (by omega) hdeg hk hj
    (fun l a => (C.val l g a : ZMod E.p))]
  congr 1
  · refine Finset.sum_congr rfl fun l hl => Finset.sum_congr rfl fun i hi => ?_
    rw [hCV l (mem_range.1 hl) g i (mem_range.1 hi)]
  · refine Finset.sum_congr rfl fun b hb => ?_
    rw [c5 k hk g b (mem_range.1 hb)]

end

/-! ### A concrete case: the corners of a rectangle, covered by four squares -/

def rectD (a b : List ℚ) : ℚ :=
  if a.getD 0 0 = b.getD 0 0 then (if a.getD 1 0 = b.getD 1 0 then 0 else 4)
  else if a.getD 1 0 = b.getD 1 0 then 3 else 5

theorem rect_box : IsBox 2 2 rectCloud (fun _ => 0) (fun d => 3 + d) 2 := by
  refine ⟨?_, ?_, ⟨⟨1, by omega, by norm_num⟩, ?_⟩⟩
  · intro d hd
    refine ⟨⟨[0, 0], by simp [rectCloud], ?_⟩, ?_⟩
    · have : d = 0 ∨ d = 1 := by omega
      rcases this with rfl | rfl <;> rfl
    · rintro x ⟨pt, hpt, rfl⟩
      have : d = 0 ∨ d = 1 := by omega
      simp only [rectCloud, List.mem_cons, List.not_mem_nil, or_false] at hpt
      rcases this with rfl | rfl <;> rcases hpt with rfl | rfl | rfl | rfl <;> norm_num
  · intro d hd
    refine ⟨⟨[3, 4], by simp [rectCloud], ?_⟩, ?_⟩
    · have : d = 0 ∨ d = 1 := by omega
      rcases this with rfl | rfl <;> norm_num
    · rintro x ⟨pt, hpt, rfl⟩
      have : d = 0 ∨ d = 1 := by omega
      simp only [rectCloud, List.mem_cons, List.not_mem_nil, or_false] at hpt
      rcases this with rfl | rfl <;> rcases hpt with rfl | rfl | rfl | rfl <;> norm_num
  · rintro x ⟨d, hd, rfl⟩
    have : d = 0 ∨ d = 1 := by omega
    rcases this with rfl | rfl <;> norm_num

theorem rect_input : MVInput rectDist rectD stableArgsort 6 2 2 rectCloud 5 (fun _ => 0)
    (fun d => 3 + d) 2 where
  prime := by decide
  dist := ⟨fun c => rfl, fun a b => by unfold rectD; split_ifs <;> norm_num⟩
  sort := stableArgsort_isArgsort
  radius := by norm_num
  points := by simp [rectCloud]
  dim_pos := by norm_num
  div_pos := by norm_num
  box := rect_box
  side_pos := by norm_num

def rectEnv : Except PyErr (SSEnv ℚ) := createEnv rectDist stableArgsort id 6 2 2 7 2 rectCloud 5

/-- The hypotheses of C45 and C46 are met by chains that are not zero: the column `2` has four pieces, each
with the four points, six edges and four triangles of the cloud. -/
example : (rectEnv.map fun E => [[E.spx 0, E.spx 1, E.spx 2, E.spx 3], E.widths 2 0, E.widths 2 1,
    E.widths 1 1, E.widths 1 2]) =
    .ok [[4, 6, 4, 1], [4, 4, 4, 4], [6, 6, 6, 6], [6, 6, 6, 6, 6, 6], [4, 4, 4, 4, 4, 4]] := by
  decide +kernel

/-- The Čech differential of a point on one of the pieces of column `2`, and the next one. -/
def rectChain : LChains := [⟨[0], [[1, 0, 2, 0]]⟩, LEntry.empty, LEntry.empty, LEntry.empty]

example : rectChain.WF [4, 4, 4, 4] := by
  unfold rectChain LChains.WF
  refine .cons ⟨by simp, by simp, by simp⟩ (.cons ?_ (.cons ?_ (.cons ?_ .nil))) <;>
    exact ⟨by simp [LEntry.empty], by simp [LEntry.empty], by simp [LEntry.empty]⟩

example : (rectEnv.bind fun E => (cechDiff E 1 0 rectChain).bind fun C₁ =>
    (cechDiff E 0 0 C₁).map fun C₂ => [C₁, C₂]) =
    .ok [[⟨[0], [[1, 0, 2, 0]]⟩, ⟨[0], [[4, 0, 3, 0]]⟩, ⟨[0], [[1, 0, 2, 0]]⟩, ⟨[], []⟩, ⟨[], []⟩, ⟨[], []⟩],
      [⟨[0], [[0, 0, 0, 0]]⟩, ⟨[0], [[0, 0, 0, 0]]⟩, ⟨[0], [[0, 0, 0, 0]]⟩, ⟨[], []⟩]] := by
  decide +kernel

end Permaviss
