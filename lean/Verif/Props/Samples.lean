import Verif.Lemmas.Samples
import Mathlib.Analysis.SpecialFunctions.Trigonometric.Angle
import Mathlib.Tactic.Linarith
import Mathlib.Tactic.Ring
import Mathlib.Tactic.Positivity
import Mathlib.Tactic.NormNum
import Mathlib.Tactic.FieldSimp
import Mathlib.Data.Rat.Floor
import Mathlib.Algebra.BigOperators.Intervals

/-!
# Sample point clouds: C55 and C56
-/

namespace Permaviss

open Spec

section Sample

variable {K : Type} [Field K] [LinearOrder K] [IsStrictOrderedRing K] [FloorRing K]

/-- **C55**.  For every nonempty cloud and every value `u` of `np.random.rand()`, `take_sample` returns
`max(1, min(n, no_samples))` points of the cloud, at different positions, each as far as possible
from the ones before, and which are as close to all points as they are to each other. -/
theorem C55_take_sample {d : List K → List K → K} (hd : IsDist d) (cloud : List (List K))
    (hne : cloud ≠ []) (noSamples : Int) (u : K) (hu0 : 0 ≤ u) (hu1 : u < 1) :
    ∃ S : List (List K), takeSample d cloud noSamples u = .ok S ∧
      (S.length : Int) = max 1 (min (cloud.length : Int) noSamples) ∧
      ∃ f : Fin S.length → Fin cloud.length, (∀ k, S.get k = cloud.get (f k)) ∧
        FarthestFirst d cloud.get f := by
  have hn : 0 < cloud.length := List.length_pos_iff.2 hne
  set n := cloud.length with hnd
  have hD0 : ∀ i, squareform d cloud i i = 0 := fun i => by simp [squareform]
  have hDn : ∀ i j, 0 ≤ squareform d cloud i j := fun i j => by
    unfold squareform; split
    · exact le_rfl
    · exact hd.nonneg _ _
  have hD : ∀ (i j : Fin n), squareform d cloud i j = d (cloud.get i) (cloud.get j) := by
    intro i j
    unfold squareform
    have hi : cloud.getD i.1 [] = cloud.get i := List_getD_eq_getElem _ _ i.2
    have hj : cloud.getD j.1 [] = cloud.get j := List_getD_eq_getElem _ _ j.2
    split
    · rename_i h
      rw [Fin.ext h, hd.self]
    · rcases le_total i.1 j.1 with h | h
      · rw [min_eq_left h, max_eq_right h, hi, hj]
      · rw [min_eq_right h, max_eq_left h, hi, hj, hd.symm]
  -- the first point
  have hk1 : 0 ≤ ⌊u * (n : K)⌋ := Int.floor_nonneg.2 (mul_nonneg hu0 (Nat.cast_nonneg _))
  have hk2 : ⌊u * (n : K)⌋ < n := by
    rw [Int.floor_lt]
    have : (0 : K) < n := by exact_mod_cast hn
    push_cast
    nlinarith
  have hinv : SampleInv (squareform d cloud) n [⌊u * (n : K)⌋ - 1] := by
    refine ⟨by simp, ?_, by simp, by simp, ?_⟩
    · intro k hk; rw [List.mem_singleton.1 hk]; omega
    · intro k h0 h1; simp at h1; omega
  obtain ⟨sel, e, hI, hl⟩ := sampleLoop hn hD0 hDn
    (List.range (min (n : Int) noSamples - 1).toNat) _ hinv (by simp; omega)
  refine ⟨sel.map fun s => cloud.getD (pyIdx n s) [], ?_, ?_, ?_⟩
  · unfold takeSample
    rw [if_neg hne]
    rw [← hnd, e]; rfl
  · simp at hl
    simp only [List.length_map, hl]; omega
  have hlt : ∀ k (hk : k < sel.length), pyIdx n sel[k] < n := fun k hk =>
    pyIdx_lt hn (hI.ge _ (List.getElem_mem hk)).1 (hI.ge _ (List.getElem_mem hk)).2
  have hlen : (sel.map fun s => cloud.getD (pyIdx n s) []).length = sel.length := by simp
  have hg : ∀ k (hk : k < sel.length), (sel.map (pyIdx n)).getD k 0 = pyIdx n sel[k] := by
    intro k hk
    rw [List_getD_eq_getElem _ _ (by simpa using hk), List.getElem_map]
  have hfar : ∀ (k : Nat) (hk : k < sel.length), 0 < k → ∀ i : Fin n, ∃ (a : Nat) (ha : a < sel.length), a < k ∧
      ∀ (b : Nat) (hb : b < sel.length), b < k →
        d (cloud.get i) (cloud.get ⟨pyIdx n sel[a], hlt a ha⟩) ≤
          d (cloud.get ⟨pyIdx n sel[k], hlt k hk⟩) (cloud.get ⟨pyIdx n sel[b], hlt b hb⟩) := by
    intro k hk h0 i
    obtain ⟨a, ha, hb⟩ := hI.far k h0 hk i.1 i.2
    refine ⟨a, ha.trans hk, ha, fun b hbl hbk => ?_⟩
    have := hb b hbk
    rw [hg a (ha.trans hk), hg k hk, hg b hbl] at this
    rwa [hD i ⟨pyIdx n sel[a], hlt a _⟩, hD ⟨pyIdx n sel[k], hlt k hk⟩ ⟨pyIdx n sel[b], hlt b hbl⟩] at this
  refine ⟨fun k => ⟨pyIdx n (sel[k.1]'(hlen ▸ k.2)), hlt _ _⟩, ?_, ?_, ?_, ?_⟩
  · intro k
    have hk : k.1 < sel.length := hlen ▸ k.2
    simp only [List.get_eq_getElem, List.getElem_map]
    exact List_getD_eq_getElem _ _ (hlt k hk)
  · intro a b hab
    have ha : a.1 < sel.length := hlen ▸ a.2
    have hb : b.1 < sel.length := hlen ▸ b.2
    have h1 : pyIdx n sel[a.1] = pyIdx n sel[b.1] := by simpa using hab
    have h2 : (sel.map (pyIdx n))[a.1]'(by simpa using ha) = (sel.map (pyIdx n))[b.1]'(by simpa using hb) := by
      simpa using h1
    exact Fin.ext ((List.Nodup.getElem_inj_iff hI.nodup).1 h2)
  · intro k h0 i
    obtain ⟨a, ha, hak, hb⟩ := hfar k (hlen ▸ k.2) h0 i
    exact ⟨⟨a, hlen.symm ▸ ha⟩, hak, fun b hbk => hb b (hlen ▸ b.2) hbk⟩
  · intro i
    have hpos : 0 < sel.length := List.length_pos_iff.2 hI.ne
    -- the sampled point nearest to `i`
    obtain ⟨a, ha⟩ : ∃ a : Fin sel.length, ∀ b : Fin sel.length,
        d (cloud.get i) (cloud.get ⟨pyIdx n sel[a.1], hlt a a.2⟩) ≤
          d (cloud.get i) (cloud.get ⟨pyIdx n sel[b.1], hlt b b.2⟩) := by
      have : Nonempty (Fin sel.length) := ⟨⟨0, hpos⟩⟩
      exact Finite.exists_min _
    refine ⟨⟨a.1, hlen.symm ▸ a.2⟩, ?_⟩
    have key : ∀ (b c : Nat) (hb : b < sel.length) (hc : c < sel.length), b < c →
        d (cloud.get i) (cloud.get ⟨pyIdx n sel[a.1], hlt a a.2⟩) ≤
          d (cloud.get ⟨pyIdx n sel[c], hlt c hc⟩) (cloud.get ⟨pyIdx n sel[b], hlt b hb⟩) := by
      intro b c hb hc hbc
      obtain ⟨a', ha', _, hle⟩ := hfar c hc (by omega) i
      exact (ha ⟨a', ha'⟩).trans (hle b hb hbc)
    intro b c hbc
    rcases lt_or_gt_of_ne (fun h => hbc (Fin.ext h) : b.1 ≠ c.1) with h | h
    · have := key b c (hlen ▸ b.2) (hlen ▸ c.2) h
      exact this.trans (hd.symm _ _).le
    · exact key c b (hlen ▸ c.2) (hlen ▸ b.2) h

/-- The maximum of the coordinate differences, on points of the line. -/
def lineDist (x y : List ℚ) : ℚ := |x.getD 0 0 - y.getD 0 0|

example : IsDist lineDist :=
  ⟨fun _ _ => abs_nonneg _, fun _ => by simp [lineDist], fun _ _ => abs_sub_comm _ _⟩

/-- The start `-1` that line 32 allows: the last point is taken first, and it is not taken again. -/
example : (takeSample lineDist [[0], [1], [4], [6], [10]] 4 (1 / 10)).toOption =
    some [[10], [0], [4], [6]] := by decide +kernel

/-- The coordinates of a centred row of points add up to zero. -/
theorem sum_centred (n : Nat) :
    ((List.range n).map fun i : ℕ => (i : K) - ((n : K) / 2 - 1 / 2)).sum = 0 := by
  have key : ∀ (c : K) (m : Nat), ((List.range m).map fun i : ℕ => (i : K) - c).sum =
      (m : K) * ((m : K) / 2 - 1 / 2) - m * c := by
    intro c m
    induction m with
    | zero => simp
    | succ m ih =>
        rw [List.range_succ, List.map_append, List.sum_append, ih]
        simp only [List.map_cons, List.map_nil, List.sum_cons, List.sum_nil]
        push_cast; ring
  rw [key]; ring

theorem sum_map_const (L : List ℕ) (c : K) : (L.map fun _ => c).sum = L.length * c := by
  simp

theorem sum_flatMap_map {β γ : Type} (L : List β) (F : β → List γ) (g : γ → K) :
    ((L.flatMap F).map g).sum = (L.map fun i => ((F i).map g).sum).sum := by
  induction L with
  | nil => rfl
  | cons a L ih => simp [List.flatMap_cons, ih]

/-- **C56**, the plane grid: `hdiv * vdiv` different points whose coordinates add up to zero. -/
theorem C56_grid (hdiv vdiv : Nat) :
    (grid hdiv vdiv : List (List K)).length = hdiv * vdiv ∧ (grid hdiv vdiv : List (List K)).Nodup ∧
      (∀ x ∈ (grid hdiv vdiv : List (List K)), x.length = 2) ∧
      ∀ k, ((grid hdiv vdiv : List (List K)).map fun x => x.getD k 0).sum = 0 := by
  refine ⟨by simp [grid], ?_, ?_, ?_⟩
  · refine List.nodup_flatMap.2 ⟨?_, ?_⟩
    · intro i _
      refine List.Nodup.map ?_ List.nodup_range
      intro a b h
      simpa using h
    · refine List.nodup_range.imp ?_
      intro a b hab x hx hy
      obtain ⟨j, _, rfl⟩ := List.mem_map.1 hx
      obtain ⟨j', _, h⟩ := List.mem_map.1 hy
      simp at h
      exact hab h.1.symm
  · intro x hx
    obtain ⟨i, _, hx⟩ := List.mem_flatMap.1 hx
    obtain ⟨j, _, rfl⟩ := List.mem_map.1 hx
    rfl
  · intro k
    unfold grid
    rw [sum_flatMap_map]
    match k with
    | 0 =>
        simp only [List.map_map, Function.comp_def, List.getD_cons_zero, sum_map_const]
        rw [List.sum_map_mul_left, sum_centred, mul_zero]
    | 1 =>
        simp only [List.map_map, Function.comp_def, List.getD_cons_succ, List.getD_cons_zero,
          sum_centred, sum_map_const, mul_zero]
    | k + 2 =>
        simp [List.map_map, Function.comp_def]

/-- **C56**, the grid in space. -/
theorem C56_grid_tridimensional (hdiv vdiv ddiv : Nat) :
    (gridTridimensional hdiv vdiv ddiv : List (List K)).length = hdiv * vdiv * ddiv ∧
      (gridTridimensional hdiv vdiv ddiv : List (List K)).Nodup ∧
      (∀ x ∈ (gridTridimensional hdiv vdiv ddiv : List (List K)), x.length = 3) ∧
      ∀ k, ((gridTridimensional hdiv vdiv ddiv : List (List K)).map fun x => x.getD k 0).sum = 0 := by
  refine ⟨by simp [gridTridimensional, mul_assoc], ?_, ?_, ?_⟩
  · refine List.nodup_flatMap.2 ⟨?_, ?_⟩
    · intro i _
      refine List.nodup_flatMap.2 ⟨?_, ?_⟩
      · intro j _
        refine List.Nodup.map ?_ List.nodup_range
        intro a b h
        simpa using h
      · refine List.nodup_range.imp ?_
        intro a b hab x hx hy
        obtain ⟨j, _, rfl⟩ := List.mem_map.1 hx
        obtain ⟨j', _, h⟩ := List.mem_map.1 hy
        simp at h
        exact hab h.1.symm
    · refine List.nodup_range.imp ?_
      intro a b hab x hx hy
      obtain ⟨j, _, hx⟩ := List.mem_flatMap.1 hx
      obtain ⟨k, _, rfl⟩ := List.mem_map.1 hx
      obtain ⟨j', _, hy⟩ := List.mem_flatMap.1 hy
      obtain ⟨k', _, h⟩ := List.mem_map.1 hy
      simp at h
      exact hab h.1.symm
  · intro x hx
    obtain ⟨i, _, hx⟩ := List.mem_flatMap.1 hx
    obtain ⟨j, _, hx⟩ := List.mem_flatMap.1 hx
    obtain ⟨k, _, rfl⟩ := List.mem_map.1 hx
    rfl
  · intro k
    unfold gridTridimensional
    simp only [sum_flatMap_map]
    match k with
    | 0 =>
        simp only [List.map_map, Function.comp_def, List.getD_cons_zero, sum_map_const]
        rw [List.sum_map_mul_left, List.sum_map_mul_left, sum_centred, mul_zero, mul_zero]
    | 1 =>
        simp only [List.map_map, Function.comp_def, List.getD_cons_succ, List.getD_cons_zero,
          sum_map_const, List.sum_map_mul_left, sum_centred, mul_zero]
    | 2 =>
        simp only [List.map_map, Function.comp_def, List.getD_cons_succ, List.getD_cons_zero,
          sum_centred, sum_map_const, mul_zero]
    | k + 3 =>
        simp [List.map_map, Function.comp_def]

example : (grid 2 3 : List (List ℚ)) = [[-1/2, -1], [-1/2, 0], [-1/2, 1], [1/2, -1], [1/2, 0], [1/2, 1]] := by
  decide +kernel

end Sample

/-- **C56**, the circle: `no_points` different points at distance `radius` of the origin. -/
theorem C56_circle {noPoints : Nat} {radius : ℝ} (hn : 0 < noPoints) :
    ∃ S, circle noPoints radius = .ok S ∧ S.length = noPoints ∧ (radius ≠ 0 → S.Nodup) ∧
      ∀ v ∈ S, ∃ x y, v = [x, y] ∧ x ^ 2 + y ^ 2 = radius ^ 2 := by
  refine ⟨_, by unfold circle; rw [if_neg hn.ne'], by simp, ?_, ?_⟩
  · intro hr
    refine List.Nodup.map_on ?_ List.nodup_range
    intro a ha b hb hab
    have ha' : a < noPoints := List.mem_range.1 ha
    have hb' : b < noPoints := List.mem_range.1 hb
    simp only [List.cons.injEq, mul_eq_mul_left_iff, hr, or_false, and_true] at hab
    have h1 := Real.Angle.cos_sin_inj hab.1 hab.2
    rw [Real.Angle.angle_eq_iff_two_pi_dvd_sub] at h1
    obtain ⟨k, hk⟩ := h1
    have hnn : (noPoints : ℝ) ≠ 0 := by exact_mod_cast hn.ne'
    have hpi : (2 * Real.pi) ≠ 0 := by positivity
    have h2 : ((a : ℝ) - b) = k * noPoints := by
      field_simp at hk
      rw [hk, mul_comm]
    have h4 : (a : ℤ) - b = k * noPoints := by exact_mod_cast h2
    have h5 : k = 0 := by
      rcases lt_trichotomy k 0 with h | h | h
      · nlinarith
      · exact h
      · nlinarith
    rw [h5] at h4; omega
  · intro v hv
    obtain ⟨n, _, rfl⟩ := List.mem_map.1 hv
    refine ⟨_, _, rfl, ?_⟩
    rw [mul_pow, mul_pow, ← mul_add, Real.cos_sq_add_sin_sq, mul_one]

/-- `circle(0, radius)` raises an exception. -/
theorem C56_circle_zero (radius : ℝ) : circle 0 radius = .error .zeroDivisionError := by
  simp [circle]

/-- **C56**, points around a circle: the distance to the centre lies between `radius` and
`radius * (1 + epsilon)`. -/
theorem C56_random_circle {rand : ℕ → ℝ} (hrand : ∀ k, 0 ≤ rand k ∧ rand k < 1) (noPoints : Nat)
    {radius epsilon : ℝ} (hr : 0 ≤ radius) (he : 0 ≤ epsilon) (center : ℝ × ℝ) :
    (randomCircle rand noPoints radius epsilon center).length = noPoints ∧
      ∀ v ∈ randomCircle rand noPoints radius epsilon center, ∃ x y, v = [x, y] ∧
        radius ≤ Real.sqrt ((x - center.1) ^ 2 + (y - center.2) ^ 2) ∧
        Real.sqrt ((x - center.1) ^ 2 + (y - center.2) ^ 2) ≤ radius * (1 + epsilon) := by
  refine ⟨by simp [randomCircle], ?_⟩
  intro v hv
  obtain ⟨n, _, rfl⟩ := List.mem_map.1 hv
  refine ⟨_, _, rfl, ?_⟩
  set ρ := radius * (1 + rand (2 * n + 1) * epsilon) with hρ
  have h := hrand (2 * n + 1)
  have h1 : radius ≤ ρ := by
    have := mul_nonneg hr (mul_nonneg h.1 he)
    rw [hρ]; linarith
  have h2 : ρ ≤ radius * (1 + epsilon) := by
    rw [hρ]
    apply mul_le_mul_of_nonneg_left _ hr
    have := mul_le_mul_of_nonneg_right h.2.le he
    linarith
  have h3 : Real.sqrt ((center.1 + ρ * Real.cos (rand (2 * n) * 2 * Real.pi) - center.1) ^ 2 +
      (center.2 + ρ * Real.sin (rand (2 * n) * 2 * Real.pi) - center.2) ^ 2) = ρ := by
    clear_value ρ
    rw [add_sub_cancel_left, add_sub_cancel_left, mul_pow, mul_pow, ← mul_add,
      Real.cos_sq_add_sin_sq, mul_one, Real.sqrt_sq (hr.trans h1)]
  rw [h3]
  exact ⟨h1, h2⟩

/-- **C56**, the torus: the circle of radius `min_rad` turned around the axis at distance
`max_rad`. -/
theorem C56_torus3D (rand : ℕ → ℝ) (noPoints : Nat) {minRad maxRad : ℝ} (h0 : 0 ≤ minRad)
    (h1 : minRad ≤ maxRad) :
    ∃ S, torus3D rand noPoints minRad maxRad = .ok S ∧ S.length = noPoints ∧
      ∀ v ∈ S, ∃ x y z, v = [x, y, z] ∧
        (Real.sqrt (x ^ 2 + y ^ 2) - maxRad) ^ 2 + z ^ 2 = minRad ^ 2 := by
  refine ⟨_, by unfold torus3D; rw [if_neg (not_lt.2 h1)], by simp, ?_⟩
  intro v hv
  obtain ⟨n, _, rfl⟩ := List.mem_map.1 hv
  refine ⟨_, _, _, rfl, ?_⟩
  set α := rand (2 * n + 1) * 2 * Real.pi
  set θ := rand (2 * n) * 2 * Real.pi
  have h2 : 0 ≤ maxRad + minRad * Real.cos α := by
    have := Real.neg_one_le_cos α
    nlinarith
  rw [mul_pow, mul_pow, ← mul_add, Real.cos_sq_add_sin_sq, mul_one, Real.sqrt_sq h2,
    add_sub_cancel_left, mul_pow, mul_pow, ← mul_add, Real.cos_sq_add_sin_sq, mul_one]

/-- `torus3D` rejects a section wider than the torus. -/
theorem C56_torus3D_error (rand : ℕ → ℝ) (noPoints : Nat) {minRad maxRad : ℝ} (h : maxRad < minRad) :
    torus3D rand noPoints minRad maxRad = .error .valueError := by
  simp [torus3D, h]

theorem ballPoint_ok {rand : ℕ → ℝ} {radius : ℝ} {dim : Nat} : ∀ {fuel pos : Nat} {x : List ℝ × Nat},
    ballPoint rand radius dim fuel pos = .ok x →
      ∃ q, x.1 = drawPoint rand q dim radius ∧ npNorm x.1 < radius := by
  intro fuel
  induction fuel with
  | zero => intro pos x h; cases h
  | succ fuel ih =>
      intro pos x h
      unfold ballPoint at h
      split at h
      · rename_i hc
        cases h
        exact ⟨pos, rfl, hc⟩
      · exact ih h

theorem ballLoop_ok {rand : ℕ → ℝ} {radius : ℝ} {dim fuel : Nat} : ∀ {k pos : Nat} {S : List (List ℝ)},
    ballLoop rand radius dim fuel k pos = .ok S → S.length = k ∧
      ∀ v ∈ S, ∃ q, v = drawPoint rand q dim radius ∧ npNorm v < radius := by
  intro k
  induction k with
  | zero => intro pos S h; cases h; exact ⟨rfl, by simp⟩
  | succ k ih =>
      intro pos S h
      unfold ballLoop at h
      obtain ⟨x, hx, h⟩ := bind_ok.1 h
      obtain ⟨r, hr, h⟩ := bind_ok.1 h
      cases h
      obtain ⟨h1, h2⟩ := ih hr
      refine ⟨by simp [h1], ?_⟩
      intro v hv
      rcases List.mem_cons.1 hv with rfl | hv
      · exact ballPoint_ok hx
      · exact h2 v hv

/-- **C56**, the ball: when it returns, `ball` returns `no_points` points with `dim` coordinates at
distance less than `radius` of the origin.  (In fact they also lie in a cube of side `radius`, so
that most of the ball is never reached.) -/
theorem C56_ball {rand : ℕ → ℝ} (hrand : ∀ k, 0 ≤ rand k ∧ rand k < 1) {fuel noPoints dim : Nat}
    {radius : ℝ} {S : List (List ℝ)} (h : ball rand fuel noPoints radius dim = .ok S) :
    S.length = noPoints ∧ ∀ v ∈ S, v.length = dim ∧ npNorm v < radius ∧
      ∀ x ∈ v, |x| ≤ radius / 2 := by
  obtain ⟨h1, h2⟩ := ballLoop_ok h
  refine ⟨h1, fun v hv => ?_⟩
  obtain ⟨q, hq, hn⟩ := h2 v hv
  have hr : 0 < radius := lt_of_le_of_lt (Real.sqrt_nonneg _) hn
  refine ⟨by rw [hq]; simp [drawPoint], hn, ?_⟩
  intro x hx
  rw [hq] at hx
  obtain ⟨e, _, rfl⟩ := List.mem_map.1 hx
  have := hrand (q + e)
  rw [abs_mul, abs_of_pos hr]
  have h3 : |rand (q + e) - 1 / 2| ≤ 1 / 2 := by rw [abs_le]; constructor <;> linarith
  nlinarith

theorem drawPoint_norm_lt {rand : ℕ → ℝ} (hrand : ∀ k, 0 ≤ rand k ∧ rand k < 1) {dim : Nat}
    (hdim : dim ≤ 3) {radius : ℝ} (hr : 0 < radius) (pos : Nat) :
    npNorm (drawPoint rand pos dim radius) < radius := by
  unfold npNorm
  rw [Real.sqrt_lt' hr]
  have hb : ∀ k, ((rand k - 1 / 2) * radius) ^ 2 ≤ radius ^ 2 / 4 := by
    intro k
    rw [mul_pow]
    have := hrand k
    have h2 : (rand k - 1 / 2) ^ 2 ≤ 1 / 4 := by nlinarith
    nlinarith [sq_nonneg radius]
  have hs : ((drawPoint rand pos dim radius).map fun x => x ^ 2).sum ≤ dim * (radius ^ 2 / 4) := by
    unfold drawPoint
    rw [List.map_map]
    have := List.sum_le_card_nsmul ((List.range dim).map ((fun x : ℝ => x ^ 2) ∘ fun d =>
      (rand (pos + d) - 1 / 2) * radius)) (radius ^ 2 / 4) (by
        intro x hx
        obtain ⟨e, _, rfl⟩ := List.mem_map.1 hx
        exact hb _)
    simpa using this
  have hd : (dim : ℝ) ≤ 3 := by exact_mod_cast hdim
  have hp : 0 < radius ^ 2 := by positivity
  nlinarith

theorem ballLoop_total {rand : ℕ → ℝ} (hrand : ∀ k, 0 ≤ rand k ∧ rand k < 1) {dim : Nat}
    (hdim : dim ≤ 3) {radius : ℝ} (hr : 0 < radius) (fuel : Nat) : ∀ k pos,
    ∃ S, ballLoop rand radius dim (fuel + 1) k pos = .ok S := by
  intro k
  induction k with
  | zero => intro pos; exact ⟨[], rfl⟩
  | succ k ih =>
      intro pos
      obtain ⟨S, hS⟩ := ih (pos + dim)
      refine ⟨drawPoint rand pos dim radius :: S, ?_⟩
      unfold ballLoop ballPoint
      rw [if_pos (drawPoint_norm_lt hrand hdim hr pos)]
      change (do let rest ← ballLoop rand radius dim (fuel + 1) k (pos + dim); pure _) = _
      rw [hS]; rfl

/-- Up to dimension three the first point drawn is always accepted, so `ball` returns. -/
theorem C56_ball_total {rand : ℕ → ℝ} (hrand : ∀ k, 0 ≤ rand k ∧ rand k < 1) {dim : Nat}
    (hdim : dim ≤ 3) {radius : ℝ} (hr : 0 < radius) (noPoints fuel : Nat) :
    ∃ S, ball rand (fuel + 1) noPoints radius dim = .ok S :=
  ballLoop_total hrand hdim hr fuel noPoints 0

/-- With a radius which is not positive `ball` never returns, whatever is drawn. -/
theorem C56_ball_diverges (rand : ℕ → ℝ) {noPoints : Nat} (hn : 0 < noPoints) {radius : ℝ}
    (hr : radius ≤ 0) (dim fuel : Nat) : ball rand fuel noPoints radius dim = .error .outOfFuel := by
  have key : ∀ fuel pos, ballPoint rand radius dim fuel pos = .error .outOfFuel := by
    intro fuel
    induction fuel with
    | zero => intro pos; rfl
    | succ fuel ih =>
        intro pos
        unfold ballPoint
        have h0 : 0 ≤ npNorm (drawPoint rand pos dim radius) := Real.sqrt_nonneg _
        rw [if_neg (not_lt.2 (hr.trans h0)), ih]
  obtain ⟨k, rfl⟩ := Nat.exists_eq_succ_of_ne_zero hn.ne'
  unfold ball ballLoop
  rw [key]; rfl

/-- **C56**, the cube: coordinates between `-1/2` and `1/2`. -/
theorem C56_random_cube {rand : ℕ → ℝ} (hrand : ∀ k, 0 ≤ rand k ∧ rand k < 1) (noPoints dim : Nat) :
    (randomCube rand noPoints dim).length = noPoints ∧
      ∀ v ∈ randomCube rand noPoints dim, v.length = dim ∧ ∀ x ∈ v, -(1 / 2) ≤ x ∧ x < 1 / 2 := by
  refine ⟨by simp [randomCube], ?_⟩
  intro v hv
  obtain ⟨n, _, rfl⟩ := List.mem_map.1 hv
  refine ⟨by simp, ?_⟩
  intro x hx
  obtain ⟨e, _, rfl⟩ := List.mem_map.1 hx
  have := hrand (n * dim + e)
  constructor <;> linarith

/-- **C56**, the sphere: the points returned are on the sphere of radius one, whatever radius is asked
for, unless all coordinates drawn for a point are zero. -/
theorem C56_random_sphere_partial {rand : ℕ → ℝ} {noPoints dim : Nat} {radius : ℝ} (hr : radius ≠ 0)
    (hdraw : ∀ n < noPoints, ∃ k < dim, rand (n * dim + k) ≠ 1 / 2) :
    (randomSphere rand noPoints radius dim).length = noPoints ∧
      ∀ v ∈ randomSphere rand noPoints radius dim, v.length = dim ∧ npNorm v = 1 := by
  refine ⟨by simp [randomSphere], ?_⟩
  intro v hv
  obtain ⟨n, hn, rfl⟩ := List.mem_map.1 hv
  refine ⟨by simp [drawPoint], ?_⟩
  set w := drawPoint rand (n * dim) dim radius with hw
  obtain ⟨k, hk, hne⟩ := hdraw n (List.mem_range.1 hn)
  have hpos : 0 < (w.map fun x => x ^ 2).sum := by
    have hmem : ((rand (n * dim + k) - 1 / 2) * radius) ^ 2 ∈ w.map fun x => x ^ 2 :=
      List.mem_map.2 ⟨_, List.mem_map.2 ⟨k, List.mem_range.2 hk, rfl⟩, rfl⟩
    have h1 := List.single_le_sum (l := w.map fun x => x ^ 2) (by
      intro x hx; obtain ⟨y, _, rfl⟩ := List.mem_map.1 hx; positivity) _ hmem
    have h2 : (rand (n * dim + k) - 1 / 2) * radius ≠ 0 := mul_ne_zero (sub_ne_zero.2 hne) hr
    have : 0 < ((rand (n * dim + k) - 1 / 2) * radius) ^ 2 := by positivity
    linarith
  have hN : 0 < npNorm w := Real.sqrt_pos.2 hpos
  have hsq : npNorm w ^ 2 = (w.map fun x => x ^ 2).sum := Real.sq_sqrt hpos.le
  have : ((w.map fun x => x / npNorm w).map fun x => x ^ 2).sum = 1 := by
    rw [List.map_map]
    have h3 : ((fun x : ℝ => x ^ 2) ∘ fun x => x / npNorm w) = fun x => x ^ 2 * (npNorm w ^ 2)⁻¹ := by
      funext x; simp only [Function.comp]; rw [div_pow, div_eq_mul_inv]
    rw [h3, List.sum_map_mul_right, ← hsq]
    exact mul_inv_cancel₀ (by positivity)
  change Real.sqrt _ = 1
  rw [this, Real.sqrt_one]

/-- The radius asked for is ignored by `random_sphere`: asked for radius two, it returns a point at
distance one of the origin. -/
theorem C56_violated : ∃ (rand : ℕ → ℝ) (radius : ℝ), (∀ k, 0 ≤ rand k ∧ rand k < 1) ∧ 0 < radius ∧
    ∃ v ∈ randomSphere rand 1 radius 2, npNorm v ≠ radius := by
  refine ⟨fun _ => 0, 2, fun _ => by norm_num, by norm_num, ?_⟩
  have h := C56_random_sphere_partial (rand := fun _ => 0) (noPoints := 1) (dim := 2) (radius := 2)
    (by norm_num) (fun n _ => ⟨0, by norm_num, by norm_num⟩)
  obtain ⟨v, hv⟩ : ∃ v, v ∈ randomSphere (fun _ => 0) 1 2 2 := by
    cases hS : randomSphere (fun _ => 0) 1 2 2 with
    | nil => rw [hS] at h; simp at h
    | cons v _ => exact ⟨v, List.mem_cons_self ..⟩
  refine ⟨v, hv, ?_⟩
  rw [(h.2 v hv).2]; norm_num

/-- The draws of the theorems above exist. -/
example : ∀ k : ℕ, 0 ≤ (fun _ : ℕ => (1 / 3 : ℝ)) k ∧ (fun _ : ℕ => (1 / 3 : ℝ)) k < 1 :=
  fun _ => by norm_num

end Permaviss
