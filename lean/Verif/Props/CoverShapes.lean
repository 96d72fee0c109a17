import Verif.Props.Bottleneck
import Verif.Props.Robust
import Verif.Props.Collapse
import Verif.Props.FewPoints

/-!
# C96: the result of `create_MV_ss` for particular clouds

Facts about the ordinary computation that hold for the spectral sequence of a cover: `CoverRun` says that a run with
`max_dim = 2` met the requirements of the cover and returned `out`.
-/

namespace Permaviss

variable {K K' : Type} [Field K] [LinearOrder K] [IsStrictOrderedRing K] [FloorRing K]
  [Field K'] [LinearOrder K'] [IsStrictOrderedRing K'] [FloorRing K'] {p : ℕ}
  {pdist : List (List K) → List (List K)} {pdist' : List (List K') → List (List K')}
  {d : List K → List K → K} {d' : List K' → List K' → K'}
  {argsort : List K → List Nat} {argsort' : List K' → List Nat} {rnd : K → K} {rnd' : K' → K'}
  {maxR overlap : K} {maxR' overlap' : K'} {maxDiv maxDiv' dim dim' : ℕ} {cloud : List (List K)}
  {cloud' : List (List K')} {lo hi : ℕ → K} {lo' hi' : ℕ → K'} {side : K} {side' : K'} {out : MVOut K}
  {out' : MVOut K'}

/-- **C96**: change of units.  If the distances of the second cloud and its maximal radius are those of the first one
after an increasing change of scale `φ`, the bars of the second result are those of the first one after `φ`. -/
theorem C96_units (φ : K ≃o K') (hφ : φ 0 = 0)
    (h : CoverRun pdist d argsort rnd maxR maxDiv overlap dim cloud p lo hi side out)
    (h' : CoverRun pdist' d' argsort' rnd' (φ maxR) maxDiv' overlap' dim' cloud' p lo' hi' side' out')
    (hlen : cloud.length = cloud'.length)
    (hdist : ∀ u (hu : u < cloud.length) v (hv : v < u), d' cloud'[u] cloud'[v] = φ (d cloud[u] cloud[v])) :
    ∀ i < 2, (entryBars out'.persistentHomology i).Perm
      ((entryBars out.persistentHomology i).map fun b => (φ b.1, φ b.2)) := by
  intro i hi2
  obtain ⟨-, L, r1, r2⟩ := h.direct
  obtain ⟨-, L', s1, s2⟩ := h'.direct
  obtain ⟨B, b1, b2⟩ := r2 i hi2
  obtain ⟨B', c1, c2⟩ := s2 i hi2
  have he : (i : Int) < max 2 1 := by rw [max_eq_left (by norm_num)]; exact_mod_cast hi2
  obtain ⟨X, X', x1, x2, x3⟩ := C67_units h.input.prime φ hφ h.input.dist.isPdist
    h'.input.dist.isPdist h.input.sort h'.input.sort rnd rnd' cloud cloud' hlen
    (by
      intro u hu v hv
      rw [cloudDist_getElem h.input.dist hu (hv.trans hu), cloudDist_getElem h'.input.dist (hlen ▸ hu)
        (hlen ▸ (hv.trans hu))]
      exact hdist u hu v hv) h.input.radius 2 r1 s1 i he
  rw [b1] at x1; rw [c1] at x2
  obtain rfl := Option.some.inj x1
  obtain rfl := Option.some.inj x2
  exact c2.trans (x3.trans (b2.symm.map _))

/-- **C96**: the result depends on the set of points only.  Repeating points, or listing them in another order, does
not change the bars. -/
theorem C96_same_points {cloud₂ : List (List K)} {argsort₂ : List K → List Nat} {rnd₂ : K → K} {overlap₂ : K}
    {lo₂ hi₂ : ℕ → K} {side₂ : K} {out₂ : MVOut K} (hsym : ∀ a b, d a b = d b a)
    (h : CoverRun pdist d argsort rnd maxR maxDiv overlap dim cloud p lo hi side out)
    (h₂ : CoverRun pdist d argsort₂ rnd₂ maxR maxDiv' overlap₂ dim cloud₂ p lo₂ hi₂ side₂ out₂)
    (h0 : ∀ a ∈ cloud, d a a = 0) (hset : ∀ a, a ∈ cloud ↔ a ∈ cloud₂) :
    ∀ i < 2, (entryBars out.persistentHomology i).Perm (entryBars out₂.persistentHomology i) := by
  intro i hi2
  obtain ⟨-, L, r1, r2⟩ := h.direct
  obtain ⟨-, L', s1, s2⟩ := h₂.direct
  obtain ⟨B, b1, b2⟩ := r2 i hi2
  obtain ⟨B', c1, c2⟩ := s2 i hi2
  have he : (i : Int) < max 2 1 := by rw [max_eq_left (by norm_num)]; exact_mod_cast hi2
  obtain ⟨X, X', x1, x2, x3⟩ := C73_same_points h.input.prime h.input.dist hsym h.input.sort h₂.input.sort rnd rnd₂
    h0 hset h.input.radius 2 r1 s1 i he
  rw [b1] at x1; rw [c1] at x2
  obtain rfl := Option.some.inj x1
  obtain rfl := Option.some.inj x2
  exact b2.trans (x3.trans c2.symm)

/-- **C96**: points on a line have no loops, whatever the space in which the line lies. -/
theorem C96_line (h : CoverRun pdist d argsort rnd maxR maxDiv overlap dim cloud p lo hi side out)
    (x : List K → K) (hx : ∀ a b, d a b = |x a - x b|) : entryBars out.persistentHomology 1 = [] := by
  obtain ⟨-, L, r1, r2⟩ := h.direct
  obtain ⟨B, b1, b2⟩ := r2 1 (by norm_num)
  obtain ⟨X, x1, x2⟩ := C72_line h.input.prime h.input.dist x hx h.input.sort rnd cloud h.input.radius 2 r1 1 le_rfl
    (by norm_num)
  rw [b1] at x1
  obtain rfl := Option.some.inj x1
  rw [x2] at b2
  exact b2.eq_nil

/-- **C96**: the distances of a hierarchy of clusters give no loops. -/
theorem C96_hierarchy (hsym : ∀ a b, d a b = d b a)
    (h : CoverRun pdist d argsort rnd maxR maxDiv overlap dim cloud p lo hi side out)
    (hultra : ∀ a ∈ cloud, ∀ b ∈ cloud, ∀ c ∈ cloud, d a c ≤ max (d a b) (d b c)) :
    entryBars out.persistentHomology 1 = [] := by
  obtain ⟨-, L, r1, r2⟩ := h.direct
  obtain ⟨B, b1, b2⟩ := r2 1 (by norm_num)
  obtain ⟨X, x1, x2⟩ := C72_hierarchy h.input.prime h.input.dist hsym h.input.sort rnd cloud h.input.radius 2 r1
    hultra 1 le_rfl (by norm_num)
  rw [b1] at x1
  obtain rfl := Option.some.inj x1
  rw [x2] at b2
  exact b2.eq_nil

/-- **C96**: three points have no loops. -/
theorem C96_three_points (h : CoverRun pdist d argsort rnd maxR maxDiv overlap dim cloud p lo hi side out)
    (hfew : cloud.length ≤ 3) : entryBars out.persistentHomology 1 = [] := by
  obtain ⟨-, L, r1, r2⟩ := h.direct
  obtain ⟨B, b1, b2⟩ := r2 1 (by norm_num)
  obtain ⟨L', X, x0, x1, x2⟩ := C70_few_points h.input.prime pdist h.input.dist.isPdist argsort h.input.sort rnd cloud
    maxR h.input.radius 2 1 le_rfl (by norm_num) hfew
  rw [r1] at x0
  obtain rfl := Except.ok.inj x0
  rw [b1] at x1
  obtain rfl := Option.some.inj x1
  rw [x2] at b2
  exact b2.eq_nil

/-- **C96**: a point of the cloud within `r` of every other one.  No loop is alive at `r` or later. -/
theorem C96_central_point (hsym : ∀ a b, d a b = d b a)
    (h : CoverRun pdist d argsort rnd maxR maxDiv overlap dim cloud p lo hi side out)
    {c : List K} (hc : c ∈ cloud) {r : K} (hr : ∀ a ∈ cloud, d c a ≤ r) :
    ∀ b ∈ entryBars out.persistentHomology 1, b.1 < r ∧ b.2 ≤ r := by
  obtain ⟨-, L, r1, r2⟩ := h.direct
  obtain ⟨B, b1, b2⟩ := r2 1 (by norm_num)
  obtain ⟨X, x1, x2⟩ := C71_central_point h.input.prime h.input.dist hsym h.input.sort rnd cloud h.input.radius 2 r1
    hc hr 1 le_rfl (by norm_num)
  rw [b1] at x1
  obtain rfl := Option.some.inj x1
  exact fun b hb => x2 b (b2.mem_iff.1 hb)

/-- **C96**: with such a point and `r` below the maximal radius, one component is left after `r`. -/
theorem C96_central_point_component (hsym : ∀ a b, d a b = d b a)
    (h : CoverRun pdist d argsort rnd maxR maxDiv overlap dim cloud p lo hi side out)
    {c : List K} (hc : c ∈ cloud) {r : K} (hr : ∀ a ∈ cloud, d c a ≤ r) (hrR : r < maxR) :
    ((entryBars out.persistentHomology 0).filter fun b => decide (r < b.2)).length = 1 := by
  obtain ⟨-, L, r1, r2⟩ := h.direct
  obtain ⟨B, b1, b2⟩ := r2 0 (by norm_num)
  obtain ⟨X, x1, x2⟩ := C71_central_point_component h.input.prime h.input.dist hsym h.input.sort rnd cloud
    h.input.radius 2 r1 hc hr hrR
  rw [b1] at x1
  obtain rfl := Option.some.inj x1
  rw [(b2.filter _).length_eq, x2]

/-- The hypotheses are met by points of a line: `0, 3/2, 3`, where `3/2` is central; the same points repeated and in
another order, with another overlap; and `0, 0, 3`, which are a hierarchy. -/
example : (∃ out out₂ out₃, CoverRun numDist numD stableArgsort id 2 2 2 1 [[0], [3 / 2], [3]] 5
      (fun _ => 0) (fun _ => 3) (3 / 2) out ∧
      CoverRun numDist numD stableArgsort id 2 2 3 1 [[3], [0], [3 / 2], [0]] 5 (fun _ => 0) (fun _ => 3) (3 / 2) out₂ ∧
      CoverRun numDist numD stableArgsort id 2 2 2 1 [[0], [0], [3]] 5 (fun _ => 0) (fun _ => 3) (3 / 2) out₃) ∧
    (∀ a b, numD a b = |a.getD 0 0 - b.getD 0 0|) ∧
    (∀ a b, numD a b = numD b a) ∧
    (∀ a, a ∈ ([[0], [3 / 2], [3]] : List (List ℚ)) ↔ a ∈ ([[3], [0], [3 / 2], [0]] : List (List ℚ))) ∧
    (∀ a ∈ ([[0], [3 / 2], [3]] : List (List ℚ)), numD [3 / 2] a ≤ 3 / 2) ∧
    (∀ a ∈ ([[0], [0], [3]] : List (List ℚ)), ∀ b ∈ ([[0], [0], [3]] : List (List ℚ)),
      ∀ c ∈ ([[0], [0], [3]] : List (List ℚ)), numD a c ≤ max (numD a b) (numD b c)) := by
  obtain ⟨out, h⟩ := num_coverRun (cloud := [[0], [3 / 2], [3]]) (overlap := 2) (by simp) (by simp)
    (by decide +kernel) (by norm_num) (by decide +kernel)
  obtain ⟨out₂, h₂⟩ := num_coverRun (cloud := [[3], [0], [3 / 2], [0]]) (overlap := 3) (by simp) (by simp)
    (by decide +kernel) (by norm_num) (by decide +kernel)
  obtain ⟨out₃, h₃⟩ := num_coverRun (cloud := [[0], [0], [3]]) (overlap := 2) (by simp) (by simp)
    (by decide +kernel) (by norm_num) (by decide +kernel)
  refine ⟨⟨out, out₂, out₃, h, h₂, h₃⟩, fun a b => rfl, fun a b => abs_sub_comm _ _, ?_, by decide +kernel,
    by decide +kernel⟩
  intro a
  simp only [List.mem_cons, List.not_mem_nil, or_false]
  tauto

/-- The hypotheses of `C96_units` are met by the points `0, 1, 3` with radius two and by `0, 2, 6` with radius four:
the change of scale doubles. -/
example : ∃ (φ : ℚ ≃o ℚ) (out out' : MVOut ℚ), φ 0 = 0 ∧ (∀ x, φ x = 2 * x) ∧
    CoverRun numDist numD stableArgsort id 2 2 2 1 [[0], [1], [3]] 5 (fun _ => 0) (fun _ => 3) (3 / 2) out ∧
    CoverRun numDist numD stableArgsort id (φ 2) 2 4 1 [[0], [2], [6]] 5 (fun _ => 0) (fun _ => 6) 3 out' ∧
    ∀ u < 3, ∀ v < u, numD (([[0], [2], [6]] : List (List ℚ)).getD u []) (([[0], [2], [6]] : List (List ℚ)).getD v []) =
      2 * numD (([[0], [1], [3]] : List (List ℚ)).getD u []) (([[0], [1], [3]] : List (List ℚ)).getD v []) := by
  obtain ⟨out, h⟩ := num_coverRun (cloud := [[0], [1], [3]]) (overlap := 2) (by simp) (by simp)
    (by decide +kernel) (by norm_num) (by decide +kernel)
  have hrun : (createMVss numDist stableArgsort id 4 2 2 4 1 ([[0], [2], [6]] : List (List ℚ)) 5).isOk = true := by
    decide +kernel
  have h4 : (OrderIso.mulLeft₀ (2 : ℚ) (by norm_num)) 2 = 4 := by norm_num
  cases h' : createMVss numDist stableArgsort id 4 2 2 4 1 ([[0], [2], [6]] : List (List ℚ)) 5 with
  | error e => rw [h'] at hrun; cases hrun
  | ok out' =>
    refine ⟨OrderIso.mulLeft₀ (2 : ℚ) (by norm_num), out, out', by norm_num, fun x => rfl, h, ?_, by decide +kernel⟩
    rw [h4]
    refine ⟨⟨by decide, ⟨fun c => rfl, fun a b => abs_nonneg _⟩, stableArgsort_isArgsort, by norm_num, by simp,
      by norm_num, by norm_num, ⟨?_, ?_, ⟨⟨0, by omega, by norm_num⟩, ?_⟩⟩, by norm_num⟩,
      fun i _ => by norm_num, by norm_num, ?_, ?_, fun x y _ _ h => h, h'⟩
    · intro d hd
      obtain rfl : d = 0 := by omega
      refine ⟨⟨[0], by simp, rfl⟩, ?_⟩
      rintro x ⟨pt, hpt, rfl⟩
      simp only [List.mem_cons, List.not_mem_nil, or_false] at hpt
      rcases hpt with rfl | rfl | rfl <;> norm_num
    · intro d hd
      obtain rfl : d = 0 := by omega
      refine ⟨⟨[6], by simp, rfl⟩, ?_⟩
      rintro x ⟨pt, hpt, rfl⟩
      simp only [List.mem_cons, List.not_mem_nil, or_false] at hpt
      rcases hpt with rfl | rfl | rfl <;> norm_num
    · rintro x ⟨d, hd, rfl⟩
      norm_num
    · intro a _ b _ i hi
      obtain rfl : i = 0 := by omega
      exact le_rfl
    · intro a _ b _ c _ h1 h2
      unfold numD at *
      rw [abs_eq_zero] at *
      linarith

end Permaviss
