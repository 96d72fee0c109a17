import Verif.Lemmas.CoverR
import Verif.Props.OneEntry

/-!
# Covers computed with numbers of bounded precision (C82, C83, C84)
-/

namespace Permaviss

section

variable {K : Type} [Field K] [LinearOrder K] [FloorRing K]

/-! ## C82 -/

/-- Without rounding this is the function of the other claims. -/
theorem C82_exact (maxDiv : ℕ) (overlap : K) (dim : ℕ) (cloud : List (List K)) :
    generateCoverR (Rounding.exact K) maxDiv overlap dim cloud = generateCover maxDiv overlap dim cloud := rfl

theorem C82_exact_run (pdist : List (List K) → List (List K)) (argsort : List K → List Nat) (rnd : K → K)
    (maxR : K) (maxDim maxDiv : ℕ) (overlap : K) (dim : ℕ) (cloud : List (List K)) (p : ℕ) :
    createMVssR (Rounding.exact K) pdist argsort rnd maxR maxDim maxDiv overlap dim cloud p =
      createMVss pdist argsort rnd maxR maxDim maxDiv overlap dim cloud p := by
  unfold createMVssR createMVss createEnv
  rw [C82_exact]
  cases generateCover maxDiv overlap dim cloud <;> rfl

/-- The sizes of the numbers: the coordinates, the overlap and the error `η` of storing a number are at most `M`, and
operations lose at most one part in a hundred.  No coordinate is constant. -/
structure RoundInput (R : Rounding K) (u η M overlap : K) (maxDiv dim : ℕ) (cloud : List (List K)) : Prop where
  accurate : R.Accurate u η
  u_nonneg : 0 ≤ u
  u_le : u ≤ 1 / 100
  η_nonneg : 0 ≤ η
  η_le : η ≤ M
  overlap_le : overlap ≤ M
  coords : ∀ pt ∈ cloud, ∀ i < dim, |pt.getD i 0| ≤ M
  points : cloud ≠ []
  dim_pos : 0 < dim
  div_pos : 0 < maxDiv
  wide : ∀ i < dim, ∃ a ∈ cloud, ∃ b ∈ cloud, a.getD i 0 < b.getD i 0

variable [IsStrictOrderedRing K] {R : Rounding K} {u η M overlap : K} {maxDiv dim : ℕ} {cloud : List (List K)}

theorem RoundInput.ok (h : RoundInput R u η M overlap maxDiv dim cloud) : RoundOK R u η M :=
  ⟨h.accurate, h.u_nonneg, h.u_le, h.η_nonneg, h.η_le⟩

/-- **C82, partial.** Points whose coordinates differ by at most `r` have a cube in common, if `overlap` exceeds `r` by
`50 u M + 4 η`: rounding loses less than that.  The property asks for `overlap ≥ r` only, which is not enough:
`C82_violated_integer` and `C82_violated_double`. -/
theorem C82_close_together_partial (h : RoundInput R u η M overlap maxDiv dim cloud) {r : K} (hr : 0 ≤ r)
    (hov : r + 50 * u * M + 4 * η ≤ overlap) :
    ∃ out L, generateCoverR R maxDiv overlap dim cloud = .ok out ∧ out.pointsIN[0]? = some L ∧
      ∀ s : List ℕ, s ≠ [] → (∀ v ∈ s, v < cloud.length) →
        (∀ v ∈ s, ∀ w ∈ s, ∀ i < dim, (cloud.getD v []).getD i 0 - (cloud.getD w []).getD i 0 ≤ r) →
        ∃ l ∈ L, ∀ v ∈ s, v ∈ l := by
  obtain ⟨out, C, L, h1, hG⟩ := generateCoverR_grid h.ok h.points h.div_pos h.dim_pos h.coords h.wide overlap
  have hlen := hG.lists
  obtain ⟨L0, hL0⟩ : ∃ L0, out.pointsIN[0]? = some L0 := ⟨_, List.getElem?_eq_getElem (by omega)⟩
  refine ⟨out, L0, h1, hL0, fun s hne hlt hclose => ?_⟩
  obtain ⟨t1, t2⟩ := hG.table 0 L0 hL0
  obtain ⟨pos, p1, p2⟩ := exists_cubeR h.ok h.points h.div_pos h.dim_pos h.coords h.wide hr h.overlap_le hov
    (s.map fun v => cloud.getD v []) (by simpa using hne)
    (by
      intro pt hpt
      obtain ⟨v, hv, rfl⟩ := List.mem_map.1 hpt
      exact getD_mem' (hlt v hv))
    (by
      intro x hx y hy i hi
      obtain ⟨v, hv, rfl⟩ := List.mem_map.1 hx
      obtain ⟨w, hw, rfl⟩ := List.mem_map.1 hy
      exact hclose v hv w hw i hi)
  have hk := rank_lt p1
  obtain ⟨pts, e1, -, e3⟩ := t2 (rank (divR R maxDiv dim cloud) pos) [rank (divR R maxDiv dim cloud) pos]
    (by simp [simplicesOf, hk])
  obtain ⟨l, l1, -, l3⟩ := hG.cubes pos p1
  refine ⟨pts, List.mem_of_getElem? e1, fun v hv => (e3 v).2 fun w hw => ?_⟩
  rw [List.mem_singleton] at hw
  subst hw
  rw [List.getD_eq_getElem?_getD, l1]
  exact (l3 v).2 ⟨hlt v hv, p2 _ (List.mem_map_of_mem hv)⟩

/-- **C82, partial:** every point lies in some cube, if `overlap` is at least `50 u M + 4 η`. -/
theorem C82_covers_partial (h : RoundInput R u η M overlap maxDiv dim cloud)
    (hov : 50 * u * M + 4 * η ≤ overlap) :
    ∃ out L, generateCoverR R maxDiv overlap dim cloud = .ok out ∧ out.pointsIN[0]? = some L ∧
      ∀ v < cloud.length, ∃ l ∈ L, v ∈ l := by
  obtain ⟨out, L, h1, h2, h3⟩ := C82_close_together_partial h (r := 0) le_rfl (by linarith)
  refine ⟨out, L, h1, h2, fun v hv => ?_⟩
  obtain ⟨l, hl, hm⟩ := h3 [v] (by simp) (by simpa using hv) (by simp)
  exact ⟨l, hl, hm v (by simp)⟩

end

section

variable {overlap M : ℚ} {maxDiv dim : ℕ} {cloud : List (List ℚ)}

/-- The sizes of the numbers, for doubles and integers: no coordinate nor the overlap is larger than `M`. -/
structure SizeInput (M overlap : ℚ) (maxDiv dim : ℕ) (cloud : List (List ℚ)) : Prop where
  overlap_le : overlap ≤ M
  coords : ∀ pt ∈ cloud, ∀ i < dim, |pt.getD i 0| ≤ M
  points : cloud ≠ []
  dim_pos : 0 < dim
  div_pos : 0 < maxDiv
  wide : ∀ i < dim, ∃ a ∈ cloud, ∃ b ∈ cloud, a.getD i 0 < b.getD i 0

theorem SizeInput.nonneg (h : SizeInput M overlap maxDiv dim cloud) : 0 ≤ M := by
  obtain ⟨a, ha, -⟩ := h.wide 0 h.dim_pos
  exact (abs_nonneg _).trans (h.coords a ha 0 h.dim_pos)

theorem SizeInput.double (h : SizeInput M overlap maxDiv dim cloud) :
    RoundInput Rounding.double (1 / 2 ^ 53) 0 M overlap maxDiv dim cloud :=
  ⟨double_accurate, by norm_num, by norm_num, le_rfl, h.nonneg, h.overlap_le, h.coords, h.points, h.dim_pos,
    h.div_pos, h.wide⟩

theorem SizeInput.integer (h : SizeInput M overlap maxDiv dim cloud) (hM : 1 ≤ M) :
    RoundInput Rounding.integer (1 / 2 ^ 53) 1 M overlap maxDiv dim cloud :=
  ⟨integer_accurate, by norm_num, by norm_num, by norm_num, hM, h.overlap_le, h.coords, h.points, h.dim_pos,
    h.div_pos, h.wide⟩

/-- **C82, partial**, for arrays of doubles: a margin of `50 * 2 ^ -53 * M` suffices, where `M` is the largest
coordinate. -/
theorem C82_doubles_partial (h : SizeInput M overlap maxDiv dim cloud) {r : ℚ} (hr : 0 ≤ r)
    (hov : r + 50 / 2 ^ 53 * M ≤ overlap) :
    ∃ out L, generateCoverR Rounding.double maxDiv overlap dim cloud = .ok out ∧ out.pointsIN[0]? = some L ∧
      ∀ s : List ℕ, s ≠ [] → (∀ v ∈ s, v < cloud.length) →
        (∀ v ∈ s, ∀ w ∈ s, ∀ i < dim, (cloud.getD v []).getD i 0 - (cloud.getD w []).getD i 0 ≤ r) →
        ∃ l ∈ L, ∀ v ∈ s, v ∈ l :=
  C82_close_together_partial h.double hr (by linarith)

/-- **C82, partial**, for arrays of integers: a margin of `4 + 50 * 2 ^ -53 * M` suffices. -/
theorem C82_integers_partial (h : SizeInput M overlap maxDiv dim cloud) (hM : 1 ≤ M) {r : ℚ} (hr : 0 ≤ r)
    (hov : r + 4 + 50 / 2 ^ 53 * M ≤ overlap) :
    ∃ out L, generateCoverR Rounding.integer maxDiv overlap dim cloud = .ok out ∧ out.pointsIN[0]? = some L ∧
      ∀ s : List ℕ, s ≠ [] → (∀ v ∈ s, v < cloud.length) →
        (∀ v ∈ s, ∀ w ∈ s, ∀ i < dim, (cloud.getD v []).getD i 0 - (cloud.getD w []).getD i 0 ≤ r) →
        ∃ l ∈ L, ∀ v ∈ s, v ∈ l :=
  C82_close_together_partial (h.integer hM) hr (by linarith)

end

/-- Two integers. -/
def twoInts : List (List ℚ) := [[0], [5]]

/-- **C82, violation** on arrays of integers.  With `max_div = 4` and `overlap = 1.4` the points of the array
`[[0], [5]]` of integers are put in cubes as `[[0], [0], [], []]`: the point `5` is in no cube, because the upper corner
`5 + 0.7` of the last one is computed as `0 + 3.75 = 3` followed by `3 + 1.95 = 4`. -/
theorem C82_violated_integer : ∃ out, generateCoverR Rounding.integer 4 (7 / 5) 1 twoInts = .ok out ∧
    out.pointsIN[0]? = some [[0], [0], [], []] := by
  have key : (generateCoverR Rounding.integer 4 (7 / 5) 1 twoInts).map (fun o => o.pointsIN[0]?) =
      .ok (some [[0], [0], [], []]) := by decide +kernel
  cases h : generateCoverR Rounding.integer 4 (7 / 5) 1 twoInts with
  | error e => rw [h] at key; cases key
  | ok out => rw [h] at key; exact ⟨out, rfl, Except.ok.inj key⟩

/-- The doubles `-1`, `3.2`, `0.1000000000000003` and `2.1`. -/
def fourDoubles : List (List ℚ) :=
  [[-1], [toDouble (32 / 10)], [toDouble (1000000000000003 / 10 ^ 16)], [toDouble (21 / 10)]]

/-- **C82, violation** on arrays of doubles.  With `max_div = 2` and `overlap = 2` the points `0.1000000000000003` and
`2.1` have no cube in common, although they differ by less than `2`. -/
theorem C82_violated_double : ∃ out, generateCoverR Rounding.double 2 2 1 fourDoubles = .ok out ∧
    out.pointsIN[0]? = some [[0, 2], [1, 3]] ∧
    |(fourDoubles.getD 2 []).getD 0 0 - (fourDoubles.getD 3 []).getD 0 0| < 2 ∧
    ∀ pt ∈ fourDoubles, ∀ x ∈ pt, toDouble x = x := by
  have key : (generateCoverR Rounding.double 2 2 1 fourDoubles).map (fun o => o.pointsIN[0]?) =
      .ok (some [[0, 2], [1, 3]]) := by decide +kernel
  cases h : generateCoverR Rounding.double 2 2 1 fourDoubles with
  | error e => rw [h] at key; cases key
  | ok out =>
    rw [h] at key
    exact ⟨out, rfl, Except.ok.inj key, by decide +kernel, by decide +kernel⟩

/-- The hypotheses are met by the four doubles, by the two integers with a larger overlap, and by the rounding of
doubles. -/
example : SizeInput 4 (21 / 10) 2 1 fourDoubles ∧ (2 : ℚ) + 50 / 2 ^ 53 * 4 ≤ 21 / 10 ∧
    SizeInput 6 6 4 1 twoInts ∧ (1 : ℚ) + 4 + 50 / 2 ^ 53 * 6 ≤ 6 ∧
    ((generateCoverR Rounding.double 2 (21 / 10) 1 fourDoubles).map fun o => o.pointsIN[0]?) =
      .ok (some [[0, 2, 3], [1, 2, 3]]) ∧
    ((generateCoverR Rounding.integer 4 6 1 twoInts).map fun o => o.pointsIN[0]?) =
      .ok (some [[0], [0, 1], [0, 1], [0, 1]]) := by
  refine ⟨⟨by norm_num, by decide +kernel, by simp [fourDoubles], by norm_num, by norm_num, by decide +kernel⟩,
    by norm_num, ⟨by norm_num, by decide +kernel, by simp [twoInts], by norm_num, by norm_num, by decide +kernel⟩,
    by norm_num, by decide +kernel, by decide +kernel⟩

/-! ## C83 -/

section

variable {K : Type} [Field K] [LinearOrder K] [FloorRing K] [IsStrictOrderedRing K]
  {pdist : List (List K) → List (List K)} {d : List K → List K → K} {argsort : List K → List Nat}
  {rnd : K → K} {maxR : K} {maxDim maxDiv dim : ℕ} {overlap : K} {cloud : List (List K)} {p : ℕ}
  {R : Rounding K} {u η M r : K}

/-- The conditions of C83: the cover is computed with a rounding `R`; `p` is prime, `pdist` tabulates a distance `d`,
points at distance below `max_r` have coordinates which differ by at most `r`, and `overlap` exceeds `r` by the
errors of rounding. -/
structure RoundRun (pdist : List (List K) → List (List K)) (d : List K → List K → K) (argsort : List K → List Nat)
    (maxR : K) (R : Rounding K) (u η M r overlap : K) (maxDiv dim : ℕ) (cloud : List (List K)) (p : ℕ) : Prop where
  sizes : RoundInput R u η M overlap maxDiv dim cloud
  prime : p.Prime
  dist : IsDistTable pdist d
  sort : IsArgsort argsort
  radius : 0 < maxR
  r_nonneg : 0 ≤ r
  close : ∀ a ∈ cloud, ∀ b ∈ cloud, d a b < maxR → ∀ i < dim, |a.getD i 0 - b.getD i 0| ≤ r
  margin : r + 50 * u * M + 4 * η ≤ overlap

theorem RoundRun.coveredEnv (h : RoundRun pdist d argsort maxR R u η M r overlap maxDiv dim cloud p) (rnd : K → K)
    (maxDim : ℕ) : ∃ cover E, generateCoverR R maxDiv overlap dim cloud = .ok cover ∧
      envOf pdist argsort rnd maxR maxDim p cover = .ok E ∧
      CoveredEnv pdist d argsort rnd maxR maxDim dim cloud p E := by
  have hs := h.sizes
  obtain ⟨cover, C, L, h1, hG⟩ := generateCoverR_grid hs.ok hs.points hs.div_pos hs.dim_pos hs.coords hs.wide overlap
  obtain ⟨s0, -, hdiv⟩ := divR_spec hs.ok hs.points hs.div_pos hs.dim_pos hs.coords hs.wide
  obtain ⟨E, e1, e2⟩ := hG.coveredEnv h.prime h.dist h.sort h.radius hs.points hs.dim_pos divR_length
    (by
      intro x hx
      obtain ⟨i, hi, rfl⟩ := List.getElem_of_mem hx
      have hi' : i < dim := by rwa [divR_length] at hi
      have := (hdiv i hi').1
      rwa [List_getD_eq_getElem _ _ hi] at this)
    (fun _ _ _ _ a1 a2 a3 => inHypercubeR_between hs.accurate.mono_op hs.accurate.mono_store s0.le a1 a2 a3)
    (by
      intro s hne hlt hd
      obtain ⟨pos, p1, p2⟩ := exists_cubeR hs.ok hs.points hs.div_pos hs.dim_pos hs.coords hs.wide h.r_nonneg
        hs.overlap_le h.margin (s.map fun v => cloud.getD v []) (by simpa using hne)
        (by
          intro pt hpt
          obtain ⟨v, hv, rfl⟩ := List.mem_map.1 hpt
          exact getD_mem' (hlt v hv))
        (by
          intro x hx y hy i hi
          obtain ⟨v, hv, rfl⟩ := List.mem_map.1 hx
          obtain ⟨w, hw, rfl⟩ := List.mem_map.1 hy
          rcases lt_trichotomy v w with hvw | rfl | hvw
          · have := h.close _ (getD_mem' (hlt w hw)) _ (getD_mem' (hlt v hv)) (hd v hv w hw hvw) i hi
            rw [abs_sub_comm] at this
            exact (le_abs_self _).trans this
          · rw [sub_self]; exact h.r_nonneg
          · exact (le_abs_self _).trans
              (h.close _ (getD_mem' (hlt v hv)) _ (getD_mem' (hlt w hw)) (hd w hw v hv hvw) i hi))
      exact ⟨pos, p1, fun v hv => p2 _ (List.mem_map_of_mem hv)⟩) rnd maxDim
  exact ⟨cover, E, h1, e1, e2⟩

theorem RoundRun.parts (h : RoundRun pdist d argsort maxR R u η M r overlap maxDiv dim cloud p) {out : MVOut K}
    (hrun : createMVssR R pdist argsort rnd maxR maxDim maxDiv overlap dim cloud p = .ok out) :
    CoveredEnv pdist d argsort rnd maxR maxDim dim cloud p out.env ∧ out.Run rnd := by
  obtain ⟨cover, E, h1, h2, h3⟩ := h.coveredEnv rnd maxDim
  unfold createMVssR at hrun
  rw [h1, ok_bind, h2, ok_bind, bind_ok] at hrun
  obtain ⟨S, e1, hrun⟩ := hrun
  rw [bind_ok] at hrun
  obtain ⟨ph, e2, hrun⟩ := hrun
  cases hrun
  exact ⟨h3, e1, e2⟩

/-- **C83**, `max_dim = 1`: with a cover computed with rounding `create_MV_ss` always returns a single barcode, which
is the barcode in degree zero of the ordinary computation on the whole cloud, up to the order of the bars. -/
theorem C83_max_dim_one (h : RoundRun pdist d argsort maxR R u η M r overlap maxDiv dim cloud p)
    (hround : ∀ x y, BarEnd d maxR cloud x → BarEnd d maxR cloud y → rnd x ≤ rnd y → x ≤ y) :
    ∃ out B L B', createMVssR R pdist argsort rnd maxR 1 maxDiv overlap dim cloud p = .ok out ∧
      out.persistentHomology = [B] ∧ localPersistentHomology pdist argsort rnd cloud maxR 1 p = .ok L ∧
      L.ph.hom[0]? = some B' ∧ B.barcode.Perm B'.barcode := by
  obtain ⟨cover, E, h1, h2, h3⟩ := h.coveredEnv rnd 1
  obtain ⟨out, B, L, B', rfl, e1, e2⟩ := h3.max_dim_one hround
  refine ⟨out, B, L, B', ?_, e2⟩
  unfold createMVssR
  rw [h1, ok_bind, h2, ok_bind, e1.pages, ok_bind, e1.list]
  rfl

/-- **C83**, degree zero: whenever `create_MV_ss` returns, its first barcode is that of the ordinary computation. -/
theorem C83_components (h : RoundRun pdist d argsort maxR R u η M r overlap maxDiv dim cloud p)
    (hround : ∀ x y, BarEnd d maxR cloud x → BarEnd d maxR cloud y → rnd x ≤ rnd y → x ≤ y)
    (out : MVOut K) (hrun : createMVssR R pdist argsort rnd maxR maxDim maxDiv overlap dim cloud p = .ok out) :
    ∃ B L B', out.persistentHomology[0]? = some B ∧
      localPersistentHomology pdist argsort rnd cloud maxR maxDim p = .ok L ∧
      L.ph.hom[0]? = some B' ∧ B.barcode.Perm B'.barcode := by
  obtain ⟨h1, h2⟩ := h.parts hrun
  exact h1.components_input hround h2

/-- **C83**, degree one: whenever `create_MV_ss` returns and `max_dim ≥ 2`, the barcode in degree one is that of the
ordinary computation; an entry of the result may be missing only if that barcode is empty. -/
theorem C83_degree_one (h : RoundRun pdist d argsort maxR R u η M r overlap maxDiv dim cloud p)
    (hzero : ∀ a ∈ cloud, ∀ b ∈ cloud, ∀ c ∈ cloud, d a c = 0 → d b c = 0 → d a b = 0)
    (hround : ∀ x y, BarEnd d maxR cloud x → BarEnd d maxR cloud y → rnd x ≤ rnd y → x ≤ y)
    (out : MVOut K) (hrun : createMVssR R pdist argsort rnd maxR maxDim maxDiv overlap dim cloud p = .ok out)
    (hdim : 2 ≤ maxDim) :
    ∃ L B', localPersistentHomology pdist argsort rnd cloud maxR maxDim p = .ok L ∧
      L.ph.hom[1]? = some B' ∧
      ((∃ Q, out.persistentHomology[1]? = some Q ∧ Q.barcode.Perm B'.barcode) ∨
        (out.persistentHomology.length < maxDim ∧ B'.barcode = [])) := by
  obtain ⟨h1, h2⟩ := h.parts hrun
  exact h1.plane hzero hround h2 hdim

/-- **C83**, `max_dim = 2`: whenever `create_MV_ss` returns, its result has the barcodes of the ordinary computation in
both degrees; a missing second entry stands for an empty barcode. -/
theorem C83_two_degrees (h : RoundRun pdist d argsort maxR R u η M r overlap maxDiv dim cloud p)
    (hzero : ∀ a ∈ cloud, ∀ b ∈ cloud, ∀ c ∈ cloud, d a c = 0 → d b c = 0 → d a b = 0)
    (hround : ∀ x y, BarEnd d maxR cloud x → BarEnd d maxR cloud y → rnd x ≤ rnd y → x ≤ y)
    (out : MVOut K) (hrun : createMVssR R pdist argsort rnd maxR 2 maxDiv overlap dim cloud p = .ok out) :
    out.persistentHomology.length ≤ 2 ∧
      ∃ L, localPersistentHomology pdist argsort rnd cloud maxR 2 p = .ok L ∧
        ∀ i < 2, ∃ B, L.ph.hom[i]? = some B ∧ (entryBars out.persistentHomology i).Perm B.barcode := by
  obtain ⟨h1, h2⟩ := h.parts hrun
  exact h1.two_degrees hzero hround h2

end

/-- The distance of numbers. -/
def absD (a b : List ℚ) : ℚ := |a.getD 0 0 - b.getD 0 0|

def absDist (c : List (List ℚ)) : List (List ℚ) := c.map fun a => c.map (absD a)

/-- The margin is needed: with `overlap = max_r` the result on the two integers has one component instead of two. -/
theorem C83_margin_needed :
    ((createMVssR Rounding.integer absDist stableArgsort id (7 / 5) 1 4 (7 / 5) 1 twoInts 5).map fun o =>
      o.persistentHomology.map fun B => B.barcode) = .ok [[(0, 7 / 5)]] ∧
    ((localPersistentHomology absDist stableArgsort id twoInts (7 / 5) 1 5).map fun L =>
      L.ph.hom.map fun B => B.barcode) = .ok [[(0, 7 / 5), (0, 7 / 5)], []] := by
  constructor <;> decide +kernel

/-- The hypotheses are met by the four doubles with `max_r = 2` and `overlap = 2.1`. -/
example : RoundRun absDist absD stableArgsort 2 Rounding.double (1 / 2 ^ 53) 0 4 2 (21 / 10) 2 1 fourDoubles 5 ∧
    (∀ x y, BarEnd absD 2 fourDoubles x → BarEnd absD 2 fourDoubles y → id x ≤ id y → x ≤ y) ∧
    ((createMVssR Rounding.double absDist stableArgsort id 2 1 2 (21 / 10) 1 fourDoubles 5).map fun o =>
      (o.persistentHomology.map fun B => B.barcode.length)) = .ok [4] := by
  refine ⟨⟨SizeInput.double ⟨by norm_num, by decide +kernel, by simp [fourDoubles], by norm_num, by norm_num,
    by decide +kernel⟩, by decide, ⟨fun c => rfl, fun a b => abs_nonneg _⟩, stableArgsort_isArgsort, by norm_num,
    by norm_num, ?_, by norm_num⟩, fun _ _ _ _ h => h, by decide +kernel⟩
  intro a _ b _ hd i hi
  obtain rfl : i = 0 := by omega
  exact le_of_lt hd

/-! ## C84 -/

theorem getD_le_prod {l : List ℕ} {n : ℕ} (hn : l.length = n) (h : ∀ i < n, 0 < l.getD i 0) :
    ∀ i < n, l.getD i 0 ≤ l.prod := by
  subst hn
  intro i hi
  have h0 : 0 ∉ l := by
    intro h0
    obtain ⟨k, hk, e⟩ := List.getElem_of_mem h0
    have := h k hk
    rw [List_getD_eq_getElem _ _ hk, e] at this
    omega
  have hd : l.getD i 0 ∣ l.prod := by
    rw [List_getD_eq_getElem _ _ hi]
    exact List.dvd_prod (List.getElem_mem hi)
  exact Nat.le_of_dvd (Nat.pos_of_ne_zero fun hz => h0 (List.prod_eq_zero_iff.1 hz)) hd

theorem prod_le_pow_of_getD {l : List ℕ} {n m : ℕ} (hn : l.length = n) (h : ∀ i < n, l.getD i 0 ≤ m) :
    l.prod ≤ m ^ n := by
  subst hn
  refine List.prod_le_pow_card l m fun x hx => ?_
  obtain ⟨k, hk, rfl⟩ := List.getElem_of_mem hx
  have := h k hk
  rwa [List_getD_eq_getElem _ _ hk] at this

section

variable {K : Type} [Field K] [LinearOrder K] [FloorRing K] [IsStrictOrderedRing K] {R : Rounding K}
  {u η M overlap : K} {maxDiv dim : ℕ} {cloud : List (List K)}

omit [FloorRing K] in
theorem foldr_max_nonneg_of (l : List K) : 0 ≤ l.foldr max 0 := by
  cases l with
  | nil => exact le_rfl
  | cons a l =>
    induction l generalizing a with
    | nil => exact le_max_right _ _
    | cons b l ih => exact (ih b).trans (le_max_right _ _)

theorem RoundInput.cubes (h : RoundInput R u η M overlap maxDiv dim cloud) :
    ∃ out L, generateCoverR R maxDiv overlap dim cloud = .ok out ∧ out.pointsIN[0]? = some L ∧
      L.length = (divR R maxDiv dim cloud).prod := by
  obtain ⟨out, C, L, h1, hG⟩ := generateCoverR_grid h.ok h.points h.div_pos h.dim_pos h.coords h.wide overlap
  have hlen := hG.lists
  obtain ⟨L0, hL0⟩ : ∃ L0, out.pointsIN[0]? = some L0 := ⟨_, List.getElem?_eq_getElem (by omega)⟩
  refine ⟨out, L0, h1, hL0, ?_⟩
  rw [(hG.table 0 L0 hL0).1]
  simp [simplicesOf]

/-- **C84, partial.** There are at least `max_div` cubes and at most `(max_div + 1) ^ dim`, if `3 u max_div < 1`.  The
property asks for at most `max_div ^ dim`, which fails: `C84_violated_double`. -/
theorem C84_cubes_partial (h : RoundInput R u η M overlap maxDiv dim cloud) (hsmall : 3 * u * maxDiv < 1) :
    ∃ out L, generateCoverR R maxDiv overlap dim cloud = .ok out ∧ out.pointsIN[0]? = some L ∧
      maxDiv ≤ L.length ∧ L.length ≤ (maxDiv + 1) ^ dim := by
  obtain ⟨out, L, h1, h2, h3⟩ := h.cubes
  obtain ⟨-, -, hdiv⟩ := divR_spec h.ok h.points h.div_pos h.dim_pos h.coords h.wide
  obtain ⟨c1, -, c3⟩ := divR_count h.ok h.points h.div_pos h.dim_pos h.wide
  refine ⟨out, L, h1, h2, ?_, ?_⟩ <;> rw [h3]
  · obtain ⟨i, hi, hle⟩ := c3 hsmall
    exact hle.trans (getD_le_prod divR_length (fun i hi => (hdiv i hi).1) i hi)
  · exact prod_le_pow_of_getD divR_length (c1 hsmall)

/-- With exact numbers there are at least `max_div` cubes and at most `max_div ^ dim`. -/
theorem C84_exact (hne : cloud ≠ []) (hm : 0 < maxDiv) (hdim : 0 < dim)
    (hw : ∀ i < dim, ∃ a ∈ cloud, ∃ b ∈ cloud, a.getD i 0 < b.getD i 0) :
    ∃ out L, generateCover maxDiv overlap dim cloud = .ok out ∧ out.pointsIN[0]? = some L ∧
      maxDiv ≤ L.length ∧ L.length ≤ maxDiv ^ dim := by
  obtain ⟨M, hM⟩ : ∃ M : K, overlap ≤ M ∧ 0 ≤ M ∧ ∀ pt ∈ cloud, ∀ i < dim, |pt.getD i 0| ≤ M := by
    refine ⟨(overlap :: cloud.flatMap fun pt => (List.range dim).map fun i => |pt.getD i 0|).foldr max 0,
      le_foldr_max_of (by simp), foldr_max_nonneg_of _, fun pt hpt i hi => le_foldr_max_of ?_⟩
    exact List.mem_cons_of_mem _ (List.mem_flatMap.2 ⟨pt, hpt, List.mem_map.2 ⟨i, List.mem_range.2 hi, rfl⟩⟩)
  have h : RoundInput (Rounding.exact K) 0 0 M overlap maxDiv dim cloud :=
    ⟨⟨monotone_id, monotone_id, fun x => by simp [Rounding.exact], fun x => by simp [Rounding.exact]⟩, le_rfl,
      by norm_num, le_rfl, hM.2.1, hM.1, hM.2.2, hne, hdim, hm, hw⟩
  obtain ⟨out, L, h1, h2, h3⟩ := h.cubes
  obtain ⟨-, -, hdiv⟩ := divR_spec h.ok h.points h.div_pos h.dim_pos h.coords h.wide
  obtain ⟨-, c2, c3⟩ := divR_count h.ok h.points h.div_pos h.dim_pos h.wide
  refine ⟨out, L, h1, h2, ?_, ?_⟩ <;> rw [h3]
  · obtain ⟨i, hi, hle⟩ := c3 (by simp)
    exact hle.trans (getD_le_prod divR_length (fun i hi => (hdiv i hi).1) i hi)
  · exact prod_le_pow_of_getD divR_length (c2 rfl)

end

/-- **C84, violation** on arrays of doubles: the cover of `[[0.], [1.]]` with `max_div = 49` has `50` cubes. -/
theorem C84_violated_double : ((generateCoverR Rounding.double 49 1 1 [[0], [1]]).map fun o =>
    o.pointsIN[0]?.map List.length) = .ok (some 50) := by
  decide +kernel

/-- The hypotheses are met by this cloud, and by the four doubles, which need two cubes. -/
example : SizeInput (1 : ℚ) 1 49 1 [[0], [1]] ∧ (3 : ℚ) * (1 / 2 ^ 53) * (49 : ℕ) < 1 ∧
    ((generateCoverR Rounding.double 2 2 1 fourDoubles).map fun o => o.pointsIN[0]?.map List.length) =
      .ok (some 2) := by
  refine ⟨⟨by norm_num, by decide +kernel, by simp, by norm_num, by norm_num, by decide +kernel⟩, by norm_num,
    by decide +kernel⟩

end Permaviss
