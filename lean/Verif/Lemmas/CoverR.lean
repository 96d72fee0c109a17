import Verif.Lemmas.RunEnv
import Verif.Lemmas.Rounding
import Verif.Model.CoverR

/-!
# The cover computed with rounding
-/

namespace Permaviss

section

variable {K : Type} [Field K] [LinearOrder K] [IsStrictOrderedRing K] {R : Rounding K} {u η M : K}

/-! ### Errors -/

theorem Rounding.Accurate.op_err (hR : R.Accurate u η) (hu0 : 0 ≤ u) (hu : u ≤ 1 / 100) (hη0 : 0 ≤ η) (hη : η ≤ M)
    {x y c k b : K} (hc : 0 ≤ c) (hk : 0 ≤ k) (hxy : |x - y| ≤ c * (u * M) + k * η) (hy : |y| ≤ b * M) :
    |R.op x - y| ≤ (c * (101 / 100) + k + b) * (u * M) + k * η := by
  have h1 := hR.op x
  have h2 : |R.op x - y| ≤ |R.op x - x| + |x - y| := by
    rw [show R.op x - y = (R.op x - x) + (x - y) by ring]; exact abs_add_le _ _
  have h3 : |x| ≤ |x - y| + |y| := by
    have := abs_add_le (x - y) y
    rwa [sub_add_cancel] at this
  have hM : 0 ≤ M := hη0.trans hη
  have h4 : u * |x| ≤ u * (c * (u * M) + k * η + b * M) := mul_le_mul_of_nonneg_left (by linarith) hu0
  have ht : 0 ≤ u * M := mul_nonneg hu0 hM
  have h5 : u * (c * (u * M)) ≤ 1 / 100 * (c * (u * M)) := mul_le_mul_of_nonneg_right hu (mul_nonneg hc ht)
  have h6 : u * (k * η) ≤ k * (u * M) := by
    rw [show u * (k * η) = k * (u * η) by ring]
    exact mul_le_mul_of_nonneg_left (mul_le_mul_of_nonneg_left hη hu0) hk
  have h7 : u * (c * (u * M) + k * η + b * M) = u * (c * (u * M)) + u * (k * η) + b * (u * M) := by ring
  have h8 : (c * (101 / 100) + k + b) * (u * M) + k * η =
      c * (u * M) + k * η + 1 / 100 * (c * (u * M)) + k * (u * M) + b * (u * M) := by ring
  linarith

/-- The conditions on the sizes of the numbers. -/
structure RoundOK (R : Rounding K) (u η M : K) : Prop where
  acc : R.Accurate u η
  u0 : 0 ≤ u
  u1 : u ≤ 1 / 100
  η0 : 0 ≤ η
  η1 : η ≤ M

theorem RoundOK.M0 (h : RoundOK R u η M) : 0 ≤ M := h.η0.trans h.η1

theorem RoundOK.t0 (h : RoundOK R u η M) : 0 ≤ u * M := mul_nonneg h.u0 h.M0

theorem RoundOK.op (h : RoundOK R u η M) {x y : K} (c k b : K) (hc : 0 ≤ c) (hk : 0 ≤ k)
    (hxy : |x - y| ≤ c * (u * M) + k * η) (hy : |y| ≤ b * M) :
    |R.op x - y| ≤ (c * (101 / 100) + k + b) * (u * M) + k * η :=
  h.acc.op_err h.u0 h.u1 h.η0 h.η1 hc hk hxy hy

theorem abs_add_err {a b c d e f : K} (h1 : |a - b| ≤ e) (h2 : |c - d| ≤ f) : |a + c - (b + d)| ≤ e + f := by
  rw [show a + c - (b + d) = (a - b) + (c - d) by ring]
  exact (abs_add_le _ _).trans (add_le_add h1 h2)

theorem abs_sub_err {a b c d e f : K} (h1 : |a - b| ≤ e) (h2 : |c - d| ≤ f) : |a - c - (b - d)| ≤ e + f := by
  rw [show a - c - (b - d) = (a - b) - (c - d) by ring]
  exact (abs_sub _ _).trans (add_le_add h1 h2)

theorem abs_store_err (h : RoundOK R u η M) {x y e : K} (h1 : |x - y| ≤ e) : |R.store x - y| ≤ e + η := by
  rw [show R.store x - y = (x - y) + (R.store x - x) by ring]
  exact (abs_add_le _ _).trans (add_le_add h1 (h.acc.store x))

variable {lo side overlap : K}

theorem halfR_err (h : RoundOK R u η M) (hs0 : 0 ≤ side) (hs : side ≤ 41 / 20 * M) :
    |halfR R side - side / 2| ≤ 41 / 40 * (u * M) := by
  have := h.op (x := side / 2) (y := side / 2) 0 0 (41 / 40) le_rfl le_rfl (by simp)
    (by rw [abs_of_nonneg (by linarith)]; linarith)
  unfold halfR
  linarith

theorem distR_err (h : RoundOK R u η M) (hs0 : 0 ≤ side) (hs : side ≤ 41 / 20 * M) (ho0 : 0 ≤ overlap)
    (ho : overlap ≤ M) : |distR R side overlap - (overlap / 2 + side / 2)| ≤ 307 / 100 * (u * M) := by
  have h1 := h.op (x := overlap / 2) (y := overlap / 2) 0 0 (1 / 2) le_rfl le_rfl (by simp)
    (by rw [abs_of_nonneg (by linarith)]; linarith)
  have h2 := abs_add_err h1 (halfR_err h hs0 hs)
  have h3 := h.op (b := 61 / 40) (61 / 40) 0 (by norm_num) le_rfl (h2.trans (by linarith))
    (by rw [abs_of_nonneg (by linarith)]; linarith)
  have := h.t0
  unfold distR
  linarith

theorem baseR_err (h : RoundOK R u η M) (hlo : |lo| ≤ M) {i : ℕ} (hs0 : 0 ≤ side)
    (hi : side * i ≤ 41 / 20 * M) : |baseR R lo side i - (lo + side * i)| ≤ 513 / 100 * (u * M) + η := by
  have hn : 0 ≤ side * (i : K) := mul_nonneg hs0 (Nat.cast_nonneg i)
  have h1 := h.op (x := side * i) (y := side * i) 0 0 (41 / 20) le_rfl le_rfl (by simp)
    (by rw [abs_of_nonneg hn]; exact hi)
  have h2 : |lo + R.op (side * i) - (lo + side * i)| ≤ 41 / 20 * (u * M) + 0 * η := by
    rw [show lo + R.op (side * i) - (lo + side * i) = R.op (side * i) - side * i by ring]
    linarith
  have h3 := h.op (b := 61 / 20) _ _ (by norm_num) le_rfl h2 (by
    have := abs_add_le lo (side * i)
    rw [abs_of_nonneg hn] at this
    linarith)
  have h4 := abs_store_err h h3
  have := h.t0
  unfold baseR
  linarith

theorem lcorR_err (h : RoundOK R u η M) (hlo : |lo| ≤ M) {i : ℕ} (hs0 : 0 ≤ side) (hs : side ≤ 41 / 20 * M)
    (hi : side * i ≤ 41 / 20 * M) (ho0 : 0 ≤ overlap) (ho : overlap ≤ M) :
    |lcorR R lo side overlap i - (lo + side * i - overlap / 2)| ≤ 15 * (u * M) + 2 * η := by
  have ht := h.t0
  have hn : 0 ≤ side * (i : K) := mul_nonneg hs0 (Nat.cast_nonneg i)
  have h1 := abs_sub_err (distR_err h hs0 hs ho0 ho) (halfR_err h hs0 hs)
  rw [show overlap / 2 + side / 2 - side / 2 = overlap / 2 by ring] at h1
  have h2 := h.op (b := 1 / 2) (41 / 10) 0 (by norm_num) le_rfl (h1.trans (by linarith))
    (by rw [abs_of_nonneg (by linarith)]; linarith)
  have h3 := abs_sub_err (baseR_err h hlo hs0 hi) h2
  have h4 := h.op (b := 71 / 20) (98 / 10) 1 (by norm_num) (by norm_num) (h3.trans (by linarith)) (by
    have e1 := abs_le.1 hlo
    rw [abs_le]
    constructor <;> linarith)
  have h5 := abs_store_err h h4
  unfold lcorR
  linarith

theorem ucorR_err (h : RoundOK R u η M) (hlo : |lo| ≤ M) {i : ℕ} (hs0 : 0 ≤ side) (hs : side ≤ 41 / 20 * M)
    (hi : side * i ≤ 41 / 20 * M) (ho0 : 0 ≤ overlap) (ho : overlap ≤ M) :
    |ucorR R lo side overlap i - (lo + side * (i + 1) + overlap / 2)| ≤ 19 * (u * M) + 2 * η := by
  have ht := h.t0
  have hn : 0 ≤ side * (i : K) := mul_nonneg hs0 (Nat.cast_nonneg i)
  have h1 := abs_add_err (distR_err h hs0 hs ho0 ho) (halfR_err h hs0 hs)
  rw [show overlap / 2 + side / 2 + side / 2 = overlap / 2 + side by ring] at h1
  have h2 := h.op (b := 51 / 20) (41 / 10) 0 (by norm_num) le_rfl (h1.trans (by linarith))
    (by rw [abs_of_nonneg (by linarith)]; linarith)
  have h3 := abs_add_err (baseR_err h hlo hs0 hi) h2
  rw [show lo + side * i + (overlap / 2 + side) = lo + side * (i + 1) + overlap / 2 by ring] at h3
  have h4 := h.op (b := 28 / 5) (2371 / 200) 1 (by norm_num) (by norm_num) (h3.trans (by linarith)) (by
    have e1 := abs_le.1 hlo
    rw [mul_add, mul_one, abs_le]
    constructor <;> linarith)
  have h5 := abs_store_err h h4
  unfold ucorR
  linarith

/-! ### Cubes between two cubes -/

theorem baseR_mono (h1 : Monotone R.op) (h2 : Monotone R.store) (hs : 0 ≤ side) : Monotone (baseR R lo side) := by
  intro i j hij
  have : side * (i : K) ≤ side * j := mul_le_mul_of_nonneg_left (by exact_mod_cast hij) hs
  exact h2 (h1 (by have := h1 this; linarith))

theorem lcorR_mono (h1 : Monotone R.op) (h2 : Monotone R.store) (hs : 0 ≤ side) :
    Monotone (lcorR R lo side overlap) := by
  intro i j hij
  have := baseR_mono (lo := lo) h1 h2 hs hij
  exact h2 (h1 (by linarith))

theorem ucorR_mono (h1 : Monotone R.op) (h2 : Monotone R.store) (hs : 0 ≤ side) :
    Monotone (ucorR R lo side overlap) := by
  intro i j hij
  have := baseR_mono (lo := lo) h1 h2 hs hij
  exact h2 (h1 (by linarith))

/-- If each of the intervals `[l i, v i]` shares a segment of length `r` with the next one, a set with diameter at most
`r` lies in one of them. -/
theorem slab_cover {l v : ℕ → K} {n : ℕ} (hn : 0 < n) {lo hi r : K} (h0 : l 0 ≤ lo) (h1 : hi ≤ v (n - 1))
    (hstep : ∀ i, i + 1 < n → l (i + 1) + r ≤ v i) {a b : K} (ha : lo ≤ a) (hb : b ≤ hi) (hab : b - a ≤ r) :
    ∃ i < n, l i ≤ a ∧ b ≤ v i := by
  classical
  have hex : ∃ i, b ≤ v i := ⟨n - 1, hb.trans h1⟩
  have hf := Nat.find_spec hex
  have hle : Nat.find hex ≤ n - 1 := Nat.find_min' hex (hb.trans h1)
  refine ⟨Nat.find hex, by omega, ?_, hf⟩
  rcases hi' : Nat.find hex with _ | j
  · exact h0.trans ha
  · have hj := Nat.find_min hex (m := j) (by omega)
    have := hstep j (by omega)
    push Not at hj
    linarith

variable [FloorRing K]

theorem inHypercubeR_iff {dim : ℕ} {cloud : List (List K)} {pos : List ℕ} {pt : List K} :
    inHypercubeR R side overlap dim cloud pos pt = true ↔ ∀ k < dim,
      lcorR R (minCoord cloud k) side overlap (pos.getD k 0) ≤ pt.getD k 0 ∧
        pt.getD k 0 ≤ ucorR R (minCoord cloud k) side overlap (pos.getD k 0) := by
  unfold inHypercubeR
  simp only [List.all_eq_true, List.mem_range, Bool.not_eq_true', Bool.or_eq_false_iff, decide_eq_false_iff_not,
    not_lt, gt_iff_lt]

theorem inHypercubeR_between (h1 : Monotone R.op) (h2 : Monotone R.store) (hs : 0 ≤ side) {dim : ℕ}
    {cloud : List (List K)} {p q r : List ℕ} {pt : List K}
    (hp : inHypercubeR R side overlap dim cloud p pt = true)
    (hq : inHypercubeR R side overlap dim cloud q pt = true)
    (h : ∀ j < dim, min (p.getD j 0) (q.getD j 0) ≤ r.getD j 0 ∧ r.getD j 0 ≤ max (p.getD j 0) (q.getD j 0)) :
    inHypercubeR R side overlap dim cloud r pt = true := by
  rw [inHypercubeR_iff] at hp hq ⊢
  intro k hk
  obtain ⟨a1, a2⟩ := hp k hk
  obtain ⟨b1, b2⟩ := hq k hk
  obtain ⟨c1, c2⟩ := h k hk
  constructor
  · rcases le_max_iff.1 c2 with c | c
    · exact (lcorR_mono h1 h2 hs c).trans a1
    · exact (lcorR_mono h1 h2 hs c).trans b1
  · rcases min_le_iff.1 c1 with c | c
    · exact a2.trans (ucorR_mono h1 h2 hs c)
    · exact b2.trans (ucorR_mono h1 h2 hs c)

/-! ### The number of cubes -/

variable {cloud : List (List K)} {maxDiv dim : ℕ}

theorem foldr_max_le_of {l : List K} {B : K} (hB : 0 ≤ B) (h : ∀ x ∈ l, x ≤ B) : l.foldr max 0 ≤ B := by
  induction l with
  | nil => exact hB
  | cons x l ih =>
    rw [List.foldr_cons]
    exact max_le (h x (by simp)) (ih fun y hy => h y (List.mem_cons_of_mem _ hy))

theorem le_foldr_max_of {l : List K} {x : K} (h : x ∈ l) : x ≤ l.foldr max 0 := by
  induction l with
  | nil => simp at h
  | cons y l ih =>
    rw [List.foldr_cons]
    rcases List.mem_cons.1 h with rfl | h
    · exact le_max_left _ _
    · exact (ih h).trans (le_max_right _ _)

theorem RoundOK.near (h : RoundOK R u η M) {x : K} (hx : 0 ≤ x) :
    (1 - u) * x ≤ R.op x ∧ R.op x ≤ (1 + u) * x := by
  have := abs_le.1 (h.acc.op x)
  rw [abs_of_nonneg hx] at this
  constructor <;> linarith [this.1, this.2]

/-- What is known of the grid. -/
theorem divR_spec (h : RoundOK R u η M) (hne : cloud ≠ []) (hm : 0 < maxDiv) (hdim : 0 < dim)
    (hM : ∀ pt ∈ cloud, ∀ i < dim, |pt.getD i 0| ≤ M)
    (hw : ∀ i < dim, ∃ a ∈ cloud, ∃ b ∈ cloud, a.getD i 0 < b.getD i 0) :
    0 < sideR R maxDiv dim cloud ∧ sideR R maxDiv dim cloud ≤ 41 / 20 * M ∧
    ∀ i < dim, 0 < (divR R maxDiv dim cloud).getD i 0 ∧
      (∀ k < (divR R maxDiv dim cloud).getD i 0, sideR R maxDiv dim cloud * k ≤ 41 / 20 * M) ∧
      maxCoord cloud i - minCoord cloud i ≤
        sideR R maxDiv dim cloud * (divR R maxDiv dim cloud).getD i 0 + 4 * (u * M) := by
  have hlohi : ∀ i < dim, |minCoord cloud i| ≤ M ∧ |maxCoord cloud i| ≤ M ∧ minCoord cloud i < maxCoord cloud i := by
    intro i hi
    obtain ⟨⟨x, hx, ex⟩, hx'⟩ := minCoord_isLeast hne i
    obtain ⟨⟨y, hy, ey⟩, hy'⟩ := maxCoord_isGreatest hne i
    obtain ⟨a, ha, b, hb, hab⟩ := hw i hi
    refine ⟨ex ▸ hM x hx i hi, ey ▸ hM y hy i hi, ?_⟩
    have h1 : minCoord cloud i ≤ a.getD i 0 := hx' ⟨a, ha, rfl⟩
    have h2 : b.getD i 0 ≤ maxCoord cloud i := hy' ⟨b, hb, rfl⟩
    linarith
  have hu1 := h.u1
  have hu0 := h.u0
  have hM0 := h.M0
  have hwid : ∀ i < dim, 0 < widthR R cloud i ∧ widthR R cloud i ≤ 202 / 100 * M ∧
      (1 - u) * (maxCoord cloud i - minCoord cloud i) ≤ widthR R cloud i := by
    intro i hi
    obtain ⟨h1, h2, h3⟩ := hlohi i hi
    obtain ⟨n1, n2⟩ := h.near (x := maxCoord cloud i - minCoord cloud i) (by linarith)
    have a1 := abs_le.1 h1
    have a2 := abs_le.1 h2
    refine ⟨lt_of_lt_of_le (mul_pos (by linarith) (by linarith)) n1, n2.trans ?_, n1⟩
    calc (1 + u) * (maxCoord cloud i - minCoord cloud i) ≤ (101 / 100) * (2 * M) :=
          mul_le_mul (by linarith) (by linarith) (by linarith) (by norm_num)
      _ = 202 / 100 * M := by ring
  have hlen0 : 0 < maxLengthR R dim cloud := by
    refine lt_of_lt_of_le (hwid 0 hdim).1 ?_
    unfold maxLengthR
    refine (le_abs_self _).trans (le_foldr_max_of ?_)
    exact List.mem_map.2 ⟨0, List.mem_range.2 hdim, rfl⟩
  have hlen1 : maxLengthR R dim cloud ≤ 202 / 100 * M := by
    refine foldr_max_le_of (by linarith) fun x hx => ?_
    obtain ⟨i, hi, rfl⟩ := List.mem_map.1 hx
    obtain ⟨w1, w2, -⟩ := hwid i (List.mem_range.1 hi)
    rw [abs_of_pos w1]; exact w2
  have hm' : (1 : K) ≤ (maxDiv : K) := by exact_mod_cast hm
  have hq0 : 0 < maxLengthR R dim cloud / maxDiv := div_pos hlen0 (by linarith)
  have hq1 : maxLengthR R dim cloud / maxDiv ≤ 202 / 100 * M :=
    (div_le_self hlen0.le hm').trans hlen1
  obtain ⟨s1, s2⟩ := h.near hq0.le
  have hs0 : 0 < sideR R maxDiv dim cloud := lt_of_lt_of_le (mul_pos (by linarith) hq0) s1
  have hs1 : sideR R maxDiv dim cloud ≤ 41 / 20 * M := by
    refine s2.trans ?_
    calc (1 + u) * (maxLengthR R dim cloud / maxDiv) ≤ (101 / 100) * (202 / 100 * M) :=
          mul_le_mul (by linarith) hq1 hq0.le (by norm_num)
      _ ≤ 41 / 20 * M := by rw [← mul_assoc]; exact mul_le_mul_of_nonneg_right (by norm_num) hM0
  refine ⟨hs0, hs1, fun i hi => ?_⟩
  obtain ⟨w1, w2, w3⟩ := hwid i hi
  have hq : 0 < widthR R cloud i / sideR R maxDiv dim cloud := div_pos w1 hs0
  obtain ⟨q1, q2⟩ := h.near hq.le
  have hq' : 0 < R.op (widthR R cloud i / sideR R maxDiv dim cloud) :=
    lt_of_lt_of_le (mul_pos (by linarith) hq) q1
  have hdiv : (divR R maxDiv dim cloud).getD i 0 =
      (⌈R.op (widthR R cloud i / sideR R maxDiv dim cloud)⌉).toNat := by
    unfold divR
    rw [List_getD_eq_getElem _ _ (by simpa using hi)]
    simp
  set x := R.op (widthR R cloud i / sideR R maxDiv dim cloud) with hx
  have hceil : 0 < ⌈x⌉ := Int.ceil_pos.2 hq'
  have hmul : sideR R maxDiv dim cloud * (widthR R cloud i / sideR R maxDiv dim cloud) = widthR R cloud i :=
    mul_div_cancel₀ _ hs0.ne'
  have hcast : (((⌈x⌉).toNat : ℕ) : K) = ((⌈x⌉ : ℤ) : K) := by
    have : (((⌈x⌉).toNat : ℕ) : ℤ) = ⌈x⌉ := Int.toNat_of_nonneg hceil.le
    exact_mod_cast congrArg (fun z : ℤ => (z : K)) this
  rw [hdiv]
  refine ⟨by omega, fun k hk => ?_, ?_⟩
  · have hk1 : ((k : ℤ) : K) < x := Int.lt_ceil.1 (by omega)
    have hk2 : (k : K) ≤ (1 + u) * (widthR R cloud i / sideR R maxDiv dim cloud) := by
      have : ((k : ℤ) : K) = (k : K) := by push_cast; rfl
      rw [this] at hk1
      linarith
    have h3 := mul_le_mul_of_nonneg_left hk2 hs0.le
    rw [show sideR R maxDiv dim cloud * ((1 + u) * (widthR R cloud i / sideR R maxDiv dim cloud)) =
      (1 + u) * (sideR R maxDiv dim cloud * (widthR R cloud i / sideR R maxDiv dim cloud)) by ring, hmul] at h3
    refine h3.trans ?_
    calc (1 + u) * widthR R cloud i ≤ (101 / 100) * (202 / 100 * M) :=
          mul_le_mul (by linarith) w2 w1.le (by norm_num)
      _ ≤ 41 / 20 * M := by rw [← mul_assoc]; exact mul_le_mul_of_nonneg_right (by norm_num) hM0
  · rw [hcast]
    have hx2 : x ≤ ((⌈x⌉ : ℤ) : K) := Int.le_ceil x
    have h3 := mul_le_mul_of_nonneg_left (q1.trans hx2) hs0.le
    rw [show sideR R maxDiv dim cloud * ((1 - u) * (widthR R cloud i / sideR R maxDiv dim cloud)) =
      (1 - u) * (sideR R maxDiv dim cloud * (widthR R cloud i / sideR R maxDiv dim cloud)) by ring, hmul] at h3
    obtain ⟨l1, l2, l3⟩ := hlohi i hi
    have a1 := abs_le.1 l1
    have a2 := abs_le.1 l2
    have h4 := mul_le_mul_of_nonneg_left w3 (show 0 ≤ 1 - u by linarith)
    have hW : maxCoord cloud i - minCoord cloud i ≤ 2 * M := by linarith
    have h5 : u * (maxCoord cloud i - minCoord cloud i) ≤ u * (2 * M) := mul_le_mul_of_nonneg_left hW hu0
    have h6 : 0 ≤ u * u * (maxCoord cloud i - minCoord cloud i) :=
      mul_nonneg (mul_nonneg hu0 hu0) (by linarith)
    have e1 : (1 - u) * ((1 - u) * (maxCoord cloud i - minCoord cloud i)) =
      (maxCoord cloud i - minCoord cloud i) - 2 * (u * (maxCoord cloud i - minCoord cloud i)) +
        u * u * (maxCoord cloud i - minCoord cloud i) := by ring
    have e2 : u * (2 * M) = 2 * (u * M) := by ring
    linarith

/-! ### The cover -/

/-- How many cubes there are along each coordinate. -/
theorem divR_count (h : RoundOK R u η M) (hne : cloud ≠ []) (hm : 0 < maxDiv) (hdim : 0 < dim)
    (hw : ∀ i < dim, ∃ a ∈ cloud, ∃ b ∈ cloud, a.getD i 0 < b.getD i 0) :
    (3 * u * maxDiv < 1 → ∀ i < dim, (divR R maxDiv dim cloud).getD i 0 ≤ maxDiv + 1) ∧
    (u = 0 → ∀ i < dim, (divR R maxDiv dim cloud).getD i 0 ≤ maxDiv) ∧
    (3 * u * maxDiv < 1 → ∃ i < dim, maxDiv ≤ (divR R maxDiv dim cloud).getD i 0) := by
  have hu1 := h.u1
  have hu0 := h.u0
  have hwid : ∀ i < dim, 0 < widthR R cloud i := by
    intro i hi
    obtain ⟨-, hx'⟩ := minCoord_isLeast hne i
    obtain ⟨-, hy'⟩ := maxCoord_isGreatest hne i
    obtain ⟨a, ha, b, hb, hab⟩ := hw i hi
    have h1 : minCoord cloud i ≤ a.getD i 0 := hx' ⟨a, ha, rfl⟩
    have h2 : b.getD i 0 ≤ maxCoord cloud i := hy' ⟨b, hb, rfl⟩
    obtain ⟨n1, -⟩ := h.near (x := maxCoord cloud i - minCoord cloud i) (by linarith)
    exact lt_of_lt_of_le (mul_pos (by linarith) (by linarith)) n1
  have hle : ∀ i < dim, widthR R cloud i ≤ maxLengthR R dim cloud := fun i hi =>
    (le_abs_self _).trans (le_foldr_max_of (List.mem_map.2 ⟨i, List.mem_range.2 hi, rfl⟩))
  have hlen0 : 0 < maxLengthR R dim cloud := lt_of_lt_of_le (hwid 0 hdim) (hle 0 hdim)
  obtain ⟨j, hj, hjw⟩ : ∃ j < dim, widthR R cloud j = maxLengthR R dim cloud := by
    by_contra hcon
    push Not at hcon
    have : maxLengthR R dim cloud < maxLengthR R dim cloud := by
      have key : ∀ (l : List K) (B : K), 0 < B → (∀ x ∈ l, x < B) → l.foldr max 0 < B := by
        intro l B hB
        induction l with
        | nil => intro _; exact hB
        | cons a l ih => intro hl; exact max_lt (hl a (by simp)) (ih fun x hx => hl x (by simp [hx]))
      refine key _ _ hlen0 fun x hx => ?_
      obtain ⟨i, hi, rfl⟩ := List.mem_map.1 hx
      have hi' := List.mem_range.1 hi
      rw [abs_of_pos (hwid i hi')]
      exact lt_of_le_of_ne (hle i hi') (hcon i hi')
    exact lt_irrefl _ this
  have hm' : (1 : K) ≤ (maxDiv : K) := by exact_mod_cast hm
  have hm0 : (0 : K) < (maxDiv : K) := by linarith
  have hq0 : 0 < maxLengthR R dim cloud / maxDiv := div_pos hlen0 hm0
  obtain ⟨s1, s2⟩ := h.near hq0.le
  have hs0 : 0 < sideR R maxDiv dim cloud := lt_of_lt_of_le (mul_pos (by linarith) hq0) s1
  change (1 - u) * _ ≤ sideR R maxDiv dim cloud at s1
  change sideR R maxDiv dim cloud ≤ _ at s2
  have hdiv : ∀ i < dim, (divR R maxDiv dim cloud).getD i 0 =
      (⌈R.op (widthR R cloud i / sideR R maxDiv dim cloud)⌉).toNat := by
    intro i hi
    unfold divR
    rw [List_getD_eq_getElem _ _ (by simpa using hi)]
    simp
  -- the largest quotient
  have hup : ∀ i < dim, (1 - u) * R.op (widthR R cloud i / sideR R maxDiv dim cloud) ≤ (1 + u) * maxDiv := by
    intro i hi
    obtain ⟨-, q2⟩ := h.near (div_pos (hwid i hi) hs0).le
    have e1 : (1 - u) * (widthR R cloud i / sideR R maxDiv dim cloud) ≤ maxDiv := by
      rw [← mul_div_assoc, div_le_iff₀ hs0]
      calc (1 - u) * widthR R cloud i ≤ (1 - u) * maxLengthR R dim cloud :=
            mul_le_mul_of_nonneg_left (hle i hi) (by linarith)
        _ = maxDiv * ((1 - u) * (maxLengthR R dim cloud / maxDiv)) := by field_simp
        _ ≤ maxDiv * sideR R maxDiv dim cloud := mul_le_mul_of_nonneg_left s1 hm0.le
    calc (1 - u) * R.op (widthR R cloud i / sideR R maxDiv dim cloud)
        ≤ (1 - u) * ((1 + u) * (widthR R cloud i / sideR R maxDiv dim cloud)) :=
          mul_le_mul_of_nonneg_left q2 (by linarith)
      _ = (1 + u) * ((1 - u) * (widthR R cloud i / sideR R maxDiv dim cloud)) := by ring
      _ ≤ (1 + u) * maxDiv := mul_le_mul_of_nonneg_left e1 (by linarith)
  refine ⟨fun hsm i hi => ?_, fun hz i hi => ?_, fun hsm => ⟨j, hj, ?_⟩⟩
  · rw [hdiv i hi, Int.toNat_le, Int.ceil_le]
    push_cast
    have := hup i hi
    have h3 : u * 1 ≤ u * maxDiv := mul_le_mul_of_nonneg_left hm' hu0
    refine le_of_mul_le_mul_left (this.trans ?_) (by linarith : 0 < 1 - u)
    nlinarith
  · rw [hdiv i hi, Int.toNat_le, Int.ceil_le]
    push_cast
    have := hup i hi
    rw [hz] at this
    linarith
  · rw [hdiv j hj, hjw]
    obtain ⟨q1, -⟩ := h.near (div_pos hlen0 hs0).le
    have e1 : (maxDiv : K) ≤ (1 + u) * (maxLengthR R dim cloud / sideR R maxDiv dim cloud) := by
      rw [← mul_div_assoc, le_div_iff₀ hs0]
      calc (maxDiv : K) * sideR R maxDiv dim cloud
          ≤ maxDiv * ((1 + u) * (maxLengthR R dim cloud / maxDiv)) := mul_le_mul_of_nonneg_left s2 hm0.le
        _ = (1 + u) * maxLengthR R dim cloud := by field_simp
    have e2 : (1 - u) * maxDiv ≤ (1 + u) * R.op (maxLengthR R dim cloud / sideR R maxDiv dim cloud) :=
      calc (1 - u) * (maxDiv : K) ≤ (1 - u) * ((1 + u) * (maxLengthR R dim cloud / sideR R maxDiv dim cloud)) :=
            mul_le_mul_of_nonneg_left e1 (by linarith)
        _ = (1 + u) * ((1 - u) * (maxLengthR R dim cloud / sideR R maxDiv dim cloud)) := by ring
        _ ≤ _ := mul_le_mul_of_nonneg_left q1 (by linarith)
    have e3 : (((maxDiv : ℤ) - 1 : ℤ) : K) < R.op (maxLengthR R dim cloud / sideR R maxDiv dim cloud) := by
      push_cast
      refine lt_of_mul_lt_mul_left (lt_of_lt_of_le ?_ e2) (by linarith : 0 ≤ 1 + u)
      have h3 : 0 ≤ u * maxDiv := mul_nonneg hu0 hm0.le
      nlinarith
    have := Int.lt_ceil.2 e3
    omega

theorem divR_length : (divR R maxDiv dim cloud).length = dim := by unfold divR; simp

theorem cubePointsR_spec {pos : List ℕ} : (cubePointsR R side overlap dim cloud pos).Pairwise (· < ·) ∧
    ∀ i, i ∈ cubePointsR R side overlap dim cloud pos ↔
      i < cloud.length ∧ inHypercubeR R side overlap dim cloud pos (cloud.getD i []) = true := by
  refine ⟨List.Pairwise.sublist List.filter_sublist List.pairwise_lt_range, fun i => ?_⟩
  unfold cubePointsR
  rw [List.mem_filter, List.mem_range]

theorem generateCoverR_grid (h : RoundOK R u η M) (hne : cloud ≠ []) (hm : 0 < maxDiv) (hdim : 0 < dim)
    (hM : ∀ pt ∈ cloud, ∀ i < dim, |pt.getD i 0| ≤ M)
    (hw : ∀ i < dim, ∃ a ∈ cloud, ∃ b ∈ cloud, a.getD i 0 < b.getD i 0) (overlap : K) :
    ∃ out C L, generateCoverR R maxDiv overlap dim cloud = .ok out ∧
      GridCover cloud (divR R maxDiv dim cloud)
        (fun pos i => inHypercubeR R (sideR R maxDiv dim cloud) overlap dim cloud pos (cloud.getD i []) = true)
        out C L := by
  obtain ⟨hs, -⟩ := divR_spec h hne hm hdim hM hw
  obtain ⟨out, C, L, h1, h2⟩ := coverOf_grid cloud (divR R maxDiv dim cloud)
    (pts := cubePointsR R (sideR R maxDiv dim cloud) overlap dim cloud) (fun _ => cubePointsR_spec.1)
    (fun _ => cubePointsR_spec.2)
  refine ⟨out, C, L, ?_, h2⟩
  unfold generateCoverR
  rw [if_neg (by rintro (e | e); exact hne e; exact hs.ne' e), h1]

/-- Points whose coordinates differ by at most `r` are in one cube, if the overlap exceeds `r` by more than the
errors of rounding. -/
theorem exists_cubeR (h : RoundOK R u η M) (hne : cloud ≠ []) (hm : 0 < maxDiv) (hdim : 0 < dim)
    (hM : ∀ pt ∈ cloud, ∀ i < dim, |pt.getD i 0| ≤ M)
    (hw : ∀ i < dim, ∃ a ∈ cloud, ∃ b ∈ cloud, a.getD i 0 < b.getD i 0) {r : K} (hr : 0 ≤ r)
    (ho : overlap ≤ M) (hov : r + 50 * u * M + 4 * η ≤ overlap) (S : List (List K)) (hSne : S ≠ [])
    (hS : ∀ pt ∈ S, pt ∈ cloud)
    (hsmall : ∀ x ∈ S, ∀ y ∈ S, ∀ i < dim, x.getD i 0 - y.getD i 0 ≤ r) :
    ∃ pos, IsPos (divR R maxDiv dim cloud) pos ∧ ∀ pt ∈ S,
      inHypercubeR R (sideR R maxDiv dim cloud) overlap dim cloud pos pt = true := by
  obtain ⟨hs0, hs1, hdiv⟩ := divR_spec h hne hm hdim hM hw
  have ht := h.t0
  have hη := h.η0
  have hov' : r + 50 * (u * M) + 4 * η ≤ overlap := by linarith [mul_assoc (50 : K) u M]
  have ho0 : 0 ≤ overlap := by linarith
  have hcoord : ∀ d, ∃ k, d < dim → k < (divR R maxDiv dim cloud).getD d 0 ∧ ∀ pt ∈ S,
      lcorR R (minCoord cloud d) (sideR R maxDiv dim cloud) overlap k ≤ pt.getD d 0 ∧
      pt.getD d 0 ≤ ucorR R (minCoord cloud d) (sideR R maxDiv dim cloud) overlap k := by
    intro d
    by_cases hd : d < dim
    swap
    · exact ⟨0, fun h => absurd h hd⟩
    obtain ⟨d1, d2, d3⟩ := hdiv d hd
    obtain ⟨⟨x, hx, ex⟩, hx'⟩ := minCoord_isLeast hSne d
    obtain ⟨⟨y, hy, ey⟩, hy'⟩ := maxCoord_isGreatest hSne d
    obtain ⟨⟨x0, hx0, ex0⟩, hx0'⟩ := minCoord_isLeast hne d
    obtain ⟨-, hy0'⟩ := maxCoord_isGreatest hne d
    have hlo : |minCoord cloud d| ≤ M := ex0 ▸ hM x0 hx0 d hd
    have e1 : minCoord cloud d ≤ minCoord S d := hx0' ⟨x, hS x hx, ex⟩
    have e2 : maxCoord S d ≤ maxCoord cloud d := hy0' ⟨y, hS y hy, ey⟩
    have e3 : maxCoord S d - minCoord S d ≤ r := by rw [ex, ey]; exact hsmall y hy x hx d hd
    set n := (divR R maxDiv dim cloud).getD d 0
    set σ := sideR R maxDiv dim cloud
    have hl := fun i (hi : i < n) => abs_le.1 (lcorR_err h hlo hs0.le hs1 (d2 i hi) ho0 ho)
    have hv := fun i (hi : i < n) => abs_le.1 (ucorR_err h hlo hs0.le hs1 (d2 i hi) ho0 ho)
    obtain ⟨k, hk, k1, k2⟩ := slab_cover (l := lcorR R (minCoord cloud d) σ overlap)
      (v := ucorR R (minCoord cloud d) σ overlap) d1 (lo := minCoord cloud d) (hi := maxCoord cloud d) (r := r)
      (by have := (hl 0 d1).2; rw [Nat.cast_zero, mul_zero] at this; linarith)
      (by
        have := (hv (n - 1) (by omega)).1
        rw [show ((n - 1 : ℕ) : K) + 1 = (n : K) by exact_mod_cast Nat.sub_add_cancel d1] at this
        linarith)
      (fun i hi => by
        have := (hl (i + 1) hi).2
        have := (hv i (by omega)).1
        push_cast at *
        linarith)
      e1 e2 e3
    refine ⟨k, fun _ => ⟨hk, fun pt hpt => ⟨k1.trans (hx' ⟨pt, hpt, rfl⟩), le_trans (hy' ⟨pt, hpt, rfl⟩) k2⟩⟩⟩
  choose f hf using hcoord
  have hget : ∀ d < dim, ((List.range dim).map f).getD d 0 = f d := fun d hd => by
    rw [List_getD_eq_getElem _ _ (by simpa using hd)]; simp
  refine ⟨(List.range dim).map f, isPos_iff.2 ⟨by rw [divR_length]; simp, fun d hd => ?_⟩, fun pt hpt => ?_⟩
  · rw [divR_length] at hd
    rw [hget d hd]
    exact (hf d hd).1
  · rw [inHypercubeR_iff]
    intro d hd
    rw [hget d hd]
    exact (hf d hd).2 pt hpt

end

end Permaviss
