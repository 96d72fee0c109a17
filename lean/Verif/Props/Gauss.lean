import Verif.Lemmas.GaussMore

/-!
# C05–C11: Gaussian elimination and linear systems mod `p`
-/

namespace Permaviss

open Finset

variable {p : ℕ}

/-- The concrete matrix used to show that hypotheses can be met (columns `(1,4,2)`, `(2,3,4)`,
`(3,1,0)` over `ZMod 5`; the second is twice the first). -/
def exA : Mat := Mat.ofRows 3 [[1, 2, 3], [4, 3, 1], [2, 4, 0]]

theorem exA_ok : exA.WellShaped ∧ exA.Reduced 5 ∧ 0 < exA.nrows := by
  refine ⟨?_, ?_, by decide⟩
  · unfold Mat.WellShaped; decide
  · unfold Mat.Reduced; decide

/-- **C05.** `gauss_col` terminates without raising on every matrix with entries in `[0, p)`. -/
theorem C05_gauss_col_total (hp : p.Prime) (A : Mat) (hA : A.WellShaped) (hr : A.Reduced p) :
    ∃ R T, gaussCol p A = .ok (R, T) := by
  by_cases h0 : A.nrows = 0
  · exact ⟨_, _, by unfold gaussCol; rw [if_pos h0]⟩
  · obtain ⟨rts, h, -⟩ := gaussCol_spec hp A hA hr h0
    exact ⟨_, _, h⟩

example : gaussCol 5 exA =
    .ok (Mat.ofRows 3 [[1, 0, 3], [4, 0, 1], [2, 0, 0]],
         Mat.ofRows 3 [[1, 3, 0], [0, 1, 0], [0, 0, 1]]) := by decide

/-- **C06.** The returned matrices satisfy `A T = R (mod p)`, `T` is upper triangular with ones on
its diagonal, and the entries of `R` and `T` are in `[0, p)`. -/
theorem C06_gauss_col_AT_eq_R (hp : p.Prime) (A R T : Mat) (hA : A.WellShaped) (hr : A.Reduced p)
    (h0 : 0 < A.nrows) (h : gaussCol p A = .ok (R, T)) :
    (R.nrows = A.nrows ∧ R.ncols = A.ncols ∧ R.WellShaped ∧ R.Reduced p) ∧
    (T.nrows = A.ncols ∧ T.ncols = A.ncols ∧ T.WellShaped ∧ T.Reduced p) ∧
    (∀ i < A.nrows, ∀ j < A.ncols,
      ∑ k ∈ range A.ncols, A.z p i k * T.z p k j = R.z p i j) ∧
    (∀ j < A.ncols, T.z p j j = 1) ∧
    (∀ j < A.ncols, ∀ i, j < i → T.z p i j = 0) := by
  obtain ⟨rts, h1, hl, hg⟩ := gaussCol_spec hp A hA hr h0.ne'
  rw [h1] at h
  simp only [Except.ok.injEq, Prod.mk.injEq] at h
  obtain ⟨rfl, rfl⟩ := h
  have getR : ∀ i j, j < A.ncols →
      (⟨A.nrows, rts.map Prod.fst⟩ : Mat).z p i j = GOK.rv p rts j i := by
    intro i j hj
    have : j < rts.length := by rw [hl]; exact hj
    simp [Mat.z, Mat.get, GOK.rv, zv, List.getD_eq_getElem?_getD, this]
  have getT : ∀ i j, j < A.ncols →
      (⟨A.cols.length, rts.map Prod.snd⟩ : Mat).z p i j = GOK.tv p rts j i := by
    intro i j hj
    have : j < rts.length := by rw [hl]; exact hj
    simp [Mat.z, Mat.get, GOK.tv, zv, List.getD_eq_getElem?_getD, this]
  refine ⟨⟨rfl, by simp [Mat.ncols, hl], ?_, ?_⟩, ⟨rfl, by simp [Mat.ncols, hl], ?_, ?_⟩, ?_, ?_, ?_⟩
  · intro c hc
    obtain ⟨rt, hrt, rfl⟩ := List.mem_map.mp hc
    exact (hg.ok rt hrt).len1
  · intro c hc
    obtain ⟨rt, hrt, rfl⟩ := List.mem_map.mp hc
    exact (hg.ok rt hrt).red1
  · intro c hc
    obtain ⟨rt, hrt, rfl⟩ := List.mem_map.mp hc
    exact (hg.ok rt hrt).len2
  · intro c hc
    obtain ⟨rt, hrt, rfl⟩ := List.mem_map.mp hc
    exact (hg.ok rt hrt).red2
  · intro i _ j hj
    rw [getR i j hj, hg.rv_eq (by rw [hl]; exact hj), comb_apply_entry]
    exact Finset.sum_congr rfl fun k _ => by rw [getT k j hj]
  · intro j hj
    rw [getT j j hj]; exact hg.tv_one (by rw [hl]; exact hj)
  · intro j hj i hi
    rw [getT i j hj]; exact hg.tv_upper (by rw [hl]; exact hj) hi

/-- **C07.** Different nonzero columns of `R` have different pivots (last nonzero rows). -/
theorem C07_gauss_col_distinct_pivots (hp : p.Prime) (A R T : Mat) (hA : A.WellShaped)
    (hr : A.Reduced p) (h0 : 0 < A.nrows) (h : gaussCol p A = .ok (R, T)) :
    ∀ i < A.ncols, ∀ j < A.ncols, ∀ r,
      IsPiv (fun k => R.z p k i) r → IsPiv (fun k => R.z p k j) r → i = j := by
  obtain ⟨rts, h1, hl, hg⟩ := gaussCol_spec hp A hA hr h0.ne'
  rw [h1] at h
  simp only [Except.ok.injEq, Prod.mk.injEq] at h
  obtain ⟨rfl, rfl⟩ := h
  have getR : ∀ j, j < A.ncols →
      (fun i => (⟨A.nrows, rts.map Prod.fst⟩ : Mat).z p i j) = GOK.rv p rts j := by
    intro j hj
    have : j < rts.length := by rw [hl]; exact hj
    funext i
    simp [Mat.z, Mat.get, GOK.rv, zv, List.getD_eq_getElem?_getD, this]
  intro i hi j hj r h1 h2
  rw [getR i hi] at h1
  rw [getR j hj] at h2
  exact hg.piv_inj hp (by rw [hl]; exact hi) (by rw [hl]; exact hj) h1 h2

/-- Column `j` of a matrix as a vector over `ZMod p`. -/
def colv (p : ℕ) (A : Mat) (j : ℕ) : ℕ → ZMod p := fun i => A.z p i j

/-- **C08.** Column `j` of `R` is zero exactly when column `j` of `A` is a combination of the
columns of `A` before it. -/
theorem C08_gauss_col_zero_iff_dependent (hp : p.Prime) (A R T : Mat) (hA : A.WellShaped)
    (hr : A.Reduced p) (h0 : 0 < A.nrows) (h : gaussCol p A = .ok (R, T)) (j : ℕ)
    (hj : j < A.ncols) :
    (∀ i < A.nrows, R.z p i j = 0) ↔
      ∃ c : ℕ → ZMod p, ∀ i < A.nrows, A.z p i j = ∑ k ∈ range j, c k * A.z p i k := by
  obtain ⟨⟨hRn, -, hRw, -⟩, -⟩ := C06_gauss_col_AT_eq_R hp A R T hA hr h0 h
  obtain ⟨rts, h1, hl, hg⟩ := gaussCol_spec hp A hA hr h0.ne'
  rw [h1] at h
  simp only [Except.ok.injEq, Prod.mk.injEq] at h
  obtain ⟨rfl, rfl⟩ := h
  have getR : (fun i => (⟨A.nrows, rts.map Prod.fst⟩ : Mat).z p i j) = GOK.rv p rts j := by
    have : j < rts.length := by rw [hl]; exact hj
    funext i
    simp [Mat.z, Mat.get, GOK.rv, zv, List.getD_eq_getElem?_getD, this]
  have e1 : (∀ i < A.nrows, (⟨A.nrows, rts.map Prod.fst⟩ : Mat).z p i j = 0) ↔
      GOK.rv p rts j = 0 := by
    constructor
    · intro h2
      rw [← getR]; funext i
      rcases lt_or_ge i A.nrows with h3 | h3
      · exact h2 i h3
      · exact hRw.zv_zero h3 j
    · intro h2 i _
      exact (congrFun getR i).trans (congrFun h2 i)
  rw [e1, hg.rv_eq_zero_iff hp (by rw [hl]; exact hj), mem_prefSpan_iff]
  constructor
  · rintro ⟨c, hc⟩
    refine ⟨c, fun i _ => ?_⟩
    have := congrFun hc i
    simp only [comb_single, Finset.sum_apply, Pi.smul_apply, smul_eq_mul, zv_getD_cols] at this
    exact this.symm
  · rintro ⟨c, hc⟩
    refine ⟨c, ?_⟩
    funext i
    simp only [comb_single, Finset.sum_apply, Pi.smul_apply, smul_eq_mul, zv_getD_cols]
    rcases lt_or_ge i A.nrows with h3 | h3
    · exact (hc i h3).symm
    · rw [hA.zv_zero h3]
      exact Finset.sum_eq_zero fun k _ => by rw [hA.zv_zero h3, mul_zero]

/-- **C08.** Every prefix of columns of `R` spans the same space as that prefix of `A`. -/
theorem C08_gauss_col_prefix_span (hp : p.Prime) (A R T : Mat) (hA : A.WellShaped)
    (hr : A.Reduced p) (h0 : 0 < A.nrows) (h : gaussCol p A = .ok (R, T)) (j : ℕ)
    (hj : j ≤ A.ncols) :
    Submodule.span (ZMod p) {x | ∃ k < j, colv p R k = x} =
      Submodule.span (ZMod p) {x | ∃ k < j, colv p A k = x} := by
  obtain ⟨rts, h1, hl, hg⟩ := gaussCol_spec hp A hA hr h0.ne'
  rw [h1] at h
  simp only [Except.ok.injEq, Prod.mk.injEq] at h
  obtain ⟨rfl, rfl⟩ := h
  have getR : ∀ k, k < A.ncols →
      colv p (⟨A.nrows, rts.map Prod.fst⟩ : Mat) k = GOK.rv p rts k := by
    intro j hj
    have : j < rts.length := by rw [hl]; exact hj
    funext i
    simp [colv, Mat.z, Mat.get, GOK.rv, zv, List.getD_eq_getElem?_getD, this]
  have := hg.prefSpan_eq j (by rw [hl]; exact hj)
  simp only [prefSpan, comb_single] at this
  have e : {x | ∃ k < j, colv p (⟨A.nrows, rts.map Prod.fst⟩ : Mat) k = x} =
      {x | ∃ k < j, GOK.rv p rts k = x} := by
    ext x
    constructor
    · rintro ⟨k, hk, rfl⟩; exact ⟨k, hk, (getR k (by omega)).symm⟩
    · rintro ⟨k, hk, rfl⟩; exact ⟨k, hk, getR k (by omega)⟩
  rw [e]
  exact this

/-- The matrix over `ZMod p` given by an array. -/
def Mat.toMatrix (p : ℕ) (A : Mat) : Matrix (Fin A.nrows) (Fin A.ncols) (ZMod p) :=
  Matrix.of fun i j => A.z p i j

/-- The number of nonzero columns among the first `n`. -/
noncomputable def nonzeroCols (p : ℕ) (R : Mat) : ℕ :=
  by classical exact ((range R.ncols).filter fun j => colv p R j ≠ 0).card

/-- **C08.** The number of nonzero columns of `R` is the rank of `A` mod `p`. -/
theorem C08_gauss_col_rank (hp : p.Prime) (A R T : Mat) (hA : A.WellShaped)
    (hr : A.Reduced p) (h0 : 0 < A.nrows) (h : gaussCol p A = .ok (R, T)) :
    (A.toMatrix p).rank = nonzeroCols p R := by
  classical
  have := Fact.mk hp
  obtain ⟨⟨hRn, hRc, hRw, -⟩, -⟩ := C06_gauss_col_AT_eq_R hp A R T hA hr h0 h
  have hpiv := C07_gauss_col_distinct_pivots hp A R T hA hr h0 h
  have hspan := C08_gauss_col_prefix_span hp A R T hA hr h0 h A.ncols le_rfl
  -- restriction of vectors to the rows of `A`
  let res : (ℕ → ZMod p) →ₗ[ZMod p] (Fin A.nrows → ZMod p) :=
    LinearMap.pi fun i => LinearMap.proj (i : ℕ)
  have hcols : Submodule.span (ZMod p) (Set.range (A.toMatrix p).col) =
      Submodule.map res (Submodule.span (ZMod p) {x | ∃ k < A.ncols, colv p A k = x}) := by
    rw [Submodule.map_span]
    congr 1
    ext x
    constructor
    · rintro ⟨k, rfl⟩
      exact ⟨colv p A k, ⟨k, k.2, rfl⟩, rfl⟩
    · rintro ⟨_, ⟨k, hk, rfl⟩, rfl⟩
      exact ⟨⟨k, hk⟩, rfl⟩
  let S := (range R.ncols).filter fun j => colv p R j ≠ 0
  have hS : ∀ j ∈ S, ∃ r, IsPiv (colv p R j) r := by
    intro j hj
    have hne := (Finset.mem_filter.mp hj).2
    have hbd : ∀ r, colv p R j r ≠ 0 → r ≤ A.nrows := by
      intro r hr0
      by_contra hc
      exact hr0 (hRw.zv_zero (by rw [hRn]; omega) j)
    have hex : ∃ r, colv p R j r ≠ 0 := by
      by_contra hc
      push Not at hc
      exact hne (funext hc)
    refine ⟨Nat.findGreatest (fun r => colv p R j r ≠ 0) A.nrows, ?_, ?_⟩
    · obtain ⟨r, hr0⟩ := hex
      exact Nat.findGreatest_spec (P := fun r => colv p R j r ≠ 0) (hbd r hr0) hr0
    · intro r hr1
      by_contra hc
      exact absurd (Nat.le_findGreatest (P := fun r => colv p R j r ≠ 0) (hbd r hc) hc) (by omega)
  let piv : ℕ → ℕ := fun j => if hj : j ∈ S then (hS j hj).choose else 0
  have hpiv' : ∀ j ∈ S, IsPiv (colv p R j) (piv j) := by
    intro j hj
    simp only [piv, hj, dif_pos]
    exact (hS j hj).choose_spec
  have hRspan : Submodule.span (ZMod p) {x | ∃ k < A.ncols, colv p R k = x} =
      Submodule.span (ZMod p) (Set.range fun k : S => colv p R k) := by
    apply le_antisymm
    · rw [Submodule.span_le]
      rintro x ⟨k, hk, rfl⟩
      by_cases hz : colv p R k = 0
      · rw [hz]; exact Submodule.zero_mem _
      · exact Submodule.subset_span ⟨⟨k, by simp [S, hRc, hk, hz]⟩, rfl⟩
    · apply Submodule.span_mono
      rintro x ⟨k, rfl⟩
      have := (Finset.mem_filter.mp k.2).1
      exact ⟨k, by rw [← hRc]; exact mem_range.mp this, rfl⟩
  have hli : LinearIndependent (ZMod p) (fun k : S => res (colv p R k)) := by
    rw [Fintype.linearIndependent_iff]
    intro g hg k
    let c : ℕ → ZMod p := fun j => if hj : j ∈ S then g ⟨j, hj⟩ else 0
    have hsum : ∑ j ∈ S, c j • colv p R j = 0 := by
      have e1 : ∑ j ∈ S, c j • colv p R j = ∑ k : S, g k • colv p R k := by
        rw [← Finset.sum_coe_sort S]
        exact Finset.sum_congr rfl fun k _ => by simp [c]
      rw [e1]
      funext i
      rcases lt_or_ge i A.nrows with hi | hi
      · have := congrFun hg ⟨i, hi⟩
        simpa [Finset.sum_apply, res] using this
      · simp only [Finset.sum_apply, Pi.smul_apply, smul_eq_mul, Pi.zero_apply]
        exact Finset.sum_eq_zero fun k _ => by
          rw [show colv p R k i = 0 from hRw.zv_zero (by rw [hRn]; exact hi) k, mul_zero]
    have := pivot_indep S (colv p R) piv hpiv' (by
      intro i hi j hj hij
      have h1 := hpiv' i hi
      have h2 := hpiv' j hj
      have hij' : piv i = piv j := hij
      rw [hij'] at h1
      exact hpiv i (by have := (Finset.mem_filter.mp hi).1; rw [← hRc]; exact mem_range.mp this)
        j (by have := (Finset.mem_filter.mp hj).1; rw [← hRc]; exact mem_range.mp this) _ h1 h2)
      c hsum k k.2
    simpa [c] using this
  rw [Matrix.rank_eq_finrank_span_cols, hcols, ← hspan, hRspan, Submodule.map_span,
    ← Set.range_comp]
  rw [show (⇑res ∘ fun k : S => colv p R k) = fun k : S => res (colv p R k) from rfl,
    finrank_span_eq_card hli]
  simp [nonzeroCols, S]

/-! ### Linear systems -/

/-- What the elimination of `[A | b]` says about the last column. -/
theorem gaussCol_append (hp : p.Prime) (A : Mat) (b : List Int) (hA : A.WellShaped)
    (hr : A.Reduced p) (hb : b.length = A.nrows) (hbr : RedL p b) (h0 : 0 < A.nrows) :
    ∃ rts, gaussCol p ⟨A.nrows, A.cols ++ [b]⟩ =
        .ok (⟨A.nrows, rts.map Prod.fst⟩, ⟨A.cols.length + 1, rts.map Prod.snd⟩) ∧
      rts.length = A.cols.length + 1 ∧
      GOK p A.nrows (A.cols.length + 1) (comb p (A.cols ++ [b])) rts := by
  obtain ⟨rts, h1, h2, h3⟩ := gaussCol_spec hp ⟨A.nrows, A.cols ++ [b]⟩
    (by
      intro c hc
      rcases List.mem_append.mp hc with h | h
      · exact hA c h
      · simp at h; subst h; exact hb)
    (by
      intro c hc
      rcases List.mem_append.mp hc with h | h
      · exact hr c h
      · simp at h; subst h; exact hbr)
    h0.ne'
  simp only [List.length_append, List.length_singleton] at h1 h2 h3
  exact ⟨rts, h1, h2, h3⟩

theorem solveModP_spec (hp : p.Prime) (A : Mat) (b : List Int) (hA : A.WellShaped)
    (hr : A.Reduced p) (hb : b.length = A.nrows) (hbr : RedL p b) (h0 : 0 < A.nrows) :
    (∃ x, solveModP p A b = .ok x ∧ x.length = A.ncols ∧ RedL p x ∧
      IsSolution p A (zv p x) (zv p b)) ∨
    (solveModP p A b = .error .valueError ∧ ¬ ∃ x, IsSolution p A x (zv p b)) := by
  obtain ⟨rts, h1, h2, h3⟩ := gaussCol_append hp A b hA hr hb hbr h0
  set n := A.cols.length with hn
  have hlt : n < rts.length := by omega
  have hlast : (rts.map Prod.fst).getLastD [] = (rts.getD n ([], [])).1 := by
    rw [List.getLastD_eq_getLast?, List.getLast?_eq_getElem?]
    simp [List.getD_eq_getElem?_getD, h2]
  have hlast2 : (rts.map Prod.snd).getLastD [] = (rts.getD n ([], [])).2 := by
    rw [List.getLastD_eq_getLast?, List.getLast?_eq_getElem?]
    simp [List.getD_eq_getElem?_getD, h2]
  have hcolA : ∀ k < n, comb p (A.cols ++ [b]) (Pi.single k 1) = zv p (A.cols.getD k []) := by
    intro k hk
    rw [comb_single]
    congr 1
    simp [List.getD_eq_getElem?_getD, List.getElem?_append, hk, ← hn]
  have hcolb : comb p (A.cols ++ [b]) (Pi.single n 1) = zv p b := by
    rw [comb_single]
    congr 1
    simp [List.getD_eq_getElem?_getD, hn]
  have hred := h3.rv_red hlt
  unfold solveModP
  rw [if_neg h0.ne', h1]
  simp only [bind, Except.bind, hlast, hlast2]
  by_cases hz : npAny (rts.getD n ([], [])).1 = true
  · right
    rw [if_pos hz]
    refine ⟨rfl, ?_⟩
    rintro ⟨x, hx⟩
    have hne : GOK.rv p rts n ≠ 0 := by
      intro h
      have := (hred.npAny_false hp.pos).mpr h
      rw [this] at hz; cases hz
    apply hne
    rw [h3.rv_eq_zero_iff hp hlt, hcolb, mem_prefSpan_iff]
    refine ⟨x, ?_⟩
    rw [Finset.sum_congr rfl fun k hk => by rw [hcolA k (mem_range.mp hk)]]
    funext i
    simp only [Finset.sum_apply, Pi.smul_apply, smul_eq_mul, zv_getD_cols]
    rcases lt_or_ge i A.nrows with hi | hi
    · rw [← hx i hi]
      exact Finset.sum_congr rfl fun k _ => mul_comm _ _
    · rw [zv_of_le _ (by omega)]
      exact Finset.sum_eq_zero fun k _ => by rw [hA.zv_zero hi, mul_zero]
  · left
    rw [if_neg hz]
    have hlen : ((rts.getD n ([], [])).2).length = n + 1 := by
      rw [List_getD_eq_getElem _ _ hlt]; exact (h3.ok _ (List.getElem_mem hlt)).len2
    refine ⟨_, rfl, ?_, redL_negMod _ hp.pos, ?_⟩
    · simp only [negMod, List.length_map, List.length_dropLast, hlen, Mat.ncols, ← hn]; rfl
    · have hzero : GOK.rv p rts n = 0 := (hred.npAny_false hp.pos).mp (by simpa using hz)
      have hdec := h3.rv_eq hlt
      rw [hzero, h3.tv_decomp hlt, map_add, map_sum, hcolb] at hdec
      intro i _
      have := congrFun hdec i
      simp only [Pi.zero_apply, Pi.add_apply, Finset.sum_apply, map_smul, Pi.smul_apply,
        smul_eq_mul] at this
      rw [Finset.sum_congr rfl fun k hk => by rw [hcolA k (mem_range.mp hk), zv_getD_cols]] at this
      rw [eq_comm, ← eq_neg_iff_add_eq_zero] at this
      rw [this, ← Finset.sum_neg_distrib]
      refine Finset.sum_congr rfl fun k hk => ?_
      rw [zv_negMod, Pi.neg_apply, zv_dropLast, hlen, if_pos (by have := mem_range.mp hk; simpa using this)]
      change A.z p i k * -(GOK.tv p rts n k) = _
      ring

/-- **C09.** A vector returned by `solve_mod_p(A, b, p)` solves the system, has one entry per column
of `A`, and its entries are in `[0, p)`. -/
theorem C09_solve_mod_p_sound (hp : p.Prime) (A : Mat) (b x : List Int) (hA : A.WellShaped)
    (hr : A.Reduced p) (hb : b.length = A.nrows) (hbr : RedL p b)
    (h : solveModP p A b = .ok x) :
    x.length = A.ncols ∧ (∀ y ∈ x, 0 ≤ y ∧ y < (p : Int)) ∧
      ∀ i < A.nrows, ∑ k ∈ range A.ncols, A.z p i k * zv p x k = zv p b i := by
  by_cases h0 : A.nrows = 0
  · unfold solveModP at h; rw [if_pos h0] at h; cases h
  · rcases solveModP_spec hp A b hA hr hb hbr (by omega) with ⟨y, h1, h2, h3, h4⟩ | ⟨h1, -⟩
    · rw [h1] at h; cases h; exact ⟨h2, h3, h4⟩
    · rw [h1] at h; cases h

/-- **C10** (partial: `b` and `A` must already be reduced mod `p`; see
`C10_solve_mod_p_fails_unreduced`).  With at least one row, `solve_mod_p` raises `ValueError` exactly
when the system has no solution, and otherwise returns. -/
theorem C10_solve_mod_p_complete_partial (hp : p.Prime) (A : Mat) (b : List Int) (hA : A.WellShaped)
    (hr : A.Reduced p) (hb : b.length = A.nrows) (hbr : RedL p b) (h0 : 0 < A.nrows) :
    (solveModP p A b = .error .valueError ↔
      ¬ ∃ x : ℕ → ZMod p, ∀ i < A.nrows, ∑ k ∈ range A.ncols, A.z p i k * x k = zv p b i) ∧
    ((∃ x, solveModP p A b = .ok x) ↔
      ∃ x : ℕ → ZMod p, ∀ i < A.nrows, ∑ k ∈ range A.ncols, A.z p i k * x k = zv p b i) := by
  rcases solveModP_spec hp A b hA hr hb hbr h0 with ⟨y, h1, h2, h3, h4⟩ | ⟨h1, h2⟩
  · rw [h1]
    refine ⟨⟨fun h => (by cases h), fun h => absurd ⟨_, h4⟩ h⟩, ⟨fun _ => ⟨_, h4⟩, fun _ => ⟨y, rfl⟩⟩⟩
  · rw [h1]
    refine ⟨⟨fun _ => h2, fun _ => rfl⟩, ⟨?_, fun h => absurd h h2⟩⟩
    rintro ⟨x, hx⟩; cases hx

example : solveModP 5 exA [3, 2, 1] = .ok [3, 0, 0] ∧ solveModP 5 exA [1, 0, 0] = .error .valueError
    ∧ RedL 5 [3, 2, 1] := by
  refine ⟨by decide, by decide, ?_⟩
  unfold RedL; decide

/-- On the unchanged code an unreduced right hand side breaks the contract: `0·x = 5` is solvable
mod `5` but `solve_mod_p([[0]], [5], 5)` raises `ValueError`. -/
theorem C10_solve_mod_p_fails_unreduced :
    ¬ ∀ (p : ℕ) (A : Mat) (b : List Int), p.Prime → A.WellShaped → b.length = A.nrows →
      0 < A.nrows →
      (∃ x : ℕ → ZMod p, ∀ i < A.nrows, ∑ k ∈ range A.ncols, A.z p i k * x k = zv p b i) →
      ∃ x, solveModP p A b = .ok x := by
  intro h
  obtain ⟨x, hx⟩ := h 5 ⟨1, [[0]]⟩ [5] (by decide) (by unfold Mat.WellShaped; decide) rfl (by decide)
    ⟨0, by
      intro i hi
      have : i = 0 := by simpa using hi
      subst this
      simp [zv]; decide⟩
  have : solveModP 5 ⟨1, [[0]]⟩ [5] = .error .valueError := by decide
  rw [this] at hx; cases hx

theorem solveMatrixModP_spec (hp : p.Prime) (A B : Mat) (hA : A.WellShaped)
    (hr : A.Reduced p) (hBr : B.Reduced p) (hBc : B.ncols = A.nrows) (h0 : 0 < A.nrows) :
    (∃ X, solveMatrixModP p A B = .ok X ∧ X.nrows = A.ncols ∧ X.ncols = B.nrows ∧ X.Reduced p ∧
      ∀ i < A.nrows, ∀ j < B.nrows, ∑ k ∈ range A.ncols, A.z p i k * X.z p k j = B.z p j i) ∨
    (solveMatrixModP p A B = .error .valueError ∧
      ¬ ∃ X : ℕ → ℕ → ZMod p, ∀ i < A.nrows, ∀ j < B.nrows,
        ∑ k ∈ range A.ncols, A.z p i k * X k j = B.z p j i) := by
  have hBtlen : B.transpose.cols.length = B.nrows := by simp [Mat.transpose]
  have hBtcol : ∀ j < B.nrows, B.transpose.cols.getD j [] = B.cols.map fun c => c.getD j 0 := by
    intro j hj
    simp [Mat.transpose, List.getD_eq_getElem?_getD, hj]
  have hBtz : ∀ j < B.nrows, ∀ i < A.nrows, zv p (B.transpose.cols.getD j []) i = B.z p j i := by
    intro j hj i hi
    have hi' : i < B.cols.length := by rw [← hBc] at hi; exact hi
    rw [hBtcol j hj]
    simp [zv, Mat.z, Mat.get, List.getD_eq_getElem?_getD, hi']
  have hBtl : ∀ c ∈ B.transpose.cols, c.length = A.nrows := by
    intro c hc
    simp only [Mat.transpose, List.mem_map, List.mem_range] at hc
    obtain ⟨i, -, rfl⟩ := hc
    rw [List.length_map, ← hBc]; rfl
  have hBtr : ∀ c ∈ B.transpose.cols, RedL p c := by
    intro c hc x hx
    simp only [Mat.transpose, List.mem_map, List.mem_range] at hc
    obtain ⟨i, -, rfl⟩ := hc
    simp only [List.mem_map] at hx
    obtain ⟨c, hc, rfl⟩ := hx
    exact RedL.getD (hBr c hc) hp.pos i
  obtain ⟨rts, h1, h2, h3⟩ := gaussCol_spec hp ⟨A.nrows, A.cols ++ B.transpose.cols⟩
    (by
      intro c hc
      rcases List.mem_append.mp hc with h | h
      · exact hA c h
      · exact hBtl c h)
    (by
      intro c hc
      rcases List.mem_append.mp hc with h | h
      · exact hr c h
      · exact hBtr c h)
    h0.ne'
  simp only [List.length_append, hBtlen] at h1 h2 h3
  set n := A.cols.length with hn
  have hcolA : ∀ k < n, comb p (A.cols ++ B.transpose.cols) (Pi.single k 1) =
      zv p (A.cols.getD k []) := by
    intro k hk
    rw [comb_single]
    congr 1
    simp [List.getD_eq_getElem?_getD, List.getElem?_append, hk, ← hn]
  have hcolB : ∀ j, comb p (A.cols ++ B.transpose.cols) (Pi.single (n + j) 1) =
      zv p (B.transpose.cols.getD j []) := by
    intro j
    rw [comb_single]
    congr 1
    rw [List.getD_eq_getElem?_getD, List.getD_eq_getElem?_getD, List.getElem?_append_right (by omega)]
    congr 2; omega
  unfold solveMatrixModP
  rw [if_neg h0.ne', h1]
  simp only [bind, Except.bind]
  by_cases hz : ((rts.map Prod.fst).drop A.cols.length).any npAny = true
  · right
    rw [if_pos hz]
    refine ⟨rfl, ?_⟩
    rintro ⟨X, hX⟩
    rw [List.any_eq_true] at hz
    obtain ⟨c, hc, hne⟩ := hz
    obtain ⟨j, hj, rfl⟩ := List.getElem_of_mem hc
    simp only [List.length_drop, List.length_map] at hj
    simp only [List.getElem_drop, List.getElem_map] at hne
    have hlt : n + j < rts.length := by omega
    have hjb : j < B.nrows := by omega
    have hrv : GOK.rv p rts (n + j) ≠ 0 := by
      intro h
      have h4 := ((h3.rv_red hlt).npAny_false hp.pos).mpr h
      rw [List_getD_eq_getElem _ _ hlt] at h4
      simp only [← hn] at hne
      rw [h4] at hne; cases hne
    apply hrv
    rw [h3.rv_eq_zero_iff hp hlt, hcolB]
    apply prefSpan_mono _ (Nat.le_add_right n j)
    rw [mem_prefSpan_iff]
    refine ⟨fun k => X k j, ?_⟩
    rw [Finset.sum_congr rfl fun k hk => by rw [hcolA k (mem_range.mp hk)]]
    funext i
    simp only [Finset.sum_apply, Pi.smul_apply, smul_eq_mul, zv_getD_cols]
    rcases lt_or_ge i A.nrows with hi | hi
    · rw [← zv_getD_cols, hBtz j hjb i hi, ← hX i hi j hjb]
      exact Finset.sum_congr rfl fun k _ => mul_comm _ _
    · have hz' : B.transpose.z p i j = 0 := by
        rw [← zv_getD_cols, List_getD_eq_getElem _ _ (by omega)]
        exact zv_of_le _ (by rw [hBtl _ (List.getElem_mem _)]; exact hi)
      rw [hz']
      exact Finset.sum_eq_zero fun k _ => by rw [hA.zv_zero hi, mul_zero]
  · left
    rw [if_neg hz]
    have hzero : ∀ k, n ≤ k → k < rts.length → GOK.rv p rts k = 0 := by
      intro k hk hkl
      apply ((h3.rv_red hkl).npAny_false hp.pos).mp
      by_contra hc
      apply hz
      rw [List.any_eq_true]
      refine ⟨rts[k].1, ?_, by rw [List_getD_eq_getElem _ _ hkl] at hc; simpa using hc⟩
      rw [List.mem_iff_getElem]
      refine ⟨k - n, by simp; omega, ?_⟩
      simp only [List.getElem_drop, List.getElem_map, ← hn, Nat.add_sub_cancel' hk]
    have hlow : ∀ j, n + j < rts.length → ∀ k, n ≤ k → k ≠ n + j → GOK.tv p rts (n + j) k = 0 := by
      intro j hj k hk hkj
      have hm := h3.tmem (n + j) hj
      have hle : Submodule.span (ZMod p) {x | ∃ (k : ℕ) (hk : k < rts.length), k < n + j ∧
          zv p (rts[k].1) ≠ 0 ∧ zv p (rts[k].2) = x} ≤
          LinearMap.ker (LinearMap.proj (R := ZMod p) (φ := fun _ : ℕ => ZMod p) k) := by
        rw [Submodule.span_le]
        rintro x ⟨l, hl, hlj, hne, rfl⟩
        simp only [SetLike.mem_coe, LinearMap.mem_ker, LinearMap.proj_apply]
        rcases Nat.lt_or_ge l n with h5 | h5
        · exact h3.upper l hl k (by omega)
        · exfalso
          have h6 := hzero l h5 hl
          unfold GOK.rv at h6
          rw [List_getD_eq_getElem _ _ hl] at h6
          exact hne h6
      have h4 := hle hm
      simp only [LinearMap.mem_ker, LinearMap.proj_apply, Pi.sub_apply, Pi.single_apply, hkj,
        if_false, sub_zero] at h4
      unfold GOK.tv
      rw [List_getD_eq_getElem _ _ hj]
      exact h4
    have htl : ∀ j, j < rts.length → (rts.getD j ([], [])).2.length = n + B.nrows := by
      intro j hj
      rw [List_getD_eq_getElem _ _ hj]; exact (h3.ok _ (List.getElem_mem hj)).len2
    refine ⟨_, rfl, rfl, ?_, ?_, ?_⟩
    · simp [Mat.ncols, h2, ← hn]
    · intro c hc
      simp only [List.mem_map] at hc
      obtain ⟨t, -, rfl⟩ := hc
      exact redL_negMod _ hp.pos
    · intro i hi j hj
      have hlt : n + j < rts.length := by omega
      have hXz : ∀ k < n, (⟨A.cols.length, ((rts.map Prod.snd).drop A.cols.length).map fun t =>
          negMod p (t.take A.cols.length)⟩ : Mat).z p k j = - GOK.tv p rts (n + j) k := by
        intro k hk
        have e : ((((rts.map Prod.snd).drop A.cols.length).map fun t =>
          negMod p (t.take A.cols.length)).getD j []) =
            negMod p ((rts.getD (n + j) ([], [])).2.take n) := by
          rw [List_getD_eq_getElem _ _ (by simp; omega), List_getD_eq_getElem _ _ hlt]
          simp [← hn]
        rw [← zv_getD_cols, e, zv_negMod, Pi.neg_apply, zv_take, if_pos hk]
        rfl
      have hdec := h3.rv_eq hlt
      rw [hzero _ (by omega) hlt, h3.tv_decomp hlt, map_add, map_sum, hcolB] at hdec
      have h4 := congrFun hdec i
      simp only [Pi.zero_apply, Pi.add_apply, Finset.sum_apply, map_smul, Pi.smul_apply,
        smul_eq_mul] at h4
      rw [Finset.sum_range_add, hBtz j hj i hi] at h4
      rw [show ∑ x ∈ range j, GOK.tv p rts (n + j) (n + x) *
          comb p (A.cols ++ B.transpose.cols) (Pi.single (n + x) 1) i = 0 from
        Finset.sum_eq_zero fun x hx => by
          rw [hlow j hlt (n + x) (by omega) (by have := mem_range.mp hx; omega), zero_mul],
        add_zero] at h4
      rw [eq_comm, ← eq_neg_iff_add_eq_zero] at h4
      rw [h4, ← Finset.sum_neg_distrib]
      refine Finset.sum_congr rfl fun k hk => ?_
      have hk' : k < n := mem_range.mp hk
      rw [hXz k hk', hcolA k hk', zv_getD_cols]
      ring

/-- **C11.** A matrix returned by `solve_matrix_mod_p(A, B, p)` satisfies `A X = B^T (mod p)`: the
rows of `B` are the right hand sides (the docstring says `A X = B`). -/
theorem C11_solve_matrix_mod_p_sound (hp : p.Prime) (A B X : Mat) (hA : A.WellShaped)
    (hr : A.Reduced p) (hBr : B.Reduced p) (hBc : B.ncols = A.nrows)
    (h : solveMatrixModP p A B = .ok X) :
    X.nrows = A.ncols ∧ X.ncols = B.nrows ∧ X.Reduced p ∧
      ∀ i < A.nrows, ∀ j < B.nrows, ∑ k ∈ range A.ncols, A.z p i k * X.z p k j = B.z p j i := by
  by_cases h0 : A.nrows = 0
  · unfold solveMatrixModP at h; rw [if_pos h0] at h; cases h
  · rcases solveMatrixModP_spec hp A B hA hr hBr hBc (by omega) with ⟨Y, h1, h2⟩ | ⟨h1, -⟩
    · rw [h1] at h; cases h; exact h2
    · rw [h1] at h; cases h

/-- **C11.** … and `ValueError` is raised exactly when there is no such matrix. -/
theorem C11_solve_matrix_mod_p_complete (hp : p.Prime) (A B : Mat) (hA : A.WellShaped)
    (hr : A.Reduced p) (hBr : B.Reduced p) (hBc : B.ncols = A.nrows) (h0 : 0 < A.nrows) :
    (solveMatrixModP p A B = .error .valueError ↔
      ¬ ∃ X : ℕ → ℕ → ZMod p, ∀ i < A.nrows, ∀ j < B.nrows,
        ∑ k ∈ range A.ncols, A.z p i k * X k j = B.z p j i) ∧
    ((∃ X, solveMatrixModP p A B = .ok X) ↔
      ∃ X : ℕ → ℕ → ZMod p, ∀ i < A.nrows, ∀ j < B.nrows,
        ∑ k ∈ range A.ncols, A.z p i k * X k j = B.z p j i) := by
  rcases solveMatrixModP_spec hp A B hA hr hBr hBc h0 with ⟨Y, h1, -, -, -, h2⟩ | ⟨h1, h2⟩
  · rw [h1]
    exact ⟨⟨fun h => (by cases h), fun h => absurd ⟨fun k j => Y.z p k j, h2⟩ h⟩,
      ⟨fun _ => ⟨fun k j => Y.z p k j, h2⟩, fun _ => ⟨Y, rfl⟩⟩⟩
  · rw [h1]
    refine ⟨⟨fun _ => h2, fun _ => rfl⟩, ⟨?_, fun h => absurd h h2⟩⟩
    rintro ⟨x, hx⟩; cases hx

example : solveMatrixModP 5 (Mat.ofRows 2 [[1, 2], [0, 1]]) (Mat.ofRows 2 [[0, 1], [3, 4]]) =
    .ok (Mat.ofRows 2 [[3, 0], [1, 4]]) := by decide

/-- The docstring's equation `A X = B` is not what the code solves. -/
theorem C11_solve_matrix_mod_p_is_transposed :
    ∃ A B X : Mat, solveMatrixModP 5 A B = .ok X ∧ multiplyModP 5 A X = B.transpose ∧
      multiplyModP 5 A X ≠ B :=
  ⟨Mat.ofRows 2 [[1, 0], [0, 1]], Mat.ofRows 2 [[0, 1], [2, 3]], Mat.ofRows 2 [[0, 2], [1, 3]],
    by decide, by decide, by decide⟩

end Permaviss
