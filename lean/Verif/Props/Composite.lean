import Verif.Lemmas.Composite
import Verif.Props.Gauss

/-!
# C94: a modulus which is not prime

`gauss_col` and `solve_mod_p` never check that `p` is prime.  What they return is correct for every
modulus, but a composite modulus is reported only if an inverse is missing on the way.
-/

namespace Permaviss

open Finset

variable {p : ℕ}

theorem GOK.piv_inj_any (hp : 0 < p) {m n : ℕ} {A : (ℕ → ZMod p) →ₗ[ZMod p] (ℕ → ZMod p)}
    {rts : List (List Int × List Int)} (h : GOK p m n A rts) {i j : ℕ} (hi : i < rts.length)
    (hj : j < rts.length) {pv : ℕ} (h1 : IsPiv (GOK.rv p rts i) pv)
    (h2 : IsPiv (GOK.rv p rts j) pv) : i = j := by
  have a := ((h.rv_red hi).indexPivot_some hp).mpr h1
  have b := ((h.rv_red hj).indexPivot_some hp).mpr h2
  rw [List_getD_eq_getElem _ _ hi] at a
  rw [List_getD_eq_getElem _ _ hj] at b
  rcases lt_trichotomy i j with h3 | h3 | h3
  · exact absurd a (h.piv i j hi hj h3 pv b)
  · exact h3
  · exact absurd b (h.piv j i hj hi h3 pv a)

/-- **C94.** For every modulus `p ≥ 2`, prime or not, `gauss_col` ends, and either raises
`ValueError` or returns `R` and `T` of the right shapes, with entries in `[0, p)`, with
`A T = R (mod p)`, with `T` upper triangular with ones on its diagonal, and with different pivots in
different nonzero columns of `R`. -/
theorem C94_gauss_col_any_modulus (hp : 2 ≤ p) (A : Mat) (hA : A.WellShaped) (hr : A.Reduced p)
    (h0 : 0 < A.nrows) :
    gaussCol p A = .error .valueError ∨ ∃ R T, gaussCol p A = .ok (R, T) ∧
    (R.nrows = A.nrows ∧ R.ncols = A.ncols ∧ R.WellShaped ∧ R.Reduced p) ∧
    (T.nrows = A.ncols ∧ T.ncols = A.ncols ∧ T.WellShaped ∧ T.Reduced p) ∧
    (∀ i < A.nrows, ∀ j < A.ncols,
      ∑ k ∈ range A.ncols, A.z p i k * T.z p k j = R.z p i j) ∧
    (∀ j < A.ncols, T.z p j j = 1) ∧
    (∀ j < A.ncols, ∀ i, j < i → T.z p i j = 0) ∧
    (∀ i < A.ncols, ∀ j < A.ncols, ∀ r,
      IsPiv (fun k => R.z p k i) r → IsPiv (fun k => R.z p k j) r → i = j) := by
  rcases gaussCol_any hp A hA hr h0.ne' with h1 | ⟨rts, h1, hl, hg⟩
  · exact Or.inl h1
  refine Or.inr ⟨_, _, h1, ?_⟩
  have getR : ∀ i j, j < A.ncols →
      (⟨A.nrows, rts.map Prod.fst⟩ : Mat).z p i j = GOK.rv p rts j i := by
    intro i j hj
    have : j < rts.length := by rw [hl]; exact hj
    simp [Mat.z, Mat.get, GOK.rv, zv, List.getD_eq_getElem?_getD, this]
  have getT : ∀ i j, j < A.ncols →
      (⟨A.cols.length, rts.map Prod.snd⟩ : Mat).z p i j = GOK.tv p rts j i := by
    intro i j hj
    have : j < rts.length := by rw [hl]; exact hj
    simp [Mat.z, Mat.get, GOK.tv, zv, List.getD_eq_getElem?_getD, this]
  refine ⟨⟨rfl, by simp [Mat.ncols, hl], ?_, ?_⟩, ⟨rfl, by simp [Mat.ncols, hl], ?_, ?_⟩, ?_, ?_, ?_, ?_⟩
  · intro c hc
    obtain ⟨rt, hrt, rfl⟩ := List.mem_map.mp hc
    exact (hg.ok rt hrt).len1
  · intro c hc
    obtain ⟨rt, hrt, rfl⟩ := List.mem_map.mp hc
    exact (hg.ok rt hrt).red1
  · intro c hc
    obtain ⟨rt, hrt, rfl⟩ := List.mem_map.mp hc
    exact (hg.ok rt hrt).len2
  · intro c hc
    obtain ⟨rt, hrt, rfl⟩ := List.mem_map.mp hc
    exact (hg.ok rt hrt).red2
  · intro i _ j hj
    rw [getR i j hj, hg.rv_eq (by rw [hl]; exact hj), comb_apply_entry]
    exact Finset.sum_congr rfl fun k _ => by rw [getT k j hj]
  · intro j hj
    rw [getT j j hj]; exact hg.tv_one (by rw [hl]; exact hj)
  · intro j hj i hi
    rw [getT i j hj]; exact hg.tv_upper (by rw [hl]; exact hj) hi
  · intro i hi j hj r h1 h2
    rw [show (fun k => (⟨A.nrows, rts.map Prod.fst⟩ : Mat).z p k i) = GOK.rv p rts i from
      funext fun k => getR k i hi] at h1
    rw [show (fun k => (⟨A.nrows, rts.map Prod.fst⟩ : Mat).z p k j) = GOK.rv p rts j from
      funext fun k => getR k j hj] at h2
    exact hg.piv_inj_any (by omega) (by rw [hl]; exact hi) (by rw [hl]; exact hj) h1 h2

/-- Both outcomes occur with the modulus `6`: columns `(1,5)`, `(2,4)` are reduced, but columns
`(1,2)`, `(1,4)` are not. -/
example : gaussCol 6 (Mat.ofRows 2 [[1, 2], [5, 4]]) =
      .ok (Mat.ofRows 2 [[1, 0], [5, 0]], Mat.ofRows 2 [[1, 4], [0, 1]]) ∧
    gaussCol 6 (Mat.ofRows 2 [[1, 1], [2, 4]]) = .error .valueError := by decide

/-- **C94.** For every modulus `p ≥ 2`, prime or not, a vector returned by `solve_mod_p(A, b, p)`
solves the system, and the only exceptions are `ValueError`, and `IndexError` for a matrix without
rows. -/
theorem C94_solve_mod_p_any_modulus (hp : 2 ≤ p) (A : Mat) (b : List Int) (hA : A.WellShaped)
    (hr : A.Reduced p) (hb : b.length = A.nrows) (hbr : RedL p b) :
    (∃ x, solveModP p A b = .ok x ∧ x.length = A.ncols ∧ (∀ y ∈ x, 0 ≤ y ∧ y < (p : Int)) ∧
      ∀ i < A.nrows, ∑ k ∈ range A.ncols, A.z p i k * zv p x k = zv p b i) ∨
    solveModP p A b = .error .valueError ∨
    (A.nrows = 0 ∧ solveModP p A b = .error .indexError) := by
  by_cases h0' : A.nrows = 0
  · exact Or.inr (Or.inr ⟨h0', by unfold solveModP; rw [if_pos h0']⟩)
  have h0 : 0 < A.nrows := by omega
  have hpos : 0 < p := by omega
  have hany := gaussCol_any hp (⟨A.nrows, A.cols ++ [b]⟩ : Mat)
    (by
      intro c hc
      rcases List.mem_append.mp hc with h | h
      · exact hA c h
      · simp at h; subst h; exact hb)
    (by
      intro c hc
      rcases List.mem_append.mp hc with h | h
      · exact hr c h
      · simp at h; subst h; exact hbr)
    h0'
  rcases hany with h1 | ⟨rts, h1, h2, h3⟩
  · right; left; unfold solveModP; rw [if_neg h0', h1]; rfl
  simp only [List.length_append, List.length_singleton] at h1 h2 h3
  set n := A.cols.length with hn
  have hlt : n < rts.length := by omega
  have hlast : (rts.map Prod.fst).getLastD [] = (rts.getD n ([], [])).1 := by
    rw [List.getLastD_eq_getLast?, List.getLast?_eq_getElem?]
    simp [List.getD_eq_getElem?_getD, h2]
  have hlast2 : (rts.map Prod.snd).getLastD [] = (rts.getD n ([], [])).2 := by
    rw [List.getLastD_eq_getLast?, List.getLast?_eq_getElem?]
    simp [List.getD_eq_getElem?_getD, h2]
  have hcolA : ∀ k < n, comb p (A.cols ++ [b]) (Pi.single k 1) = zv p (A.cols.getD k []) := by
    intro k hk
    rw [comb_single]
    congr 1
    simp [List.getD_eq_getElem?_getD, List.getElem?_append, hk, ← hn]
  have hcolb : comb p (A.cols ++ [b]) (Pi.single n 1) = zv p b := by
    rw [comb_single]
    congr 1
    simp [List.getD_eq_getElem?_getD, hn]
  have hred := h3.rv_red hlt
  unfold solveModP
  rw [if_neg h0.ne', h1]
  simp only [bind, Except.bind, hlast, hlast2]
  by_cases hz : npAny (rts.getD n ([], [])).1 = true
  · right; left
    rw [if_pos hz]
  · left
    rw [if_neg hz]
    have hlen : ((rts.getD n ([], [])).2).length = n + 1 := by
      rw [List_getD_eq_getElem _ _ hlt]; exact (h3.ok _ (List.getElem_mem hlt)).len2
    refine ⟨_, rfl, ?_, redL_negMod _ hpos, ?_⟩
    · simp only [negMod, List.length_map, List.length_dropLast, hlen, Mat.ncols, ← hn]; rfl
    · have hzero : GOK.rv p rts n = 0 := (hred.npAny_false hpos).mp (by simpa using hz)
      have hdec := h3.rv_eq hlt
      rw [hzero, h3.tv_decomp hlt, map_add, map_sum, hcolb] at hdec
      intro i _
      have := congrFun hdec i
      simp only [Pi.zero_apply, Pi.add_apply, Finset.sum_apply, map_smul, Pi.smul_apply,
        smul_eq_mul] at this
      rw [Finset.sum_congr rfl fun k hk => by rw [hcolA k (mem_range.mp hk), zv_getD_cols]] at this
      rw [eq_comm, ← eq_neg_iff_add_eq_zero] at this
      rw [this, ← Finset.sum_neg_distrib]
      refine Finset.sum_congr rfl fun k hk => ?_
      rw [zv_negMod, Pi.neg_apply, zv_dropLast, hlen, if_pos (by have := mem_range.mp hk; simpa using this)]
      change A.z p i k * -(GOK.tv p rts n k) = _
      ring

example : solveModP 6 (Mat.ofRows 2 [[1, 2], [5, 4]]) [3, 3] = .ok [3, 0] ∧
    solveModP 6 (Mat.ofRows 2 [[2], [1]]) [4, 1] = .error .valueError := by decide

/-- **C94, what is not reported.** For *every* composite modulus there is a linear system with a
solution for which `solve_mod_p` raises the error which means that there is none, and a matrix whose
second column is a multiple of the first for which `gauss_col` returns no zero column. -/
theorem C94_composite_misses_dependence (hp : 2 ≤ p) (hc : ¬ p.Prime) :
    ∃ (A : Mat) (b : List Int), A.WellShaped ∧ A.Reduced p ∧ A.nrows = 2 ∧ A.ncols = 1 ∧
      b.length = 2 ∧ RedL p b ∧
      (∃ x : ZMod p, ∀ i < 2, A.z p i 0 * x = zv p b i) ∧
      solveModP p A b = .error .valueError ∧
      ∃ T, gaussCol p ⟨2, A.cols ++ [b]⟩ = .ok (⟨2, A.cols ++ [b]⟩, T) ∧
        (∃ i < 2, A.z p i 0 ≠ 0) ∧ (∃ i < 2, zv p b i ≠ 0) := by
  obtain ⟨a, b, ha, hb, rfl⟩ : ∃ a b, 2 ≤ a ∧ 2 ≤ b ∧ p = a * b := by
    obtain ⟨a, h1, h2, h3⟩ := Nat.exists_dvd_of_not_prime2 hp hc
    obtain ⟨b, rfl⟩ := h1
    refine ⟨a, b, h2, ?_, rfl⟩
    rcases b with _ | _ | b
    · simp at h3
    · simp at h3
    · omega
  have hab : a < a * b := by nlinarith
  have hba : b < a * b := by nlinarith
  have habz : (a : Int) < ((a * b : ℕ) : Int) := by exact_mod_cast hab
  have hbaz : (b : Int) < ((a * b : ℕ) : Int) := by exact_mod_cast hba
  have ha0 : (a : Int) ≠ 0 := by omega
  have hb0 : (b : Int) ≠ 0 := by omega
  have hg : gaussCol (a * b) ⟨2, [[1, (a : Int)], [(b : Int), 0]]⟩ =
      .ok (⟨2, [[1, (a : Int)], [(b : Int), 0]]⟩, ⟨2, [[1, 0], [0, 1]]⟩) := by
    have h1 : indexPivot [1, (a : Int)] = some 1 := by
      rw [indexPivot_eq_some]
      refine ⟨by simpa using ha0, fun j hj => ?_⟩
      exact getD_eq_zero_of_le _ (by simp; omega)
    have h2 : indexPivot [(b : Int), 0] = some 0 := by
      rw [indexPivot_eq_some]
      refine ⟨by simpa using hb0, fun j hj => ?_⟩
      rcases j with _ | _ | j
      · omega
      · rfl
      · exact getD_eq_zero_of_le _ (by simp)
    simp [gaussCol, gaussLoop, reduceCol, identityCols, List.range, List.range.loop, h1, h2, bind,
      Except.bind, pure, Except.pure]
  refine ⟨⟨2, [[1, (a : Int)]]⟩, [(b : Int), 0], ?_, ?_, rfl, rfl, rfl, ?_, ⟨(b : ZMod (a * b)), ?_⟩,
    ?_, _, hg, ⟨0, by omega, ?_⟩, ⟨0, by omega, ?_⟩⟩
  · intro c hc; simp at hc; subst hc; rfl
  · intro c hc x hx
    simp at hc; subst hc
    simp at hx
    rcases hx with rfl | rfl <;> omega
  · intro x hx
    simp at hx
    rcases hx with rfl | rfl <;> omega
  · intro i hi
    interval_cases i
    · simp [Mat.z, Mat.get, zv]
    · simp only [Mat.z, Mat.get, zv]
      simp
      exact_mod_cast ZMod.natCast_self (a * b)
  · unfold solveModP
    simp only [List.singleton_append, hg]
    simp [bind, Except.bind, npAny]
    omega
  · haveI : Fact (1 < a * b) := ⟨by omega⟩
    simp [Mat.z, Mat.get]
  · simp only [zv]
    simp
    rw [ZMod.natCast_eq_zero_iff]
    exact fun h => absurd (Nat.le_of_dvd (by omega) h) (by omega)

end Permaviss
