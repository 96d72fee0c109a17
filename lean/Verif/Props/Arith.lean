import Verif.Lemmas.Vec
import Verif.Lemmas.Arith
import Mathlib.Data.Nat.Prime.Basic
import Mathlib.Algebra.BigOperators.Ring.Finset
import Mathlib.Data.Int.Cast.Lemmas

/-!
# C01–C04: arithmetic mod `p` and pivots
-/

namespace Permaviss

/-- **C01.** For a prime `p` and every positive `a` not divisible by `p`, `inv_mod_p(a, p)` returns
the inverse of `a` in `[0, p)`. -/
theorem C01_inv_mod_p_correct (p : ℕ) (hp : p.Prime) (a : Int) (ha : 0 < a)
    (hd : ¬ (p : Int) ∣ a) :
    ∃ m, invModP a p = .ok m ∧ 0 ≤ m ∧ m < p ∧ m * a ≡ 1 [ZMOD p] := by
  have hg : Int.gcd a p = 1 := by
    have : Nat.Coprime p a.natAbs := by
      rw [Nat.Prime.coprime_iff_not_dvd hp]
      intro h; exact hd (Int.natCast_dvd.mpr h)
    rw [Int.gcd_comm]; simpa [Int.gcd] using this
  obtain ⟨m, h1, h2, h3, h4⟩ := (invModP_pos hp.two_le ha).1 hg
  refine ⟨m, h1, h2, h3, ?_⟩
  refine Int.modEq_iff_dvd.mpr ?_
  have : (1 : Int) - m * a = -(m * a - 1) := by ring
  rw [this]; exact (dvd_neg).mpr h4

/-- The hypotheses of C01 are met, and the value is the expected one. -/
example : Nat.Prime 7 ∧ (0 : Int) < 10 ∧ ¬ ((7 : ℕ) : Int) ∣ 10 ∧ invModP 10 7 = .ok 5 := by
  refine ⟨by decide, by decide, by decide, by decide⟩

/-- **C02** (partial). For positive `a`, `inv_mod_p` raises `ValueError` exactly when `a` is not
invertible mod `p`; it never runs forever.  What is missing for the full contract is negative `a`,
where the code always raises: see `C02_inv_mod_p_negative_raises` and
`C02_inv_mod_p_contract_fails_for_negative`. -/
theorem C02_inv_mod_p_raises_iff_partial (p : ℕ) (hp : 2 ≤ p) (a : Int) (ha : 0 < a) :
    invModP a p = .error .valueError ↔ Int.gcd a p ≠ 1 := by
  constructor
  · intro h hg
    obtain ⟨m, h1, -⟩ := (invModP_pos hp ha).1 hg
    rw [h1] at h; cases h
  · exact (invModP_pos hp ha).2

example : invModP 6 9 = .error .valueError ∧ Int.gcd 6 (9 : ℕ) ≠ 1 := by decide
/-- A composite modulus is not reported when it is coprime to `a`. -/
example : invModP 2 9 = .ok 5 ∧ Int.gcd 2 (9 : ℕ) = 1 := by decide

/-- Zero is never inverted. -/
theorem C02_inv_mod_p_zero_raises (p : ℕ) : invModP 0 p = .error .valueError := by
  simp [invModP]

/-- `inv_mod_p` raises `ValueError` for *every* negative `a`, invertible or not. -/
theorem C02_inv_mod_p_negative_raises (p : ℕ) (a : Int) (ha : a < 0) :
    invModP a p = .error .valueError := invModP_neg ha

/-- The documented contract fails on the unchanged code: `-1` is invertible mod `5`. -/
theorem C02_inv_mod_p_contract_fails_for_negative :
    ¬ ∀ (p : ℕ) (a : Int), p.Prime → ¬ (p : Int) ∣ a →
      ∃ m, invModP a p = .ok m ∧ m * a ≡ 1 [ZMOD p] := by
  intro h
  obtain ⟨m, h1, -⟩ := h 5 (-1) (by decide) (by decide)
  rw [invModP_neg (by decide)] at h1
  cases h1

/-- `inv_mod_p` never runs forever, for any integers. -/
theorem C02_inv_mod_p_terminates (a : Int) (p : ℕ) : invModP a p ≠ .error .outOfFuel := by
  unfold invModP
  obtain ⟨r, hr⟩ := Option.isSome_iff_exists.mp
    (invLoop_isSome (a.natAbs + 1) a p 0 1 (by omega))
  rw [hr]
  split
  · intro h; cases h
  · simp only
    split
    · intro h; cases h
    · split <;> intro h <;> cases h

/-- **C03.** `add_mod_c(a, b, c)` is the representative of `a + b` in `[0, c)`. -/
theorem C03_add_mod_c (a b c : Int) (hc : 0 < c) :
    0 ≤ addModC a b c ∧ addModC a b c < c ∧ addModC a b c ≡ a + b [ZMOD c] := by
  unfold addModC
  rw [Int.fmod_eq_emod_of_nonneg _ hc.le]
  exact ⟨Int.emod_nonneg _ hc.ne', Int.emod_lt_of_pos _ hc, Int.mod_modEq _ _⟩

example : addModC (-7) 3 5 = 1 := by decide

/-- **C03.** `add_arrays_mod_c` adds entry by entry, with results in `[0, c)`. -/
theorem C03_add_arrays_mod_c (A B : List Int) (c : ℕ) (hc : 0 < c) (hl : A.length = B.length) :
    (addArraysModC A B c).length = A.length ∧
    ∀ i < A.length,
      0 ≤ (addArraysModC A B c).getD i 0 ∧ (addArraysModC A B c).getD i 0 < c ∧
      (addArraysModC A B c).getD i 0 ≡ A.getD i 0 + B.getD i 0 [ZMOD c] := by
  refine ⟨by simp [addArraysModC, hl], ?_⟩
  intro i hi
  have h1 := (redL_addArrays A B hc).getD hc i
  refine ⟨h1.1, h1.2, ?_⟩
  have h2 := congrFun (zv_addArrays (p := c) A B hl) i
  rw [← ZMod.intCast_eq_intCast_iff]
  simpa [zv] using h2

example : addArraysModC [1, 4, 3] [3, 2, 2] 5 = [4, 1, 0] := by decide

/-- **C03.** `multiply_mod_p(A, B, p)` is the matrix product mod `p` with entries in `[0, p)`. -/
theorem C03_multiply_mod_p (p : ℕ) (hp : 0 < p) (A B : Mat) :
    (multiplyModP p A B).nrows = A.nrows ∧ (multiplyModP p A B).ncols = B.ncols ∧
    (multiplyModP p A B).Reduced p ∧
    ∀ i < A.nrows, ∀ j < B.ncols, (multiplyModP p A B).z p i j =
      ∑ k ∈ Finset.range A.ncols, A.z p i k * B.z p k j := by
  have hp' : (0 : Int) < p := by exact_mod_cast hp
  refine ⟨rfl, by simp [multiplyModP, Mat.ncols], ?_, ?_⟩
  · intro c hc x hx
    simp only [multiplyModP, List.mem_map] at hc
    obtain ⟨b, -, rfl⟩ := hc
    simp only [List.mem_map] at hx
    obtain ⟨i, -, rfl⟩ := hx
    exact ⟨Int.emod_nonneg _ (by omega), Int.emod_lt_of_pos _ hp'⟩
  · intro i hi j hj
    have hj' : j < B.cols.length := hj
    have hget : (multiplyModP p A B).get i j =
        ((List.range A.cols.length).map fun k => A.get i k * B.get k j).sum % (p : Int) := by
      simp [multiplyModP, Mat.get, List.getD_eq_getElem?_getD, hj', hi]
    have hsum : ∀ n, (((List.range n).map fun k => A.get i k * B.get k j).sum : Int) =
        ∑ k ∈ Finset.range n, A.get i k * B.get k j := by
      intro n
      induction n with
      | zero => simp
      | succ n ih => rw [List.range_succ, List.map_append, List.sum_append, ih,
          Finset.sum_range_succ]; simp
    simp only [Mat.z, hget, hsum, ZMod.intCast_mod]
    rw [Int.cast_sum]
    exact Finset.sum_congr rfl fun k _ => by push_cast; rfl

example : multiplyModP 5 (Mat.ofRows 2 [[1, 2], [3, 4]]) (Mat.ofRows 2 [[0, 1], [4, 1]]) =
    Mat.ofRows 2 [[3, 3], [1, 2]] := by decide

/-- **C04.** `index_pivot(v)` is the largest index with a nonzero entry … -/
theorem C04_index_pivot_last_nonzero (v : List Int) (i : ℕ) :
    indexPivot v = some i ↔
      i < v.length ∧ v.getD i 0 ≠ 0 ∧ ∀ j, i < j → j < v.length → v.getD j 0 = 0 := by
  rw [indexPivot_eq_some]
  constructor
  · intro h
    exact ⟨indexPivot_lt (indexPivot_eq_some.mpr h), h.1, fun j hj _ => h.2 j hj⟩
  · intro h
    refine ⟨h.2.1, fun j hj => ?_⟩
    rcases lt_or_ge j v.length with h1 | h1
    · exact h.2.2 j hj h1
    · exact getD_eq_zero_of_le v h1

/-- **C04.** … and `-1` (here `none`) exactly for the zero vector. -/
theorem C04_index_pivot_none (v : List Int) : indexPivot v = none ↔ ∀ x ∈ v, x = 0 := by
  rw [indexPivot_eq_none]
  constructor
  · intro h x hx
    obtain ⟨i, hi, rfl⟩ := List.getElem_of_mem hx
    have := h i
    rwa [List_getD_eq_getElem _ _ hi] at this
  · intro h i
    rcases lt_or_ge i v.length with h1 | h1
    · rw [List_getD_eq_getElem _ _ h1]; exact h _ (List.getElem_mem h1)
    · exact getD_eq_zero_of_le v h1

example : indexPivot [0, 1, 0, 1, 0] = some 3 ∧ indexPivot [0, 0, 0] = none := by decide

end Permaviss
