import Verif.Spec.Vec
import Verif.Model.Gauss
import Verif.Lemmas.Arith
import Mathlib.LinearAlgebra.Span.Basic
import Mathlib.Algebra.BigOperators.Pi

/-! Pivots of lists and of functions, triangular families. -/

namespace Permaviss

open Finset

section getD
variable {p : ℕ}

theorem List_getD_eq_getElem {β : Type*} (v : List β) (d : β) {i : ℕ} (h : i < v.length) :
    v.getD i d = v[i] := by
  simp [List.getD_eq_getElem?_getD, h]

theorem getD_eq_zero_of_le (v : List Int) {i : ℕ} (h : v.length ≤ i) : v.getD i 0 = 0 := by
  rw [List.getD_eq_getElem?_getD, List.getElem?_eq_none h]; rfl

@[simp] theorem zv_nil : zv p [] = 0 := by funext i; simp [zv]

theorem zv_of_le (v : List Int) {i : ℕ} (h : v.length ≤ i) : zv p v i = 0 := by
  simp only [zv]; rw [getD_eq_zero_of_le v h]; simp

theorem zv_scale (q : Int) (v : List Int) : zv p (scale q v) = (q : ZMod p) • zv p v := by
  funext i
  simp only [zv, scale, Pi.smul_apply, smul_eq_mul]
  rcases lt_or_ge i v.length with h | h
  · simp [List.getD_eq_getElem?_getD, h]
  · rw [getD_eq_zero_of_le _ (by simpa using h), getD_eq_zero_of_le _ h]; simp

theorem length_scale (q : Int) (v : List Int) : (scale q v).length = v.length := by simp [scale]

theorem zv_addArrays (A B : List Int) (h : A.length = B.length) :
    zv p (addArraysModC A B p) = zv p A + zv p B := by
  funext i
  simp only [zv, addArraysModC, Pi.add_apply]
  rcases lt_or_ge i A.length with h1 | h1
  · have h2 : i < B.length := h ▸ h1
    simp [List.getD_eq_getElem?_getD, List.getElem?_zipWith, h1, h2]
  · have h2 : B.length ≤ i := h ▸ h1
    rw [getD_eq_zero_of_le _ h1, getD_eq_zero_of_le _ h2, getD_eq_zero_of_le]
    · simp
    · simp [h1]

theorem zv_negMod (v : List Int) : zv p (negMod p v) = - zv p v := by
  funext i
  simp only [zv, negMod, Pi.neg_apply]
  rcases lt_or_ge i v.length with h | h
  · simp [List.getD_eq_getElem?_getD, h]
  · rw [getD_eq_zero_of_le _ (by simpa using h), getD_eq_zero_of_le _ h]; simp

theorem zv_dropLast (v : List Int) (i : ℕ) :
    zv p v.dropLast i = if i < v.length - 1 then zv p v i else 0 := by
  simp only [zv, List.getD_eq_getElem?_getD, List.getElem?_dropLast]
  split <;> simp

theorem zv_take (v : List Int) (n i : ℕ) :
    zv p (v.take n) i = if i < n then zv p v i else 0 := by
  simp only [zv, List.getD_eq_getElem?_getD, List.getElem?_take]
  split <;> simp

/-- Entries are in `[0, p)`. -/
def RedL (p : ℕ) (v : List Int) : Prop := ∀ x ∈ v, 0 ≤ x ∧ x < (p : Int)

theorem RedL.getD {v : List Int} (h : RedL p v) (hp : 0 < p) (i : ℕ) :
    0 ≤ v.getD i 0 ∧ v.getD i 0 < (p : Int) := by
  rcases lt_or_ge i v.length with h1 | h1
  · rw [List_getD_eq_getElem _ _ h1]; exact h _ (List.getElem_mem h1)
  · rw [getD_eq_zero_of_le _ h1]; omega

theorem RedL.zv_eq_zero {v : List Int} (h : RedL p v) (hp : 0 < p) (i : ℕ) :
    zv p v i = 0 ↔ v.getD i 0 = 0 := by
  have h1 := h.getD hp i
  simp only [zv]
  rw [ZMod.intCast_zmod_eq_zero_iff_dvd]
  constructor
  · intro hd
    by_contra hne
    have := Int.le_of_dvd (by omega) hd
    omega
  · intro h0; rw [h0]; exact dvd_zero _

theorem redL_addArrays (A B : List Int) (hp : 0 < p) : RedL p (addArraysModC A B p) := by
  intro x hx
  simp only [addArraysModC] at hx
  obtain ⟨i, hi, rfl⟩ := List.getElem_of_mem hx
  have hp' : (0 : Int) < p := by exact_mod_cast hp
  simp only [List.getElem_zipWith]
  exact ⟨Int.emod_nonneg _ (by omega), Int.emod_lt_of_pos _ hp'⟩

theorem redL_negMod (v : List Int) (hp : 0 < p) : RedL p (negMod p v) := by
  intro x hx
  simp only [negMod, List.mem_map] at hx
  obtain ⟨y, -, rfl⟩ := hx
  have hp' : (0 : Int) < p := by exact_mod_cast hp
  exact ⟨Int.emod_nonneg _ (by omega), Int.emod_lt_of_pos _ hp'⟩

/-- Two reduced lists of the same length that agree mod `p` are equal. -/
theorem RedL.ext {v w : List Int} (hp : 0 < p) (hv : RedL p v) (hw : RedL p w)
    (hl : v.length = w.length) (h : zv p v = zv p w) : v = w := by
  apply List.ext_getElem hl
  intro i h1 h2
  have h3 := congrFun h i
  simp only [zv, List_getD_eq_getElem _ _ h1, List_getD_eq_getElem _ _ h2] at h3
  have h4 := hv _ (List.getElem_mem h1)
  have h5 := hw _ (List.getElem_mem h2)
  rw [ZMod.intCast_eq_intCast_iff] at h3
  have := h3
  rw [Int.ModEq, Int.emod_eq_of_lt h4.1 h4.2, Int.emod_eq_of_lt h5.1 h5.2] at this
  exact this

end getD

/-! ### Pivots of lists -/

theorem mem_npNonzero {v : List Int} {i : ℕ} : i ∈ npNonzero v ↔ v.getD i 0 ≠ 0 := by
  simp only [npNonzero, List.mem_filter, List.mem_range, decide_eq_true_eq]
  constructor
  · exact fun h => h.2
  · intro h
    refine ⟨?_, h⟩
    by_contra hc
    exact h (getD_eq_zero_of_le v (by omega))

theorem indexPivot_eq_none {v : List Int} : indexPivot v = none ↔ ∀ i, v.getD i 0 = 0 := by
  rw [indexPivot, List.getLast?_eq_none_iff, List.eq_nil_iff_forall_not_mem]
  constructor
  · intro h i; by_contra hc; exact h i (mem_npNonzero.mpr hc)
  · intro h i hi; exact mem_npNonzero.mp hi (h i)

theorem npNonzero_sorted (v : List Int) : (npNonzero v).Pairwise (· < ·) :=
  List.Pairwise.filter _ List.pairwise_lt_range

theorem indexPivot_eq_some {v : List Int} {i : ℕ} :
    indexPivot v = some i ↔ v.getD i 0 ≠ 0 ∧ ∀ j, i < j → v.getD j 0 = 0 := by
  constructor
  · intro h
    rw [indexPivot, List.getLast?_eq_some_iff] at h
    obtain ⟨ys, hys⟩ := h
    have hs := npNonzero_sorted v
    refine ⟨mem_npNonzero.mp (by rw [hys]; simp), ?_⟩
    intro j hj
    by_contra hc
    have hm := mem_npNonzero.mpr hc
    rw [hys] at hs hm
    rw [List.pairwise_append] at hs
    rcases List.mem_append.mp hm with h1 | h1
    · have := hs.2.2 j h1 i (by simp); omega
    · simp at h1; omega
  · rintro ⟨h1, h2⟩
    cases h : indexPivot v with
    | none => exact absurd (indexPivot_eq_none.mp h i) h1
    | some k =>
      have hk : v.getD k 0 ≠ 0 ∧ ∀ j, k < j → v.getD j 0 = 0 := by
        rw [indexPivot, List.getLast?_eq_some_iff] at h
        obtain ⟨ys, hys⟩ := h
        have hs := npNonzero_sorted v
        refine ⟨mem_npNonzero.mp (by rw [hys]; simp), ?_⟩
        intro j hj
        by_contra hc
        have hm := mem_npNonzero.mpr hc
        rw [hys] at hs hm
        rw [List.pairwise_append] at hs
        rcases List.mem_append.mp hm with h1 | h1
        · have := hs.2.2 j h1 k (by simp); omega
        · simp at h1; omega
      rcases lt_trichotomy i k with h3 | h3 | h3
      · exact absurd (h2 k h3) hk.1
      · rw [h3]
      · exact absurd (hk.2 i h3) h1

theorem indexPivot_lt {v : List Int} {i : ℕ} (h : indexPivot v = some i) : i < v.length := by
  by_contra hc
  exact (indexPivot_eq_some.mp h).1 (getD_eq_zero_of_le v (by omega))

theorem npAny_eq_false {v : List Int} : npAny v = false ↔ ∀ i, v.getD i 0 = 0 := by
  simp only [npAny, List.any_eq_false, decide_eq_true_eq, not_not]
  constructor
  · intro h i
    rcases lt_or_ge i v.length with h1 | h1
    · rw [List_getD_eq_getElem _ _ h1]; simpa using h _ (List.getElem_mem h1)
    · exact getD_eq_zero_of_le v h1
  · intro h x hx
    obtain ⟨i, hi, rfl⟩ := List.getElem_of_mem hx
    have := h i
    rw [List_getD_eq_getElem _ _ hi] at this
    simpa using this

theorem npAny_eq_false' {v : List Int} : npAny v = false ↔ indexPivot v = none := by
  rw [npAny_eq_false, indexPivot_eq_none]

section red
variable {p : ℕ} {v : List Int}

theorem RedL.indexPivot_some (h : RedL p v) (hp : 0 < p) {i : ℕ} :
    indexPivot v = some i ↔ IsPiv (zv p v) i := by
  rw [indexPivot_eq_some, IsPiv]
  simp only [ne_eq, h.zv_eq_zero hp]

theorem RedL.indexPivot_none (h : RedL p v) (hp : 0 < p) :
    indexPivot v = none ↔ zv p v = 0 := by
  rw [indexPivot_eq_none]
  constructor
  · intro h1; funext i; exact (h.zv_eq_zero hp i).mpr (h1 i)
  · intro h1 i; exact (h.zv_eq_zero hp i).mp (congrFun h1 i)

theorem RedL.npAny_false (h : RedL p v) (hp : 0 < p) : npAny v = false ↔ zv p v = 0 := by
  rw [npAny_eq_false', h.indexPivot_none hp]

end red

/-! ### Pivots of functions -/

theorem IsPiv.ne_zero {K : Type*} [Zero K] {f : ℕ → K} {i : ℕ} (h : IsPiv f i) : f ≠ 0 := by
  intro h0; exact h.1 (by rw [h0]; rfl)

theorem IsPiv.unique {K : Type*} [Zero K] {f : ℕ → K} {i j : ℕ} (hi : IsPiv f i) (hj : IsPiv f j) : i = j := by
  rcases lt_trichotomy i j with h | h | h
  · exact absurd (hi.2 j h) hj.1
  · exact h
  · exact absurd (hj.2 i h) hi.1

section piv
variable {K : Type*} [Field K] {ι : Type*}

/-- A nonzero combination of vectors with different pivots has a pivot, which is one of theirs. -/
theorem exists_pivot_sum (s : Finset ι) (g : ι → ℕ → K) (piv : ι → ℕ)
    (hp : ∀ i ∈ s, IsPiv (g i) (piv i)) (hinj : Set.InjOn piv s) (c : ι → K)
    (hc : ∃ i ∈ s, c i ≠ 0) :
    ∃ i ∈ s, c i ≠ 0 ∧ IsPiv (∑ k ∈ s, c k • g k) (piv i) := by
  classical
  let s' := s.filter fun i => c i ≠ 0
  have hne : s'.Nonempty := by
    obtain ⟨i, hi, hci⟩ := hc
    exact ⟨i, by simp [s', hi, hci]⟩
  obtain ⟨i, hi, hmax⟩ := Finset.exists_max_image s' piv hne
  have hi' : i ∈ s ∧ c i ≠ 0 := by simpa [s'] using hi
  refine ⟨i, hi'.1, hi'.2, ?_, ?_⟩
  · rw [Finset.sum_apply, Finset.sum_eq_single i]
    · simp only [Pi.smul_apply, smul_eq_mul]
      exact mul_ne_zero hi'.2 (hp i hi'.1).1
    · intro k hk hki
      simp only [Pi.smul_apply, smul_eq_mul]
      by_cases hck : c k = 0
      · rw [hck, zero_mul]
      · have h1 := hmax k (by simp [s', hk, hck])
        have h2 : piv k ≠ piv i := fun h => hki (hinj hk hi'.1 h)
        rw [(hp k hk).2 _ (by omega), mul_zero]
    · intro h; exact absurd hi'.1 h
  · intro j hj
    rw [Finset.sum_apply]
    apply Finset.sum_eq_zero
    intro k hk
    simp only [Pi.smul_apply, smul_eq_mul]
    by_cases hck : c k = 0
    · rw [hck, zero_mul]
    · have h1 := hmax k (by simp [s', hk, hck])
      rw [(hp k hk).2 _ (by omega), mul_zero]

/-- Vectors with different pivots are independent. -/
theorem pivot_indep (s : Finset ι) (g : ι → ℕ → K) (piv : ι → ℕ)
    (hp : ∀ i ∈ s, IsPiv (g i) (piv i)) (hinj : Set.InjOn piv s) (c : ι → K)
    (h0 : ∑ k ∈ s, c k • g k = 0) : ∀ i ∈ s, c i = 0 := by
  by_contra hc
  push Not at hc
  obtain ⟨i, -, -, h⟩ := exists_pivot_sum s g piv hp hinj c hc
  exact h.ne_zero h0

end piv

end Permaviss
