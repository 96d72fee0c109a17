import Verif.Lemmas.Gauss
import Mathlib.LinearAlgebra.Matrix.Rank
import Mathlib.LinearAlgebra.Matrix.Block
import Mathlib.LinearAlgebra.FiniteDimensional.Basic
import Mathlib.LinearAlgebra.Dimension.Constructions

/-! Consequences of the elimination invariant: spans, ranks, solvability. -/

namespace Permaviss

open Finset

variable {p : ℕ}

theorem zv_getD_cols (A : Mat) (i j : ℕ) : zv p (A.cols.getD j []) i = A.z p i j := rfl

theorem comb_apply_entry (A : Mat) (c : ℕ → ZMod p) (i : ℕ) :
    comb p A.cols c i = ∑ k ∈ range A.ncols, A.z p i k * c k := by
  rw [comb_apply, Finset.sum_apply]
  apply Finset.sum_congr rfl
  intro k _
  simp only [Pi.smul_apply, smul_eq_mul, zv_getD_cols]
  ring

/-- The columns of `A` are zero below its last row. -/
theorem Mat.WellShaped.zv_zero {A : Mat} (h : A.WellShaped) {i : ℕ} (hi : A.nrows ≤ i) (j : ℕ) :
    A.z p i j = 0 := by
  simp only [Mat.z, Mat.get]
  rcases lt_or_ge j A.cols.length with hj | hj
  · rw [List_getD_eq_getElem _ _ hj, getD_eq_zero_of_le]
    · simp
    · rw [h _ (List.getElem_mem hj)]; exact hi
  · simp [List.getD_eq_getElem?_getD, hj]

/-- The span of the columns before `j`. -/
def prefSpan (p : ℕ) (v : ℕ → ℕ → ZMod p) (j : ℕ) : Submodule (ZMod p) (ℕ → ZMod p) :=
  Submodule.span (ZMod p) {x | ∃ k < j, v k = x}

theorem prefSpan_mono (v : ℕ → ℕ → ZMod p) {i j : ℕ} (h : i ≤ j) :
    prefSpan p v i ≤ prefSpan p v j := by
  apply Submodule.span_mono
  rintro x ⟨k, hk, rfl⟩
  exact ⟨k, by omega, rfl⟩

theorem mem_prefSpan (v : ℕ → ℕ → ZMod p) {k j : ℕ} (h : k < j) : v k ∈ prefSpan p v j :=
  Submodule.subset_span ⟨k, h, rfl⟩

theorem mem_prefSpan_iff (v : ℕ → ℕ → ZMod p) (j : ℕ) (x : ℕ → ZMod p) :
    x ∈ prefSpan p v j ↔ ∃ c : ℕ → ZMod p, ∑ k ∈ range j, c k • v k = x := by
  constructor
  · intro hx
    induction hx using Submodule.span_induction with
    | mem x hx =>
      obtain ⟨k, hk, rfl⟩ := hx
      refine ⟨Pi.single k 1, ?_⟩
      rw [Finset.sum_eq_single k]
      · simp
      · intro b _ hb; simp [Pi.single_apply, hb]
      · intro h; exact absurd (mem_range.mpr hk) h
    | zero => exact ⟨0, by simp⟩
    | add x y _ _ hx hy =>
      obtain ⟨c, rfl⟩ := hx
      obtain ⟨d, rfl⟩ := hy
      exact ⟨c + d, by simp [add_smul, Finset.sum_add_distrib]⟩
    | smul a x _ hx =>
      obtain ⟨c, rfl⟩ := hx
      exact ⟨a • c, by simp [Finset.smul_sum, mul_smul]⟩
  · rintro ⟨c, rfl⟩
    exact Submodule.sum_mem _ fun k hk =>
      Submodule.smul_mem _ _ (mem_prefSpan v (mem_range.mp hk))

namespace GOK

variable {m n : ℕ} {A : (ℕ → ZMod p) →ₗ[ZMod p] (ℕ → ZMod p)} {rts : List (List Int × List Int)}

/-- Column `j` of the reduced matrix as a vector. -/
def rv (p : ℕ) (rts : List (List Int × List Int)) (j : ℕ) : ℕ → ZMod p :=
  zv p ((rts.getD j ([], [])).1)

def tv (p : ℕ) (rts : List (List Int × List Int)) (j : ℕ) : ℕ → ZMod p :=
  zv p ((rts.getD j ([], [])).2)

theorem rv_eq (h : GOK p m n A rts) {j : ℕ} (hj : j < rts.length) : rv p rts j = A (tv p rts j) := by
  simp only [rv, tv, List_getD_eq_getElem _ _ hj]
  exact h.graph _ (List.getElem_mem hj)

theorem tv_one (h : GOK p m n A rts) {j : ℕ} (hj : j < rts.length) : tv p rts j j = 1 := by
  simp only [tv, List_getD_eq_getElem _ _ hj]; exact h.one j hj

theorem tv_upper (h : GOK p m n A rts) {j : ℕ} (hj : j < rts.length) {i : ℕ} (hi : j < i) :
    tv p rts j i = 0 := by
  simp only [tv, List_getD_eq_getElem _ _ hj]; exact h.upper j hj i hi

theorem tv_piv (hp : p.Prime) (h : GOK p m n A rts) {j : ℕ} (hj : j < rts.length) :
    IsPiv (tv p rts j) j := by
  have := Fact.mk hp
  refine ⟨?_, fun i hi => h.tv_upper hj hi⟩
  rw [h.tv_one hj]; exact one_ne_zero

/-- `t_j - e_j` only involves smaller indices. -/
theorem tv_decomp (h : GOK p m n A rts) {j : ℕ} (hj : j < rts.length) :
    tv p rts j = Pi.single j 1 + ∑ k ∈ range j, tv p rts j k • Pi.single k (1 : ZMod p) := by
  funext i
  simp only [Pi.add_apply, Finset.sum_apply, Pi.smul_apply, Pi.single_apply, smul_eq_mul, mul_ite,
    mul_one, mul_zero, Finset.sum_ite_eq, mem_range]
  rcases lt_trichotomy i j with h1 | h1 | h1
  · simp [h1, h1.ne]
  · subst h1; simp [h.tv_one hj]
  · simp [h.tv_upper hj h1, h1.ne', not_lt.mpr h1.le]

theorem rv_sub_mem (h : GOK p m n A rts) {j : ℕ} (hj : j < rts.length) :
    rv p rts j - A (Pi.single j 1) ∈ prefSpan p (fun k => A (Pi.single k 1)) j := by
  rw [h.rv_eq hj, h.tv_decomp hj, map_add, map_sum, add_sub_cancel_left]
  apply Submodule.sum_mem
  intro k hk
  rw [map_smul]
  exact Submodule.smul_mem _ _ (mem_prefSpan _ (mem_range.mp hk))

theorem prefSpan_eq (h : GOK p m n A rts) : ∀ j ≤ rts.length,
    prefSpan p (rv p rts) j = prefSpan p (fun k => A (Pi.single k 1)) j := by
  intro j
  induction j with
  | zero => intro _; simp [prefSpan]
  | succ j ih =>
    intro hj
    have ih' := ih (by omega)
    have hsub := h.rv_sub_mem (j := j) (by omega)
    apply le_antisymm
    · rw [prefSpan, Submodule.span_le]
      rintro x ⟨k, hk, rfl⟩
      rcases Nat.lt_succ_iff_lt_or_eq.mp hk with h1 | h1
      · apply prefSpan_mono _ (Nat.le_succ j)
        rw [← ih']; exact mem_prefSpan _ h1
      · subst h1
        have := Submodule.add_mem _ (prefSpan_mono _ (Nat.le_succ k) hsub)
          (mem_prefSpan (fun k => A (Pi.single k 1)) (Nat.lt_succ_self k))
        simpa using this
    · rw [prefSpan, Submodule.span_le]
      rintro x ⟨k, hk, rfl⟩
      rcases Nat.lt_succ_iff_lt_or_eq.mp hk with h1 | h1
      · apply prefSpan_mono _ (Nat.le_succ j)
        rw [ih']; exact mem_prefSpan (fun k => A (Pi.single k 1)) h1
      · subst h1
        rw [← ih'] at hsub
        have := Submodule.sub_mem _ (mem_prefSpan (rv p rts) (Nat.lt_succ_self k))
          (prefSpan_mono _ (Nat.le_succ k) hsub)
        simpa using this

theorem rv_red (h : GOK p m n A rts) {j : ℕ} (hj : j < rts.length) :
    RedL p (rts.getD j ([], [])).1 := by
  rw [List_getD_eq_getElem _ _ hj]; exact (h.ok _ (List.getElem_mem hj)).red1

/-- Distinct nonzero columns never share a pivot. -/
theorem piv_inj (hp : p.Prime) (h : GOK p m n A rts) {i j : ℕ} (hi : i < rts.length)
    (hj : j < rts.length) {pv : ℕ} (h1 : IsPiv (rv p rts i) pv) (h2 : IsPiv (rv p rts j) pv) :
    i = j := by
  have a := ((h.rv_red hi).indexPivot_some hp.pos).mpr h1
  have b := ((h.rv_red hj).indexPivot_some hp.pos).mpr h2
  rw [List_getD_eq_getElem _ _ hi] at a
  rw [List_getD_eq_getElem _ _ hj] at b
  rcases lt_trichotomy i j with h3 | h3 | h3
  · exact absurd a (h.piv i j hi hj h3 pv b)
  · exact h3
  · exact absurd b (h.piv j i hj hi h3 pv a)

theorem exists_piv (hp : p.Prime) (h : GOK p m n A rts) {j : ℕ} (hj : j < rts.length)
    (hne : rv p rts j ≠ 0) : ∃ pv, IsPiv (rv p rts j) pv := by
  cases hx : indexPivot (rts.getD j ([], [])).1 with
  | none => exact absurd (((h.rv_red hj).indexPivot_none hp.pos).mp hx) hne
  | some pv => exact ⟨pv, ((h.rv_red hj).indexPivot_some hp.pos).mp hx⟩

/-- The pivot of column `j` (0 if the column is zero). -/
noncomputable def pivOf (_p : ℕ) (rts : List (List Int × List Int)) (j : ℕ) : ℕ :=
  (indexPivot (rts.getD j ([], [])).1).getD 0

theorem isPiv_pivOf (hp : p.Prime) (h : GOK p m n A rts) {j : ℕ} (hj : j < rts.length)
    (hne : rv p rts j ≠ 0) : IsPiv (rv p rts j) (pivOf p rts j) := by
  obtain ⟨pv, hpv⟩ := h.exists_piv hp hj hne
  have := ((h.rv_red hj).indexPivot_some hp.pos).mpr hpv
  unfold pivOf; rw [this]; exact hpv

/-- A vector in the span of reduced columns from a set `S` of indices is zero or has the pivot of
one of them. -/
theorem span_pivot (hp : p.Prime) (h : GOK p m n A rts) (S : Finset ℕ)
    (hS : ∀ k ∈ S, k < rts.length) (c : ℕ → ZMod p) :
    (∑ k ∈ S, c k • rv p rts k = 0) ∨
      ∃ k ∈ S, ∃ pv, IsPiv (rv p rts k) pv ∧ IsPiv (∑ k ∈ S, c k • rv p rts k) pv := by
  classical
  have := Fact.mk hp
  have hfil : ∑ k ∈ S, c k • rv p rts k =
      ∑ k ∈ S.filter (fun k => rv p rts k ≠ 0), c k • rv p rts k := by
    rw [Finset.sum_filter]
    apply Finset.sum_congr rfl
    intro k _
    by_cases h0 : rv p rts k = 0
    · simp [h0]
    · simp [h0]
  by_cases hc : ∃ k ∈ S.filter (fun k => rv p rts k ≠ 0), c k ≠ 0
  · right
    have hpiv : ∀ i ∈ S.filter (fun k => rv p rts k ≠ 0), IsPiv (rv p rts i) (pivOf p rts i) := by
      intro i hi
      rw [Finset.mem_filter] at hi
      exact h.isPiv_pivOf hp (hS i hi.1) hi.2
    obtain ⟨i, hi, -, h2⟩ := exists_pivot_sum (S.filter (fun k => rv p rts k ≠ 0)) (rv p rts)
      (pivOf p rts) hpiv (by
        intro i hi j hj hij
        have h1 := hpiv i hi
        have h2 := hpiv j hj
        simp only [Finset.coe_filter, Set.mem_ofPred_eq] at hi hj
        have hij' : pivOf p rts i = pivOf p rts j := hij
        rw [hij'] at h1
        exact h.piv_inj hp (hS i hi.1) (hS j hj.1) h1 h2) c hc
    refine ⟨i, (Finset.mem_filter.mp hi).1, _, hpiv i hi, ?_⟩
    rw [hfil]; exact h2
  · left
    push Not at hc
    rw [hfil]
    apply Finset.sum_eq_zero
    intro k hk
    rw [hc k hk, zero_smul]

/-- Column `j` reduces to zero iff it depends on the columns before it. -/
theorem rv_eq_zero_iff (hp : p.Prime) (h : GOK p m n A rts) {j : ℕ} (hj : j < rts.length) :
    rv p rts j = 0 ↔ A (Pi.single j 1) ∈ prefSpan p (fun k => A (Pi.single k 1)) j := by
  have hsub := h.rv_sub_mem hj
  constructor
  · intro h0
    rw [h0, zero_sub] at hsub
    simpa using Submodule.neg_mem _ hsub
  · intro h0
    have hmem : rv p rts j ∈ prefSpan p (rv p rts) j := by
      rw [h.prefSpan_eq j (by omega)]
      have := Submodule.add_mem _ hsub h0
      simpa using this
    obtain ⟨c, hc⟩ := (mem_prefSpan_iff _ _ _).mp hmem
    rcases h.span_pivot hp (range j) (fun k hk => by have := mem_range.mp hk; omega) c with h1 | h1
    · rw [← hc, h1]
    · obtain ⟨k, hk, pv, hk1, hk2⟩ := h1
      rw [hc] at hk2
      have := h.piv_inj hp (by have := mem_range.mp hk; omega) hj hk1 hk2
      have := mem_range.mp hk
      omega

end GOK

end Permaviss
