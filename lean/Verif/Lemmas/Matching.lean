import Verif.Lemmas.Vec
import Mathlib.LinearAlgebra.Pi
import Mathlib.Tactic.Abel
import Mathlib.LinearAlgebra.Span.Basic

/-!
# The algebra behind persistent homology

A family of triangular bases `b e j` of the chain groups in which the boundary matches some basis
elements with others: `b e j = ∂ (b (e + 1) (κ e j))` for `j ∈ P e`, and all other boundaries vanish.
-/

namespace Permaviss

open Finset

variable {K : Type*} [Field K]

/-- Triangular families span initial segments. -/
theorem triangular_span {n : ℕ} {b : ℕ → ℕ → K} (h : ∀ j < n, IsPiv (b j) j) :
    ∀ N ≤ n, ∀ c : ℕ → K, (∀ i, N ≤ i → c i = 0) →
      ∃ a : ℕ → K, (∀ j, N ≤ j → a j = 0) ∧ c = ∑ j ∈ range n, a j • b j := by
  intro N
  induction N with
  | zero =>
    intro _ c hc
    refine ⟨0, fun _ _ => rfl, ?_⟩
    funext i; simp [hc i (Nat.zero_le i)]
  | succ N ih =>
    intro hN c hc
    have hb := h N (by omega)
    obtain ⟨a, ha, e⟩ := ih (by omega) (c - (c N / b N N) • b N) (by
      intro i hi
      simp only [Pi.sub_apply, Pi.smul_apply, smul_eq_mul]
      rcases Nat.eq_or_lt_of_le hi with rfl | hi
      · rw [div_mul_cancel₀ _ hb.1, sub_self]
      · rw [hc i hi, hb.2 i hi]; simp)
    refine ⟨Function.update a N (c N / b N N), ?_, ?_⟩
    · intro j hj
      rw [Function.update_of_ne (by omega)]
      exact ha j (by omega)
    · have : ∑ j ∈ range n, Function.update a N (c N / b N N) j • b j =
          ∑ j ∈ range n, a j • b j + (c N / b N N) • b N := by
        rw [← Finset.add_sum_erase _ _ (mem_range.2 (show N < n by omega)),
          ← Finset.add_sum_erase (range n) (fun j => a j • b j) (mem_range.2 (show N < n by omega)),
          Function.update_self, ha N le_rfl, zero_smul, zero_add, add_comm]
        congr 1
        refine Finset.sum_congr rfl fun j hj => ?_
        rw [Function.update_of_ne (Finset.ne_of_mem_erase hj)]
      rw [this, ← e]
      abel

/-- Triangular families are independent. -/
theorem triangular_indep {n : ℕ} {b : ℕ → ℕ → K} (h : ∀ j < n, IsPiv (b j) j) (a : ℕ → K)
    (h0 : ∑ j ∈ range n, a j • b j = 0) : ∀ j < n, a j = 0 := by
  intro j hj
  exact pivot_indep (range n) b id (fun i hi => h i (mem_range.1 hi))
    (fun x _ y _ e => e) a h0 j (mem_range.2 hj)

/-- Bases of the chain groups compatible with the boundary. -/
structure Matching (bd : ℕ → (ℕ → K) →ₗ[K] (ℕ → K)) (n : ℕ → ℕ) (P : ℕ → Set ℕ) (κ : ℕ → ℕ → ℕ)
    (b : ℕ → ℕ → ℕ → K) : Prop where
  bd0 : bd 0 = 0
  piv : ∀ e j, j < n e → IsPiv (b e j) j
  Plt : ∀ e, ∀ j ∈ P e, j < n e
  κlt : ∀ e, ∀ j ∈ P e, κ e j < n (e + 1)
  eq : ∀ e, ∀ j ∈ P e, b e j = bd (e + 1) (b (e + 1) (κ e j))
  nz : ∀ e k, k < n (e + 1) → bd (e + 1) (b (e + 1) k) ≠ 0 → ∃ j ∈ P e, κ e j = k
  dd : ∀ e c, bd e (bd (e + 1) c) = 0

/-- What is needed of the filtration. -/
structure Filt {α : Type*} [Preorder α] (bd : ℕ → (ℕ → K) →ₗ[K] (ℕ → K)) (n : ℕ → ℕ)
    (born : ℕ → ℕ → α → Prop) : Prop where
  lt : ∀ e i t, born e i t → i < n e
  down : ∀ e i j t, i ≤ j → born e j t → born e i t
  mono : ∀ e i s t, s ≤ t → born e i s → born e i t
  face : ∀ e t c, (∀ i, c i ≠ 0 → born (e + 1) i t) → ∀ i, bd (e + 1) c i ≠ 0 → born e i t

namespace Matching

variable {bd : ℕ → (ℕ → K) →ₗ[K] (ℕ → K)} {n : ℕ → ℕ} {P : ℕ → Set ℕ} {κ : ℕ → ℕ → ℕ}
  {b : ℕ → ℕ → ℕ → K} (M : Matching bd n P κ b)

include M

theorem κinj (e : ℕ) {i j : ℕ} (hi : i ∈ P e) (hj : j ∈ P e) (h : κ e i = κ e j) : i = j := by
  have h1 := M.piv e i (M.Plt e i hi)
  have h2 := M.piv e j (M.Plt e j hj)
  rw [M.eq e i hi, h, ← M.eq e j hj] at h1
  exact h1.unique h2

theorem bd_P (e : ℕ) {j : ℕ} (hj : j ∈ P e) : bd e (b e j) = 0 := by
  rw [M.eq e j hj]; exact M.dd e _

theorem bd_κ_ne (e : ℕ) {j : ℕ} (hj : j ∈ P e) : bd (e + 1) (b (e + 1) (κ e j)) ≠ 0 := by
  rw [← M.eq e j hj]; exact (M.piv e j (M.Plt e j hj)).ne_zero

/-- If a combination is a cycle, only cycles of the basis occur. -/
theorem cycle_coeff (e : ℕ) (a : ℕ → K) (h : bd e (∑ j ∈ range (n e), a j • b e j) = 0) :
    ∀ j < n e, bd e (b e j) ≠ 0 → a j = 0 := by
  classical
  intro j hj hne
  cases e with
  | zero => rw [M.bd0] at hne; exact absurd rfl hne
  | succ e =>
    rw [map_sum] at h
    simp only [map_smul] at h
    -- the nonzero terms
    have hs : ∑ k ∈ (range (n (e + 1))).filter (fun k => bd (e + 1) (b (e + 1) k) ≠ 0),
        a k • bd (e + 1) (b (e + 1) k) = 0 := by
      rw [Finset.sum_filter]
      refine Eq.trans ?_ h
      refine Finset.sum_congr rfl fun k _ => ?_
      by_cases h0 : bd (e + 1) (b (e + 1) k) = 0
      · simp [h0]
      · simp [h0]
    choose! q hq1 hq2 using fun k => M.nz e k
    refine pivot_indep _ (fun k => bd (e + 1) (b (e + 1) k)) q ?_ ?_ a hs j
      (Finset.mem_filter.2 ⟨mem_range.2 hj, hne⟩)
    · intro k hk
      obtain ⟨hk1, hk2⟩ := Finset.mem_filter.1 hk
      have hk1 := mem_range.1 hk1
      have := M.eq e _ (hq1 k hk1 hk2)
      rw [hq2 k hk1 hk2] at this
      rw [← this]
      exact M.piv e _ (M.Plt e _ (hq1 k hk1 hk2))
    · intro x hx y hy hxy
      simp only [coe_filter, mem_range, Set.mem_ofPred_eq] at hx hy
      rw [← hq2 x hx.1 hx.2, ← hq2 y hy.1 hy.2, hxy]

variable {α : Type*} [Preorder α] {born : ℕ → ℕ → α → Prop} (F : Filt bd n born)

include F

theorem exists_bound (e : ℕ) (t : α) : ∃ N ≤ n e, ∀ i, born e i t ↔ i < N := by
  classical
  by_cases h : ∀ i < n e, born e i t
  · exact ⟨n e, le_rfl, fun i => ⟨fun hi => F.lt e i t hi, h i⟩⟩
  · push Not at h
    refine ⟨Nat.find h, (Nat.find_spec h).1.le, fun i => ⟨fun hi => ?_, fun hi => ?_⟩⟩
    · by_contra hc
      exact (Nat.find_spec h).2 (F.down e _ _ t (not_lt.1 hc) hi)
    · have := Nat.find_min h hi
      push Not at this
      exact this (by have := (Nat.find_spec h).1; omega)

/-- Basis elements are supported on simplices present when their leading simplex is. -/
theorem basis_mem (e j : ℕ) (t : α) (hj : born e j t) : ∀ i, b e j i ≠ 0 → born e i t := by
  intro i hi
  have hp := M.piv e j (F.lt e j t hj)
  refine F.down e i j t ?_ hj
  by_contra hc
  exact hi (hp.2 i (not_le.1 hc))

/-- Expansion of a chain present at `t`. -/
theorem chain_expand (e : ℕ) (t : α) (c : ℕ → K) (hc : ∀ i, c i ≠ 0 → born e i t) :
    ∃ a : ℕ → K, (∀ j, a j ≠ 0 → born e j t) ∧ c = ∑ j ∈ range (n e), a j • b e j := by
  obtain ⟨N, hN, hb⟩ := M.exists_bound F e t
  obtain ⟨a, ha, h⟩ := triangular_span (M.piv e) N hN c (fun i hi => by
    by_contra h
    have := (hb i).1 (hc i h)
    omega)
  refine ⟨a, fun j hj => (hb j).2 ?_, h⟩
  by_contra hn
  exact hj (ha j (not_lt.1 hn))

/-- Expansion of a cycle present at `t`: only basis elements which are cycles are needed. -/
theorem cycle_expand (e : ℕ) (t : α) (c : ℕ → K) (hc : ∀ i, c i ≠ 0 → born e i t)
    (hz : bd e c = 0) :
    ∃ a : ℕ → K, (∀ j, a j ≠ 0 → born e j t ∧ bd e (b e j) = 0) ∧
      c = ∑ j ∈ range (n e), a j • b e j := by
  obtain ⟨a, ha, h⟩ := M.chain_expand F e t c hc
  refine ⟨a, fun j hj => ⟨ha j hj, ?_⟩, h⟩
  by_contra hne
  rw [h] at hz
  exact hj (M.cycle_coeff e a hz j (F.lt e j t (ha j hj)) hne)

/-- Boundaries at `t` are the combinations of matched elements whose partner is present. -/
theorem boundary_iff (e : ℕ) (t : α) (c : ℕ → K) :
    (∃ x : ℕ → K, (∀ i, x i ≠ 0 → born (e + 1) i t) ∧ bd (e + 1) x = c) ↔
      ∃ a : ℕ → K, (∀ j, a j ≠ 0 → j ∈ P e ∧ born (e + 1) (κ e j) t) ∧
        c = ∑ j ∈ range (n e), a j • b e j := by
  classical
  constructor
  · rintro ⟨x, hx, rfl⟩
    obtain ⟨a, ha, rfl⟩ := M.chain_expand F (e + 1) t x hx
    refine ⟨fun j => if j ∈ P e then a (κ e j) else 0, ?_, ?_⟩
    · intro j hj
      simp only [ne_eq, ite_eq_right_iff, Classical.not_imp] at hj
      exact ⟨hj.1, ha _ hj.2⟩
    · rw [map_sum]
      simp only [map_smul]
      symm
      rw [← Finset.sum_filter_of_ne (p := fun j => j ∈ P e)
        (s := range (n e)) (f := fun j => (if j ∈ P e then a (κ e j) else 0) • b e j)
        (fun j _ hne => by
          by_contra hc
          exact hne (by simp [hc]))]
      rw [← Finset.sum_filter_of_ne (p := fun k => bd (e + 1) (b (e + 1) k) ≠ 0)
        (s := range (n (e + 1))) (f := fun k => a k • bd (e + 1) (b (e + 1) k))
        (fun k _ hne => by
          intro hc
          exact hne (by simp [hc]))]
      refine Finset.sum_nbij (fun j => κ e j) ?_ ?_ ?_ ?_
      · intro j hj
        simp only [Finset.mem_filter, mem_range] at hj ⊢
        exact ⟨M.κlt e j hj.2, M.bd_κ_ne e hj.2⟩
      · intro x hx y hy hxy
        simp only [coe_filter, mem_range, Set.mem_ofPred_eq] at hx hy
        exact M.κinj e hx.2 hy.2 hxy
      · intro k hk
        simp only [coe_filter, mem_range, Set.mem_ofPred_eq] at hk
        obtain ⟨j, hj, rfl⟩ := M.nz e k hk.1 hk.2
        exact ⟨j, by simp only [coe_filter, mem_range, Set.mem_ofPred_eq]; exact ⟨M.Plt e j hj, hj⟩, rfl⟩
      · intro j hj
        simp only [Finset.mem_filter, mem_range] at hj
        rw [if_pos hj.2, ← M.eq e j hj.2]
  · rintro ⟨a, ha, rfl⟩
    refine ⟨∑ j ∈ range (n e), a j • b (e + 1) (κ e j), ?_, ?_⟩
    · intro i hi
      rw [Finset.sum_apply] at hi
      obtain ⟨j, -, hj⟩ := Finset.exists_ne_zero_of_sum_ne_zero hi
      have h1 : a j ≠ 0 := fun h => hj (by simp [h])
      exact M.basis_mem F (e + 1) _ t (ha j h1).2 i fun h => hj (by simp [h])
    · rw [map_sum]
      refine Finset.sum_congr rfl fun j _ => ?_
      rw [map_smul]
      by_cases h : a j = 0
      · simp [h]
      · rw [← M.eq e j (ha j h).1]

/-- The partner of a matched element is born after it. -/
theorem partner_born (e j : ℕ) (t : α) (hj : j ∈ P e) (h : born (e + 1) (κ e j) t) :
    born e j t := by
  have hp := M.piv e j (M.Plt e j hj)
  refine F.face e t (b (e + 1) (κ e j)) (M.basis_mem F (e + 1) _ t h) j ?_
  rw [← M.eq e j hj]; exact hp.1

/-- Element `j` represents a class of its own at `t`: it is a present cycle which is not yet matched
with a present partner. -/
def Alive (_M : Matching bd n P κ b) (_F : Filt bd n born) (e j : ℕ) (t : α) : Prop :=
  born e j t ∧ bd e (b e j) = 0 ∧ ¬ (j ∈ P e ∧ born (e + 1) (κ e j) t)

/-- Every cycle at `t` is, up to a boundary at `t`, a combination of alive elements. -/
theorem alive_span (e : ℕ) (t : α) (c : ℕ → K) (hc : ∀ i, c i ≠ 0 → born e i t)
    (hz : bd e c = 0) :
    ∃ a : ℕ → K, (∀ j, a j ≠ 0 → M.Alive F e j t) ∧
      ∃ x : ℕ → K, (∀ i, x i ≠ 0 → born (e + 1) i t) ∧
        bd (e + 1) x = c - ∑ j ∈ range (n e), a j • b e j := by
  classical
  obtain ⟨a, ha, rfl⟩ := M.cycle_expand F e t c hc hz
  refine ⟨fun j => if j ∈ P e ∧ born (e + 1) (κ e j) t then 0 else a j, ?_, ?_⟩
  · intro j hj
    simp only [ne_eq, ite_eq_left_iff, Classical.not_imp] at hj
    exact ⟨(ha j hj.2).1, (ha j hj.2).2, hj.1⟩
  · rw [M.boundary_iff F]
    refine ⟨fun j => if j ∈ P e ∧ born (e + 1) (κ e j) t then a j else 0, ?_, ?_⟩
    · intro j hj
      simp only [ne_eq, ite_eq_right_iff, Classical.not_imp] at hj
      exact hj.1
    · rw [← Finset.sum_sub_distrib]
      refine Finset.sum_congr rfl fun j _ => ?_
      by_cases h : j ∈ P e ∧ born (e + 1) (κ e j) t
      · simp [h]
      · simp only [if_neg h]; simp

/-- Alive elements are independent modulo boundaries; more generally so are the elements which are
not matched at `t`. -/
theorem alive_indep (e : ℕ) (t : α) (a : ℕ → K)
    (ha : ∀ j, a j ≠ 0 → ¬ (j ∈ P e ∧ born (e + 1) (κ e j) t))
    (h : ∃ x : ℕ → K, (∀ i, x i ≠ 0 → born (e + 1) i t) ∧
      bd (e + 1) x = ∑ j ∈ range (n e), a j • b e j) : ∀ j < n e, a j = 0 := by
  rw [M.boundary_iff F] at h
  obtain ⟨a', ha', h⟩ := h
  have h0 : ∑ j ∈ range (n e), (a j - a' j) • b e j = 0 := by
    simp only [sub_smul, Finset.sum_sub_distrib]
    rw [h, sub_self]
  intro j hj
  have := triangular_indep (M.piv e) _ h0 j hj
  have e1 : a j = a' j := sub_eq_zero.1 this
  by_contra hne
  exact ha j hne (ha' j (by rw [← e1]; exact hne))

end Matching

end Permaviss
