import Verif.Lemmas.GaussRad
import Verif.Props.Gauss
import Mathlib.LinearAlgebra.Finsupp.LinearCombination
import Mathlib.Order.Nat

/-!
# C12–C14: elimination respecting radii and barcodes
-/

namespace Permaviss

open Finset

variable {p : ℕ} {α : Type} [LinearOrder α]

theorem zv_map_mod (c : List Int) : zv p (c.map fun x => x % (p : Int)) = zv p c := by
  funext i
  simp only [zv]
  rcases lt_or_ge i c.length with h | h
  · simp [List.getD_eq_getElem?_getD, h]
  · rw [getD_eq_zero_of_le _ (by simpa using h), getD_eq_zero_of_le _ h]

theorem redL_map_mod (hp : 0 < p) (c : List Int) : RedL p (c.map fun x => x % (p : Int)) := by
  intro x hx
  obtain ⟨y, -, rfl⟩ := List.mem_map.mp hx
  have hp' : (0 : Int) < p := by exact_mod_cast hp
  exact ⟨Int.emod_nonneg _ (by omega), Int.emod_lt_of_pos _ hp'⟩

/-- Column `k` may be used for target column `j`: it is born no later. -/
def Usable (R : List α) (k j : ℕ) : Prop := ∃ rk rj, R[k]? = some rk ∧ R[j]? = some rj ∧ rk ≤ rj

section
variable (A : Mat) (R : List α) (hR : R.length = A.ncols)
include hR

theorem radAll_length : (radAll p A R).length = A.ncols := by
  simp only [radAll, List.length_zip, List.length_map, length_identityCols, hR, Mat.ncols]; omega

theorem radAll_get {j : ℕ} (h : j < (radAll p A R).length) :
    ∃ rj, R[j]? = some rj ∧ (radAll p A R)[j] =
      (rj, ((A.cols.getD j []).map fun x => x % (p : Int),
        (List.range A.cols.length).map fun i => if i = j then 1 else 0)) := by
  rw [radAll_length A R hR] at h
  have h1 : j < R.length := by omega
  have h2 : j < A.cols.length := h
  refine ⟨R[j], by simp [h1], ?_⟩
  simp [radAll, List.getD_eq_getElem?_getD, h2, identityCols]

theorem radAll_ok (hp : p.Prime) (hA : A.WellShaped) :
    ∀ k ∈ radAll p A R, PairOK p A.nrows A.cols.length k.2 := by
  intro k hk
  obtain ⟨j, hj, rfl⟩ := List.getElem_of_mem hk
  obtain ⟨rj, -, e⟩ := radAll_get A R hR hj
  rw [radAll_length A R hR] at hj
  have h2 : j < A.cols.length := hj
  rw [e]
  refine ⟨?_, by simp, redL_map_mod hp.pos _, ?_⟩
  · simp only [List.length_map]
    rw [List_getD_eq_getElem _ _ h2]; exact hA _ (List.getElem_mem h2)
  · intro x hx
    simp only [List.mem_map] at hx
    obtain ⟨i, -, rfl⟩ := hx
    have := hp.two_le
    split <;> omega

theorem radAll_pz {j : ℕ} (h : j < (radAll p A R).length) :
    pz p ((radAll p A R)[j].2) = (colv p A j, Pi.single j 1) := by
  obtain ⟨rj, -, e⟩ := radAll_get A R hR h
  rw [radAll_length A R hR] at h
  rw [e]
  simp only [pz, zv_map_mod]
  refine Prod.ext rfl ?_
  have := zv_identityCols (p := p) (N := A.cols.length) (j := j)
    (by rw [length_identityCols]; exact h)
  rw [identityCols_getElem] at this
  exact this

theorem mem_elig {start j : ℕ} {rj : α} (hs : start ≤ A.ncols) (hj : R[j]? = some rj)
    {x : (ℕ → ZMod p) × (ℕ → ZMod p)} :
    x ∈ Elig p rj ((radAll p A R).take start) ↔
      ∃ k < start, Usable R k j ∧ x = (colv p A k, Pi.single k 1) := by
  have hl := radAll_length (p := p) A R hR
  constructor
  · rintro ⟨k, hk, h1, rfl⟩
    obtain ⟨i, hi, rfl⟩ := List.getElem_of_mem hk
    simp only [List.length_take] at hi
    rw [List.getElem_take] at h1 ⊢
    obtain ⟨ri, hri, e⟩ := radAll_get A R hR (p := p) (j := i) (by omega)
    rw [e] at h1
    exact ⟨i, by omega, ⟨ri, rj, hri, hj, h1⟩, radAll_pz A R hR _⟩
  · rintro ⟨k, hk, ⟨rk, rj', h1, h2, h3⟩, rfl⟩
    rw [hj] at h2; cases h2
    have hkl : k < (radAll p A R).length := by omega
    obtain ⟨ri, hri, e⟩ := radAll_get A R hR (p := p) hkl
    refine ⟨(radAll p A R)[k], ?_, ?_, radAll_pz A R hR hkl⟩
    · rw [List.mem_iff_getElem]
      exact ⟨k, by simp; omega, by rw [List.getElem_take]⟩
    · rw [e, hri.symm.trans h1 |> Option.some.inj]; exact h3

theorem span_elig {start j : ℕ} {rj : α} (hs : start ≤ A.ncols) (hj : R[j]? = some rj)
    {x : (ℕ → ZMod p) × (ℕ → ZMod p)}
    (hx : x ∈ Submodule.span (ZMod p) (Elig p rj ((radAll p A R).take start))) :
    x.1 = comb p A.cols x.2 ∧ ∀ k, ¬ (k < start ∧ Usable R k j) → x.2 k = 0 := by
  induction hx using Submodule.span_induction with
  | mem x hx =>
    obtain ⟨k, hk, hu, rfl⟩ := (mem_elig A R hR hs hj).mp hx
    refine ⟨by simp only [comb_single]; rfl, ?_⟩
    intro l hl
    have : l ≠ k := by rintro rfl; exact hl ⟨hk, hu⟩
    simp [Pi.single_apply, this]
  | zero => exact ⟨by simp, by simp⟩
  | add x y _ _ hx hy =>
    refine ⟨by simp [hx.1, hy.1], fun k hk => ?_⟩
    simp [hx.2 k hk, hy.2 k hk]
  | smul a x _ hx =>
    refine ⟨by simp [hx.1], fun k hk => ?_⟩
    simp [hx.2 k hk]

end

/-- **C12.** If `gauss_col_rad(A, R, s, p)` returns `(Red, T)`, then each column `j ≥ s` of `A` is
`-Σ_{k<s} T[k,j] A[:,k]`, where `T[k,j]` is zero unless column `k` is born no later than column `j`;
the columns from `s` on have been reduced to zero and the first `s` columns are unchanged mod `p`. -/
theorem C12_gauss_col_rad_sound (hp : p.Prime) (A Red T : Mat) (R : List α) (start : ℕ)
    (hA : A.WellShaped) (hR : R.length = A.ncols) (hs : start ≤ A.ncols)
    (h : gaussColRad p A R start = .ok (Red, T)) :
    (∀ j, start ≤ j → j < A.ncols →
      (∀ i < A.nrows, A.z p i j = - ∑ k ∈ range start, T.z p k j * A.z p i k) ∧
      (∀ k < start, ¬ Usable R k j → T.get k j = 0) ∧
      (∀ k, T.get k j ≠ 0 → k < start ∨ k = j) ∧
      (∀ k, 0 ≤ T.get k j ∧ T.get k j < p) ∧
      ∀ i, Red.get i j = 0) ∧
    ∀ k < start, ∀ i, Red.z p i k = A.z p i k := by
  have hl := radAll_length (p := p) A R hR
  have hok := radAll_ok A R hR hp hA
  unfold gaussColRad at h
  simp only [bind, Except.bind] at h
  split at h
  · cases h
  · rename_i out hout
    simp only [pure, Except.pure, Except.ok.injEq, Prod.mk.injEq] at h
    obtain ⟨rfl, rfl⟩ := h
    obtain ⟨ho1, ho2⟩ := mapM_ok_spec hout
    rw [List.length_drop, hl] at ho1
    have hlen1 : (((radAll p A R).take start).map Prod.snd).length = start := by
      simp [hl]; omega
    constructor
    · intro j hj1 hj2
      have hjo : j - start < out.length := by omega
      have hjd : j - start < ((radAll p A R).drop start).length := by simp [hl]; omega
      have hrun := ho2 (j - start) hjd hjo
      rw [List.getElem_drop] at hrun
      have hjj : start + (j - start) = j := by omega
      simp only [hjj] at hrun
      obtain ⟨rj, hrj, e⟩ := radAll_get A R hR (p := p) (j := j) (by omega)
      have hokj := hok _ (List.getElem_mem (l := radAll p A R) (n := j) (by omega))
      have hpzj := radAll_pz A R hR (p := p) (j := j) (by omega)
      have hrad : (radAll p A R)[j].1 = rj := by rw [e]
      rw [hrad] at hrun
      have hgetT : ∀ k, (⟨A.cols.length, ((((radAll p A R).take start).map Prod.snd ++ out).map
          Prod.snd)⟩ : Mat).get k j = (out[j - start].2).getD k 0 := by
        intro k
        simp only [Mat.get]
        congr 1
        rw [List_getD_eq_getElem _ _ (by simp [hl]; omega), List.getElem_map,
          List.getElem_append_right (by omega)]
        simp only [hlen1]
      have hgetR : ∀ k, (⟨A.nrows, ((((radAll p A R).take start).map Prod.snd ++ out).map
          Prod.fst)⟩ : Mat).get k j = (out[j - start].1).getD k 0 := by
        intro k
        simp only [Mat.get]
        congr 1
        rw [List_getD_eq_getElem _ _ (by simp [hl]; omega), List.getElem_map,
          List.getElem_append_right (by omega)]
        simp only [hlen1]
      rcases radLoop_spec hp rj ((radAll p A R).take start)
          (fun k hk => hok k (List.mem_of_mem_take hk)) _ _ hokj (Nat.succ_pos _)
          (fun pv h => Nat.succ_lt_succ (indexPivot_lt h)) with
        ⟨rt', h1, hok', hz, hm⟩ | ⟨h1, -⟩
      · rw [hrun] at h1
        cases h1
        rw [hpzj] at hm
        obtain ⟨hg, hsupp⟩ := span_elig A R hR hs hrj hm
        simp only [pz, Prod.fst_sub, Prod.snd_sub, hz, zero_sub] at hg hsupp
        have hcoef : ∀ k, k ≠ j → zv p (out[j - start].2) k =
            (zv p (out[j - start].2) - Pi.single j (1 : ZMod p) : ℕ → ZMod p) k := by
          intro k hk; simp [Pi.single_apply, hk]
        refine ⟨?_, ?_, ?_, ?_, ?_⟩
        · intro i _
          have h2 := congrFun hg i
          rw [comb_apply_entry] at h2
          simp only [Pi.neg_apply] at h2
          change - A.z p i j = _ at h2
          rw [← neg_eq_iff_eq_neg, h2]
          have hsub : range start ⊆ range A.ncols := by
            intro k; simp only [mem_range]; omega
          refine (Finset.sum_subset hsub fun k _ hk => ?_).symm.trans ?_
          · rw [hsupp k (fun h => hk (mem_range.mpr h.1)), mul_zero]
          refine Finset.sum_congr rfl fun k hk => ?_
          have hkj : k ≠ j := by have := mem_range.mp hk; omega
          rw [← hcoef k hkj]
          simp only [Mat.z, hgetT, zv]
          ring
        · intro k hk hu
          rw [hgetT]
          apply (hok'.red2.zv_eq_zero hp.pos k).mp
          rw [hcoef k (by omega)]
          exact hsupp k fun h => hu h.2
        · intro k hk
          rw [hgetT] at hk
          by_contra hc
          push Not at hc
          apply hk
          apply (hok'.red2.zv_eq_zero hp.pos k).mp
          rw [hcoef k hc.2]
          exact hsupp k fun h => by omega
        · intro k
          rw [hgetT]; exact hok'.red2.getD hp.pos k
        · intro i
          rw [hgetR]
          exact (hok'.red1.zv_eq_zero hp.pos i).mp (congrFun hz i)
      · rw [hrun] at h1; cases h1
    · intro k hk i
      have hpzk := radAll_pz A R hR (p := p) (j := k) (by omega)
      have h1 := congrFun (congrArg Prod.fst hpzk) i
      simp only [pz, colv, zv] at h1
      have e : ((((radAll p A R).take start).map Prod.snd ++ out).map Prod.fst).getD k [] =
          (radAll p A R)[k].2.1 := by
        rw [List_getD_eq_getElem _ _ (by simp [hl]; omega), List.getElem_map,
          List.getElem_append_left (by omega), List.getElem_map, List.getElem_take]
      simp only [Mat.z, Mat.get, e]
      exact h1

/-- **C13.** `gauss_col_rad` always terminates, and the only exception it raises is `RuntimeError`
(the docstring announces `ValueError`). -/
theorem C13_gauss_col_rad_only_runtimeError (hp : p.Prime) (A : Mat) (R : List α) (start : ℕ)
    (hA : A.WellShaped) (hR : R.length = A.ncols) :
    (∃ RT, gaussColRad p A R start = .ok RT) ∨ gaussColRad p A R start = .error .runtimeError := by
  have hok := radAll_ok A R hR hp hA
  unfold gaussColRad
  simp only [bind, Except.bind]
  split
  · rename_i e he
    right
    obtain ⟨c, hc, hce⟩ := mapM_error_spec he
    have hcm := List.mem_of_mem_drop hc
    rcases radLoop_spec hp c.1 ((radAll p A R).take start)
          (fun k hk => hok k (List.mem_of_mem_take hk)) _ _ (hok c hcm) (Nat.succ_pos _)
          (fun pv h => Nat.succ_lt_succ (indexPivot_lt h)) with
        ⟨rt', h1, -⟩ | ⟨h1, -⟩
    · rw [h1] at hce; cases hce
    · rw [h1] at hce; cases hce; rfl
  · left; exact ⟨_, rfl⟩

/-- A vector in the span of finitely supported vectors, two of which never share a pivot unless they
are equal, has the pivot of one of them. -/
theorem pivot_of_mem_span {K : Type*} [Field K] (S : Finset (ℕ → K))
    (hfin : ∀ s ∈ S, s ≠ 0 → ∃ i, IsPiv s i)
    (hinj : ∀ s ∈ S, ∀ t ∈ S, ∀ i, IsPiv s i → IsPiv t i → s = t)
    {v : ℕ → K} (hv : v ∈ Submodule.span K (S : Set (ℕ → K))) {i : ℕ} (hi : IsPiv v i) :
    ∃ s ∈ S, IsPiv s i := by
  classical
  obtain ⟨c, -, hc⟩ := Submodule.mem_span_finset.mp hv
  let S' := S.filter fun s => s ≠ 0
  have hsum : ∑ s ∈ S', c s • s = v := by
    rw [← hc, Finset.sum_filter]
    exact Finset.sum_congr rfl fun s _ => by by_cases h : s = 0 <;> simp [h]
  let piv : (ℕ → K) → ℕ := fun s => if h : ∃ i, IsPiv s i then h.choose else 0
  have hpiv : ∀ s ∈ S', IsPiv s (piv s) := by
    intro s hs
    have hs' := Finset.mem_filter.mp hs
    have h := hfin s hs'.1 hs'.2
    simp only [piv, h, dif_pos]
    exact h.choose_spec
  have hex : ∃ s ∈ S', c s ≠ 0 := by
    by_contra hc'
    push Not at hc'
    apply hi.ne_zero
    rw [← hsum]
    exact Finset.sum_eq_zero fun s hs => by rw [hc' s hs, zero_smul]
  obtain ⟨s, hs, -, h2⟩ := exists_pivot_sum S' (fun s => s) piv hpiv (by
    intro s hs t ht hst
    have hst' : piv s = piv t := hst
    have h1 := hpiv s hs
    rw [hst'] at h1
    exact hinj s (Finset.mem_filter.mp hs).1 t (Finset.mem_filter.mp ht).1 _ h1 (hpiv t ht)) c hex
  rw [hsum] at h2
  have := h2.unique hi
  exact ⟨s, (Finset.mem_filter.mp hs).1, this ▸ hpiv s hs⟩

/-- A vector that vanishes from some index on is zero or has a pivot. -/
theorem exists_isPiv_of_bounded {K : Type*} [Zero K] {f : ℕ → K} {N : ℕ}
    (hb : ∀ i, N ≤ i → f i = 0) (hne : f ≠ 0) : ∃ i, IsPiv f i := by
  classical
  have hex : ∃ r, f r ≠ 0 := by
    by_contra hc
    push Not at hc
    exact hne (funext hc)
  have hbd : ∀ r, f r ≠ 0 → r ≤ N := by
    intro r hr
    by_contra hc
    exact hr (hb r (by omega))
  refine ⟨Nat.findGreatest (fun r => f r ≠ 0) N, ?_, ?_⟩
  · obtain ⟨r, hr0⟩ := hex
    exact Nat.findGreatest_spec (P := fun r => f r ≠ 0) (hbd r hr0) hr0
  · intro r hr1
    by_contra hc
    exact absurd (Nat.le_findGreatest (P := fun r => f r ≠ 0) (hbd r hc) hc) (by omega)

/-- If every nonzero combination of the columns usable for a target has the pivot of one of them, `gauss_col_rad`
succeeds exactly when every target column is a combination of the columns it may use. -/
theorem gauss_col_rad_complete_of (hp : p.Prime) (A : Mat) (R : List α) (start : ℕ)
    (hA : A.WellShaped) (hR : R.length = A.ncols) (hs : start ≤ A.ncols)
    (hspan : ∀ j, start ≤ j → j < A.ncols →
      ∀ v ∈ Submodule.span (ZMod p) {x | ∃ k < start, Usable R k j ∧ colv p A k = x}, ∀ r, IsPiv v r →
        ∃ k < start, Usable R k j ∧ IsPiv (colv p A k) r) :
    (∃ RT, gaussColRad p A R start = .ok RT) ↔
      ∀ j, start ≤ j → j < A.ncols → ∃ c : ℕ → ZMod p,
        (∀ k < start, ¬ Usable R k j → c k = 0) ∧
        ∀ i < A.nrows, A.z p i j = ∑ k ∈ range start, c k * A.z p i k := by
  constructor
  · rintro ⟨⟨Red, T⟩, h⟩ j hj1 hj2
    obtain ⟨h1, h2, -⟩ := (C12_gauss_col_rad_sound hp A Red T R start hA hR hs h).1 j hj1 hj2
    refine ⟨fun k => - T.z p k j, ?_, ?_⟩
    · intro k hk hu
      simp [Mat.z, h2 k hk hu]
    · intro i hi
      rw [h1 i hi, ← Finset.sum_neg_distrib]
      exact Finset.sum_congr rfl fun k _ => by ring
  · intro hsol
    have hl := radAll_length (p := p) A R hR
    have hok := radAll_ok A R hR hp hA
    have := Fact.mk hp
    unfold gaussColRad
    simp only [bind, Except.bind]
    have hall : ∀ c ∈ (radAll p A R).drop start, ∃ y,
        radLoop p c.1 ((radAll p A R).take start) (c.2.1.length + 1) c.2 = .ok y := by
      intro c hc
      have hcm := List.mem_of_mem_drop hc
      rcases radLoop_spec hp c.1 ((radAll p A R).take start)
            (fun k hk => hok k (List.mem_of_mem_take hk)) _ _ (hok c hcm) (Nat.succ_pos _)
            (fun pv h => Nat.succ_lt_succ (indexPivot_lt h)) with
          ⟨rt', h1, -⟩ | ⟨h1, x, hx, pv, hx2, hx3⟩
      · exact ⟨rt', h1⟩
      · exfalso
        obtain ⟨d, hd, rfl⟩ := List.getElem_of_mem hc
        rw [List.getElem_drop] at hx hx2 hx3
        simp only [List.length_drop] at hd
        set j := start + d with hjdef
        have hj2 : j < A.ncols := by omega
        obtain ⟨rj, hrj, e⟩ := radAll_get A R hR (p := p) (j := j) (by omega)
        have hrad : (radAll p A R)[j].1 = rj := by rw [e]
        have hcolj : zv p (radAll p A R)[j].2.1 = colv p A j :=
          congrArg Prod.fst (radAll_pz A R hR (p := p) (j := j) (by omega))
        rw [hrad] at hx hx3
        rw [hcolj] at hx2
        obtain ⟨c, hc1, hc2⟩ := hsol j (by omega) hj2
        classical
        let S : Finset (ℕ → ZMod p) :=
          ((range start).filter fun k => Usable R k j).image (colv p A)
        have hSmem : ∀ s, s ∈ S ↔ ∃ k < start, Usable R k j ∧ colv p A k = s := by
          intro s; simp [S, and_assoc]
        have hxS : x.1 ∈ Submodule.span (ZMod p) (S : Set (ℕ → ZMod p)) := by
          have hle : Submodule.span (ZMod p) (Elig p rj ((radAll p A R).take start)) ≤
              Submodule.comap (LinearMap.fst (ZMod p) (ℕ → ZMod p) (ℕ → ZMod p))
                (Submodule.span (ZMod p) (S : Set (ℕ → ZMod p))) := by
            rw [Submodule.span_le]
            intro y hy
            obtain ⟨k, hk, hu, rfl⟩ := (mem_elig A R hR hs hrj).mp hy
            exact Submodule.subset_span ((hSmem _).mpr ⟨k, hk, hu, rfl⟩)
          exact hle hx
        have hjS : colv p A j ∈ Submodule.span (ZMod p) (S : Set (ℕ → ZMod p)) := by
          have : colv p A j = ∑ k ∈ range start, c k • colv p A k := by
            funext i
            simp only [Finset.sum_apply, Pi.smul_apply, smul_eq_mul, colv]
            rcases lt_or_ge i A.nrows with hi | hi
            · exact hc2 i hi
            · rw [hA.zv_zero hi]
              exact (Finset.sum_eq_zero fun k _ => by rw [hA.zv_zero hi, mul_zero]).symm
          rw [this]
          apply Submodule.sum_mem
          intro k hk
          by_cases hu : Usable R k j
          · exact Submodule.smul_mem _ _
              (Submodule.subset_span ((hSmem _).mpr ⟨k, mem_range.mp hk, hu, rfl⟩))
          · rw [hc1 k (mem_range.mp hk) hu, zero_smul]; exact Submodule.zero_mem _
        have hSeq : (S : Set (ℕ → ZMod p)) = {x | ∃ k < start, Usable R k j ∧ colv p A k = x} := by
          ext x; exact hSmem x
        obtain ⟨k, hk, hu, hs2⟩ := hspan j (by omega) hj2 _ (by
          rw [← hSeq]; exact Submodule.add_mem _ hjS hxS) _ hx2
        have hkm := (mem_elig A R hR hs hrj (p := p)).mpr ⟨k, hk, hu, rfl⟩
        obtain ⟨y, hy1, hy2, hy3⟩ := hkm
        refine hx3 ⟨y, hy1, hy2, ?_⟩
        have : zv p y.2.1 = colv p A k := congrArg Prod.fst hy3
        rw [this]; exact hs2
    obtain ⟨ys, hys⟩ := mapM_ok_of hall
    rw [hys]
    exact ⟨_, rfl⟩

/-- **C13.** If two of the first `s` columns never share a pivot unless they are equal mod `p` (as
for the matrices `[Im | Hom]` the library feeds in), `gauss_col_rad` succeeds exactly when every
target column is a combination of the columns it may use; otherwise it raises `RuntimeError`. -/
theorem C13_gauss_col_rad_complete (hp : p.Prime) (A : Mat) (R : List α) (start : ℕ)
    (hA : A.WellShaped) (hR : R.length = A.ncols) (hs : start ≤ A.ncols)
    (hpiv : ∀ k < start, ∀ l < start, ∀ r, IsPiv (fun i => A.z p i k) r →
      IsPiv (fun i => A.z p i l) r → ∀ i, A.z p i k = A.z p i l) :
    (∃ RT, gaussColRad p A R start = .ok RT) ↔
      ∀ j, start ≤ j → j < A.ncols → ∃ c : ℕ → ZMod p,
        (∀ k < start, ¬ Usable R k j → c k = 0) ∧
        ∀ i < A.nrows, A.z p i j = ∑ k ∈ range start, c k * A.z p i k := by
  classical
  have := Fact.mk hp
  refine gauss_col_rad_complete_of hp A R start hA hR hs fun j _ _ v hv r hr => ?_
  have hSeq : (((range start).filter fun k => Usable R k j).image (colv p A) : Finset (ℕ → ZMod p)) =
      {x | ∃ k < start, Usable R k j ∧ colv p A k = x} := by
    ext x; simp [and_assoc]
  rw [← hSeq] at hv
  obtain ⟨s, hs1, hs2⟩ := pivot_of_mem_span _
    (by
      intro s hs hne
      obtain ⟨k, -, rfl⟩ := Finset.mem_image.1 hs
      exact exists_isPiv_of_bounded (fun i hi => hA.zv_zero hi k) hne)
    (by
      intro s hs t ht i h1 h2
      obtain ⟨k, hk, rfl⟩ := Finset.mem_image.1 hs
      obtain ⟨l, hl, rfl⟩ := Finset.mem_image.1 ht
      exact funext (hpiv k (mem_range.1 (Finset.mem_filter.1 hk).1) l (mem_range.1 (Finset.mem_filter.1 hl).1) i h1 h2))
    hv hr
  obtain ⟨k, hk, rfl⟩ := Finset.mem_image.1 hs1
  obtain ⟨hk1, hk2⟩ := Finset.mem_filter.1 hk
  exact ⟨k, mem_range.1 hk1, hk2, hs2⟩

/-- If vectors have as many different pivots as the dimension of their span, then every nonzero vector of the span
has one of these pivots. -/
theorem pivot_of_card {K ι : Type*} [Field K] (I : Finset ι) (g : ι → ℕ → K) (P : Finset ℕ)
    (hP : ∀ r, r ∈ P ↔ ∃ k ∈ I, IsPiv (g k) r)
    (hcard : P.card = Module.finrank K (Submodule.span K {x | ∃ k ∈ I, g k = x}))
    {v : ℕ → K} (hv : v ∈ Submodule.span K {x | ∃ k ∈ I, g k = x}) {r : ℕ} (hr : IsPiv v r) : r ∈ P := by
  classical
  have hch : ∀ r : P, ∃ k ∈ I, IsPiv (g k) r := fun r => (hP r).1 r.2
  choose f hf1 hf2 using hch
  have hfin : FiniteDimensional K (Submodule.span K {x | ∃ k ∈ I, g k = x}) := by
    refine FiniteDimensional.span_of_finite K ?_
    exact ((I.image g).finite_toSet).subset fun x ⟨k, hk, hx⟩ => by
      simpa using ⟨k, hk, hx⟩
  have hind : LinearIndependent K fun r : P => g (f r) := by
    rw [linearIndependent_iff']
    intro s c hc i hi
    by_contra hne
    obtain ⟨l, -, -, hl⟩ := exists_pivot_sum s (fun r : P => g (f r)) (fun r => r.1) (fun r _ => hf2 r)
      (fun a _ b _ h => Subtype.ext h) c ⟨i, hi, hne⟩
    rw [hc] at hl
    exact hl.1 rfl
  have hle : Submodule.span K (Set.range fun r : P => g (f r)) ≤ Submodule.span K {x | ∃ k ∈ I, g k = x} := by
    refine Submodule.span_mono ?_
    rintro _ ⟨r, rfl⟩
    exact ⟨f r, hf1 r, rfl⟩
  have heq := Submodule.eq_of_le_of_finrank_eq hle (by
    rw [finrank_span_eq_card hind, Fintype.card_coe, hcard])
  rw [← heq] at hv
  obtain ⟨c, hc⟩ := (Submodule.mem_span_range_iff_exists_fun K).1 hv
  have hex : ∃ i ∈ (Finset.univ : Finset P), c i ≠ 0 := by
    by_contra hall
    push Not at hall
    refine hr.1 ?_
    rw [← hc, Finset.sum_eq_zero fun i hi => by rw [hall i hi, zero_smul]]
    rfl
  obtain ⟨l, -, -, hl⟩ := exists_pivot_sum Finset.univ (fun r : P => g (f r)) (fun r => r.1) (fun r _ => hf2 r)
    (fun a _ b _ h => Subtype.ext h) c hex
  rw [hc] at hl
  rw [hr.unique hl]
  exact l.2

open Classical in
/-- **C13.** If, for every target column, the columns it may use have as many different pivots as their rank,
`gauss_col_rad` succeeds exactly when every target column is a combination of the columns it may use. -/
theorem C13_gauss_col_rad_complete_rank (hp : p.Prime) (A : Mat) (R : List α) (start : ℕ)
    (hA : A.WellShaped) (hR : R.length = A.ncols) (hs : start ≤ A.ncols)
    (hrank : ∀ j, start ≤ j → j < A.ncols →
      {r | ∃ k < start, Usable R k j ∧ IsPiv (fun i => A.z p i k) r}.ncard =
        Module.finrank (ZMod p)
          (Submodule.span (ZMod p) {x | ∃ k < start, Usable R k j ∧ (fun i => A.z p i k) = x})) :
    (∃ RT, gaussColRad p A R start = .ok RT) ↔
      ∀ j, start ≤ j → j < A.ncols → ∃ c : ℕ → ZMod p,
        (∀ k < start, ¬ Usable R k j → c k = 0) ∧
        ∀ i < A.nrows, A.z p i j = ∑ k ∈ range start, c k * A.z p i k := by
  have := Fact.mk hp
  refine gauss_col_rad_complete_of hp A R start hA hR hs fun j h1 h2 v hv r hr => ?_
  have hset : {x | ∃ k ∈ (range start).filter (fun k => Usable R k j), colv p A k = x} =
      {x | ∃ k < start, Usable R k j ∧ colv p A k = x} := by
    ext x; simp [and_assoc]
  have := pivot_of_card ((range start).filter fun k => Usable R k j) (colv p A)
    ((range A.nrows).filter fun r => ∃ k < start, Usable R k j ∧ IsPiv (fun i => A.z p i k) r)
    (fun r => by
      constructor
      · intro h
        obtain ⟨k, hk, hu, hp⟩ := (Finset.mem_filter.1 h).2
        exact ⟨k, Finset.mem_filter.2 ⟨mem_range.2 hk, hu⟩, hp⟩
      · rintro ⟨k, hk, hp⟩
        obtain ⟨hk1, hk2⟩ := Finset.mem_filter.1 hk
        refine Finset.mem_filter.2 ⟨mem_range.2 ?_, k, mem_range.1 hk1, hk2, hp⟩
        by_contra hge
        exact hp.1 (hA.zv_zero (by omega) k))
    (by
      rw [hset, ← Set.ncard_coe_finset]
      refine Eq.trans (congrArg _ ?_) (hrank j h1 h2)
      ext r
      refine ⟨fun h => (Finset.mem_filter.1 h).2, fun h => Finset.mem_filter.2 ⟨mem_range.2 ?_, h⟩⟩
      obtain ⟨k, -, -, hp⟩ := h
      by_contra hge
      exact hp.1 (hA.zv_zero (by omega) k))
    (by rw [hset]; exact hv) hr
  exact (Finset.mem_filter.1 this).2

/-- Columns `(1,1)`, `(2,2)` which share their pivot, and the target `(3,3)`: one pivot, rank one. -/
example : gaussColRad 5 (Mat.ofRows 3 [[1, 2, 3], [1, 2, 3]]) [0, 0, 0] 2 =
      .ok (Mat.ofRows 3 [[1, 2, 0], [1, 2, 0]], Mat.ofRows 3 [[1, 0, 2], [0, 1, 0], [0, 0, 1]]) ∧
    ∀ j, 2 ≤ j → j < 3 →
      {r | ∃ k < 2, Usable [(0 : ℤ), 0, 0] k j ∧
          IsPiv (fun i => (Mat.ofRows 3 [[1, 2, 3], [1, 2, 3]]).z 5 i k) r}.ncard =
        Module.finrank (ZMod 5) (Submodule.span (ZMod 5) {x | ∃ k < 2, Usable [(0 : ℤ), 0, 0] k j ∧
          (fun i => (Mat.ofRows 3 [[1, 2, 3], [1, 2, 3]]).z 5 i k) = x}) := by
  refine ⟨by decide, fun j h1 h2 => ?_⟩
  have hv : ∀ i < 2, (Mat.ofRows 3 [[1, 2, 3], [1, 2, 3]]).z 5 i 0 = 1 ∧
      (Mat.ofRows 3 [[1, 2, 3], [1, 2, 3]]).z 5 i 1 = 2 := by decide
  have h2' : (2 : ZMod 5) ≠ 0 ∧ (1 : ZMod 5) ≠ 0 := by decide
  have := Fact.mk (show Nat.Prime 5 by decide)
  obtain rfl : j = 2 := by omega
  have hu : ∀ k < 2, Usable [(0 : ℤ), 0, 0] k 2 := by
    intro k hk
    interval_cases k
    · exact ⟨0, 0, rfl, rfl, le_rfl⟩
    · exact ⟨0, 0, rfl, rfl, le_rfl⟩
  have hz : ∀ k < 2, ∀ i, 2 ≤ i → (Mat.ofRows 3 [[1, 2, 3], [1, 2, 3]]).z 5 i k = 0 := by
    intro k hk i hi
    obtain ⟨i, rfl⟩ := Nat.exists_eq_add_of_le hi
    interval_cases k <;> simp [Mat.z, Mat.get, Mat.ofRows, List.getD_eq_getElem?_getD, Nat.add_comm 2 i] <;> rfl
  generalize Mat.ofRows 3 [[1, 2, 3], [1, 2, 3]] = A at hv hz ⊢
  have h01 : (fun i => A.z 5 i 1) = (2 : ZMod 5) • fun i => A.z 5 i 0 := by
    funext i
    rcases lt_or_ge i 2 with hi | hi
    · rw [Pi.smul_apply, (hv i hi).1, (hv i hi).2, smul_eq_mul, mul_one]
    · rw [hz 1 (by omega) i hi, Pi.smul_apply, hz 0 (by omega) i hi, smul_zero]
  have hset : Submodule.span (ZMod 5) {x | ∃ k < 2, Usable [(0 : ℤ), 0, 0] k 2 ∧ (fun i => A.z 5 i k) = x} =
      Submodule.span (ZMod 5) {fun i => A.z 5 i 0} := by
    refine le_antisymm (Submodule.span_le.2 ?_) (Submodule.span_le.2 ?_)
    · rintro x ⟨k, hk, -, rfl⟩
      interval_cases k
      · exact Submodule.mem_span_singleton_self _
      · rw [h01]; exact Submodule.smul_mem _ _ (Submodule.mem_span_singleton_self _)
    · rintro x rfl
      exact Submodule.subset_span ⟨0, by omega, hu 0 (by omega), rfl⟩
  have h0 : (fun i => A.z 5 i 0) ≠ 0 := fun h => h2'.2 (by rw [← (hv 0 (by omega)).1]; exact congrFun h 0)
  rw [hset, finrank_span_singleton h0, Set.ncard_eq_one]
  refine ⟨1, Set.ext fun r => ⟨?_, ?_⟩⟩
  · rintro ⟨k, hk, -, h3, h4⟩
    dsimp only at h3 h4
    have hk1 : A.z 5 1 k ≠ 0 := by
      interval_cases k
      · rw [(hv 1 (by omega)).1]; exact h2'.2
      · rw [(hv 1 (by omega)).2]; exact h2'.1
    rcases lt_trichotomy r 1 with h | h | h
    · exact absurd (h4 1 h) hk1
    · exact h
    · exact absurd (hz k hk r (by omega)) h3
  · rintro rfl
    exact ⟨0, by omega, hu 0 (by omega), by dsimp only; rw [(hv 1 (by omega)).1]; exact h2'.2,
      fun i hi => hz 0 (by omega) i (by omega)⟩

/-- Columns `(1,1)`, `(1,0)` born at 0 and 2, target `(3,1)` born at 1 or at 2. -/
example : gaussColRad 5 (Mat.ofRows 3 [[1, 1, 3], [1, 0, 1]]) [0, 2, 2] 2 =
      .ok (Mat.ofRows 3 [[1, 1, 0], [1, 0, 0]], Mat.ofRows 3 [[1, 0, 4], [0, 1, 3], [0, 0, 1]]) ∧
    gaussColRad 5 (Mat.ofRows 3 [[1, 1, 3], [1, 0, 1]]) [0, 2, 1] 2 = .error .runtimeError := by
  decide

/-- Without the hypothesis on pivots the function is incomplete: `(1,0)` is the difference of
`(2,1)` and `(1,1)` but is not found, because the available columns are not reduced first. -/
theorem C13_gauss_col_rad_incomplete_in_general :
    gaussColRad 5 (Mat.ofRows 3 [[1, 2, 1], [1, 1, 0]]) [0, 0, 0] 2 = .error .runtimeError ∧
      ∀ i < 2, (Mat.ofRows 3 [[1, 2, 1], [1, 1, 0]]).z 5 i 2 =
        ∑ k ∈ range 2, (if k = 0 then -1 else 1) *
          (Mat.ofRows 3 [[1, 2, 1], [1, 1, 0]]).z 5 i k := by
  constructor
  · decide
  · intro i hi
    interval_cases i <;> decide

end Permaviss
