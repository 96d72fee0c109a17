import Verif.Lemmas.Vec
import Mathlib.LinearAlgebra.Pi
import Mathlib.LinearAlgebra.Prod
import Mathlib.Tactic.Abel
import Mathlib.Tactic.LinearCombination

/-! Correctness of the elimination loops. -/

namespace Permaviss

open Finset

variable {p : ℕ}

/-- The pair of vectors represented by a pair of lists. -/
def pz (p : ℕ) (rt : List Int × List Int) : (ℕ → ZMod p) × (ℕ → ZMod p) := (zv p rt.1, zv p rt.2)

/-- Shape and range of a pair `(R[j], T[j])`. -/
structure PairOK (p m n : ℕ) (rt : List Int × List Int) : Prop where
  len1 : rt.1.length = m
  len2 : rt.2.length = n
  red1 : RedL p rt.1
  red2 : RedL p rt.2

theorem cancelPivot_spec (hp : p.Prime) {m n pv : ℕ} {rtk rtj : List Int × List Int}
    (hk : PairOK p m n rtk) (hj : PairOK p m n rtj) (hpk : indexPivot rtk.1 = some pv) :
    ∃ rt', cancelPivot p pv rtk rtj = .ok rt' ∧ PairOK p m n rt' ∧
      (∃ c : ZMod p, pz p rt' = pz p rtj + c • pz p rtk) ∧ zv p rt'.1 pv = 0 ∧
      ∀ j, pv < j → zv p rt'.1 j = zv p rtj.1 j := by
  haveI := Fact.mk hp
  have hpos : 0 < p := hp.pos
  have hpiv := (hk.red1.indexPivot_some hpos).mp hpk
  have hnz : rtk.1.getD pv 0 ≠ 0 := (indexPivot_eq_some.mp hpk).1
  have hr := hk.red1.getD hpos pv
  obtain ⟨m', hm', h0, h1, h2⟩ := invModP_ok hp (a := rtk.1.getD pv 0) (by omega) hr.2
  unfold cancelPivot
  rw [hm']
  have l1 : rtj.1.length = (scale (-(rtj.1.getD pv 0 * m' % (p:Int))) rtk.1).length := by
    rw [length_scale, hj.len1, hk.len1]
  have l2 : rtj.2.length = (scale (-(rtj.1.getD pv 0 * m' % (p:Int))) rtk.2).length := by
    rw [length_scale, hj.len2, hk.len2]
  refine ⟨_, rfl, ⟨?_, ?_, redL_addArrays _ _ hpos, redL_addArrays _ _ hpos⟩, ?_, ?_, ?_⟩
  · simp [addArraysModC, length_scale, hj.len1, hk.len1]
  · simp [addArraysModC, length_scale, hj.len2, hk.len2]
  · refine ⟨((-(rtj.1.getD pv 0 * m' % (p:Int)) : Int) : ZMod p), ?_⟩
    simp only [pz]
    rw [zv_addArrays _ _ l1, zv_addArrays _ _ l2, zv_scale, zv_scale]
    rfl
  · simp only
    rw [zv_addArrays _ _ l1, zv_scale]
    simp only [Pi.add_apply, Pi.smul_apply, smul_eq_mul]
    push_cast
    simp only [zv]
    have : (m' : ZMod p) * ((rtk.1.getD pv 0 : Int) : ZMod p) = 1 := h2
    linear_combination (-((rtj.1.getD pv 0 : Int) : ZMod p)) * this
  · intro j hjj
    simp only
    rw [zv_addArrays _ _ l1, zv_scale]
    simp only [Pi.add_apply, Pi.smul_apply, smul_eq_mul, hpiv.2 j hjj, mul_zero, add_zero]

theorem reduceCol_spec (hp : p.Prime) {m n : ℕ} {done : List (List Int × List Int)}
    (hd : ∀ d ∈ done, PairOK p m n d) (fuel : ℕ) : ∀ rt, PairOK p m n rt → 0 < fuel →
    (∀ pv, indexPivot rt.1 = some pv → pv + 1 < fuel) →
    ∃ rt', reduceCol p done fuel rt = .ok rt' ∧ PairOK p m n rt' ∧
      pz p rt' - pz p rt ∈ Submodule.span (ZMod p) {x | ∃ d ∈ done, zv p d.1 ≠ 0 ∧ pz p d = x} ∧
      ∀ d ∈ done, ∀ pv, indexPivot rt'.1 = some pv → indexPivot d.1 ≠ some pv := by
  induction fuel with
  | zero => intro rt _ h; omega
  | succ k ih =>
    intro rt hrt _ hf
    unfold reduceCol
    cases hpv : indexPivot rt.1 with
    | none =>
      refine ⟨rt, rfl, hrt, by simp, ?_⟩
      intro d _ pv h; rw [hpv] at h; cases h
    | some pv =>
      simp only
      cases hfind : done.find? (fun k => indexPivot k.1 == some pv) with
      | none =>
        refine ⟨rt, rfl, hrt, by simp, ?_⟩
        intro d hdm pv' h
        rw [hpv] at h; cases h
        have := List.find?_eq_none.mp hfind d hdm
        simpa using this
      | some rtk =>
        have hmem := List.mem_of_find?_eq_some hfind
        have hpk : indexPivot rtk.1 = some pv := by
          have := List.find?_some hfind; simpa using this
        obtain ⟨rt1, h1, hok, ⟨c, hc⟩, h0, hz⟩ := cancelPivot_spec hp (hd _ hmem) hrt hpk
        have hpos := hp.pos
        have hpj := (hrt.red1.indexPivot_some hpos).mp hpv
        have hlt : ∀ pv', indexPivot rt1.1 = some pv' → pv' < pv := by
          intro pv' h
          have h2 := (hok.red1.indexPivot_some hpos).mp h
          by_contra hc
          rcases Nat.lt_or_ge pv pv' with h3 | h3
          · exact h2.1 (by rw [hz pv' h3]; exact hpj.2 pv' h3)
          · have : pv' = pv := by omega
            subst this; exact h2.1 h0
        have hfp := hf pv hpv
        obtain ⟨rt', h2, hok', hs, hq⟩ := ih rt1 hok (by omega)
          (fun pv' h => by have := hlt pv' h; omega)
        refine ⟨rt', ?_, hok', ?_, hq⟩
        · simp only [h1]; exact h2
        · have e : pz p rt' - pz p rt = (pz p rt' - pz p rt1) + c • pz p rtk := by
            rw [hc]; abel
          rw [e]
          exact Submodule.add_mem _ hs
            (Submodule.smul_mem _ _ (Submodule.subset_span ⟨rtk, hmem,
              ((hd _ hmem).red1.indexPivot_some hpos |>.mp hpk).ne_zero, rfl⟩))

/-- Linear combinations of a list of columns. -/
noncomputable def comb (p : ℕ) (cols : List (List Int)) :
    (ℕ → ZMod p) →ₗ[ZMod p] (ℕ → ZMod p) :=
  ∑ j ∈ range cols.length, (LinearMap.proj j).smulRight (zv p (cols.getD j []))

theorem comb_apply (cols : List (List Int)) (c : ℕ → ZMod p) :
    comb p cols c = ∑ j ∈ range cols.length, c j • zv p (cols.getD j []) := by
  simp [comb]

theorem comb_single (cols : List (List Int)) (j : ℕ) :
    comb p cols (Pi.single j 1) = zv p (cols.getD j []) := by
  rw [comb_apply]
  rcases lt_or_ge j cols.length with h | h
  · rw [Finset.sum_eq_single j]
    · simp
    · intro k _ hk; simp [Pi.single_apply, hk]
    · intro h'; exact absurd (mem_range.mpr h) h'
  · rw [Finset.sum_eq_zero]
    · simp [List.getD_eq_getElem?_getD, h]
    · intro k hk
      have : k ≠ j := by have := mem_range.mp hk; omega
      simp [Pi.single_apply, this]

/-- Invariant of the finished columns of `gauss_col`. -/
structure GOK (p m n : ℕ) (A : (ℕ → ZMod p) →ₗ[ZMod p] (ℕ → ZMod p))
    (rts : List (List Int × List Int)) : Prop where
  ok : ∀ rt ∈ rts, PairOK p m n rt
  graph : ∀ rt ∈ rts, zv p rt.1 = A (zv p rt.2)
  one : ∀ (j : ℕ) (h : j < rts.length), zv p (rts[j].2) j = 1
  upper : ∀ (j : ℕ) (h : j < rts.length), ∀ i, j < i → zv p (rts[j].2) i = 0
  tmem : ∀ (j : ℕ) (h : j < rts.length), zv p (rts[j].2) - Pi.single j 1 ∈
    Submodule.span (ZMod p)
      {x | ∃ (k : ℕ) (hk : k < rts.length), k < j ∧ zv p (rts[k].1) ≠ 0 ∧ zv p (rts[k].2) = x}
  piv : ∀ (i j : ℕ) (hi : i < rts.length) (hj : j < rts.length), i < j →
    ∀ pv, indexPivot (rts[j].1) = some pv → indexPivot (rts[i].1) ≠ some pv

theorem gaussLoop_spec (hp : p.Prime) {m n : ℕ} (A : (ℕ → ZMod p) →ₗ[ZMod p] (ℕ → ZMod p))
    (todo : List (List Int × List Int)) : ∀ done, GOK p m n A done →
    (∀ rt ∈ todo, PairOK p m n rt) →
    (∀ rt ∈ todo, zv p rt.1 = A (zv p rt.2)) →
    (∀ k (h : k < todo.length), zv p (todo[k].2) = Pi.single (done.length + k) 1) →
    ∃ rts, gaussLoop p done todo = .ok rts ∧ GOK p m n A rts ∧
      rts.length = done.length + todo.length ∧ ∃ tl, rts = done ++ tl := by
  induction todo with
  | nil => intro done hd _ _ _; exact ⟨done, rfl, hd, rfl, [], by simp⟩
  | cons rt todo ih =>
    intro done hd hok hg he
    have hrt := hok rt (by simp)
    obtain ⟨rt', h1, hok', hs, hq⟩ := reduceCol_spec hp hd.ok (rt.1.length + 1) rt hrt (by omega)
      (fun pv h => by have := indexPivot_lt h; omega)
    have hgr : zv p rt'.1 = A (zv p rt'.2) := by
      have hle : Submodule.span (ZMod p) {x | ∃ d ∈ done, zv p d.1 ≠ 0 ∧ pz p d = x} ≤
          LinearMap.ker ((A.comp (LinearMap.snd _ _ _)) - LinearMap.fst _ _ _) := by
        rw [Submodule.span_le]
        rintro x ⟨d, hdm, -, rfl⟩
        simp only [SetLike.mem_coe, LinearMap.mem_ker, LinearMap.sub_apply, LinearMap.comp_apply,
          LinearMap.snd_apply, LinearMap.fst_apply, pz, hd.graph d hdm, sub_self]
      have := hle hs
      simp only [LinearMap.mem_ker, LinearMap.sub_apply, LinearMap.comp_apply,
          LinearMap.snd_apply, LinearMap.fst_apply, pz, Prod.fst_sub, Prod.snd_sub, map_sub,
          hg rt (by simp)] at this
      have h3 := sub_eq_zero.mp this
      rw [sub_self, sub_eq_zero] at h3
      exact h3.symm
    have htri : ∀ i, done.length ≤ i → zv p rt'.2 i = zv p rt.2 i := by
      intro i hi
      have hle : Submodule.span (ZMod p) {x | ∃ d ∈ done, zv p d.1 ≠ 0 ∧ pz p d = x} ≤
          LinearMap.ker ((LinearMap.proj (R := ZMod p) (φ := fun _ : ℕ => ZMod p) i).comp
            (LinearMap.snd (ZMod p) (ℕ → ZMod p) _)) := by
        rw [Submodule.span_le]
        rintro x ⟨d, hdm, -, rfl⟩
        obtain ⟨k, hk, rfl⟩ := List.getElem_of_mem hdm
        simp only [SetLike.mem_coe, LinearMap.mem_ker, LinearMap.comp_apply,
          LinearMap.snd_apply, LinearMap.proj_apply, pz]
        exact hd.upper k hk i (by omega)
      have := hle hs
      simp only [LinearMap.mem_ker, LinearMap.comp_apply,
          LinearMap.snd_apply, LinearMap.proj_apply, pz, Prod.snd_sub, Pi.sub_apply] at this
      exact sub_eq_zero.mp this
    have he0 : zv p rt.2 = Pi.single done.length 1 := by
      have := he 0 (by simp); simpa using this
    have hd' : GOK p m n A (done ++ [rt']) := by
      refine ⟨?_, ?_, ?_, ?_, ?_, ?_⟩
      · intro x hx
        rcases List.mem_append.mp hx with h | h
        · exact hd.ok x h
        · simp at h; subst h; exact hok'
      · intro x hx
        rcases List.mem_append.mp hx with h | h
        · exact hd.graph x h
        · simp at h; subst h; exact hgr
      · intro j hj
        rcases Nat.lt_or_ge j done.length with h | h
        · rw [List.getElem_append_left h]; exact hd.one j h
        · have : j = done.length := by simp at hj; omega
          subst this
          simp only [List.getElem_concat_length]
          rw [htri _ (le_refl _), he0]; simp
      · intro j hj i hi
        rcases Nat.lt_or_ge j done.length with h | h
        · rw [List.getElem_append_left h]; exact hd.upper j h i hi
        · have : j = done.length := by simp at hj; omega
          subst this
          simp only [List.getElem_concat_length]
          rw [htri _ (by omega), he0]
          simp [Pi.single_apply]; omega
      · intro j hj
        have key : ∀ J, J ≤ done.length → {x | ∃ (k : ℕ) (hk : k < done.length), k < J ∧
              zv p (done[k].1) ≠ 0 ∧ zv p (done[k].2) = x} ⊆
            {x | ∃ (k : ℕ) (hk : k < (done ++ [rt']).length), k < J ∧
              zv p ((done ++ [rt'])[k].1) ≠ 0 ∧ zv p ((done ++ [rt'])[k].2) = x} := by
          rintro J hJ x ⟨k, hk, h1, h2, h3⟩
          refine ⟨k, by simp; omega, h1, ?_, ?_⟩
          · rw [List.getElem_append_left hk]; exact h2
          · rw [List.getElem_append_left hk]; exact h3
        rcases Nat.lt_or_ge j done.length with h | h
        · rw [List.getElem_append_left h]
          exact Submodule.span_mono (key j h.le) (hd.tmem j h)
        · have : j = done.length := by simp at hj; omega
          subst this
          simp only [List.getElem_concat_length]
          rw [← he0]
          apply Submodule.span_mono (key _ le_rfl)
          have hle : Submodule.span (ZMod p) {x | ∃ d ∈ done, zv p d.1 ≠ 0 ∧ pz p d = x} ≤
              Submodule.comap (LinearMap.snd (ZMod p) (ℕ → ZMod p) (ℕ → ZMod p))
                (Submodule.span (ZMod p) {x | ∃ (k : ℕ) (hk : k < done.length), k < done.length ∧
                  zv p (done[k].1) ≠ 0 ∧ zv p (done[k].2) = x}) := by
            rw [Submodule.span_le]
            rintro x ⟨d, hdm, hne, rfl⟩
            obtain ⟨k, hk, rfl⟩ := List.getElem_of_mem hdm
            exact Submodule.subset_span ⟨k, hk, hk, hne, rfl⟩
          exact hle hs
      · intro i j hi hj hij pv
        simp at hi hj
        rcases Nat.lt_or_ge j done.length with h | h
        · rw [List.getElem_append_left h, List.getElem_append_left (by omega)]
          exact hd.piv i j (by omega) h hij pv
        · have : j = done.length := by omega
          subst this
          simp only [List.getElem_concat_length]
          rw [List.getElem_append_left (by omega)]
          intro hpv
          exact hq _ (List.getElem_mem _) pv hpv
    obtain ⟨rts, h2, h3, h4, tl, h5⟩ := ih (done ++ [rt']) hd' (fun x hx => hok x (by simp [hx]))
      (fun x hx => hg x (by simp [hx]))
      (fun k hk => by
        have := he (k + 1) (by simpa using hk)
        simp only [List.getElem_cons_succ] at this
        rw [this]; congr 1; simp; omega)
    refine ⟨rts, ?_, h3, ?_, rt' :: tl, ?_⟩
    · unfold gaussLoop; simp only [h1]; exact h2
    · rw [h4]; simp; omega
    · rw [h5]; simp

theorem length_identityCols (N : ℕ) : (identityCols N).length = N := by simp [identityCols]

theorem identityCols_getElem {N j : ℕ} (h : j < (identityCols N).length) :
    (identityCols N)[j] = (List.range N).map fun i => if i = j then 1 else 0 := by
  simp [identityCols]

theorem zv_identityCols {N j : ℕ} (h : j < (identityCols N).length) :
    zv p ((identityCols N)[j]) = Pi.single j 1 := by
  rw [identityCols_getElem]
  have hj : j < N := by simpa [identityCols] using h
  funext i
  simp only [zv]
  rcases Nat.lt_or_ge i N with hi | hi
  · rw [List_getD_eq_getElem _ _ (by simpa using hi)]
    simp only [List.getElem_map, List.getElem_range, Pi.single_apply]
    split <;> simp
  · rw [getD_eq_zero_of_le _ (by simpa using hi)]
    simp [Pi.single_apply]; omega

theorem redL_identityCols {N j : ℕ} (hp : 2 ≤ p) (h : j < (identityCols N).length) :
    RedL p ((identityCols N)[j]) := by
  rw [identityCols_getElem]
  intro x hx
  simp only [List.mem_map] at hx
  obtain ⟨i, -, rfl⟩ := hx
  split <;> omega

/-- `gauss_col` succeeds on reduced input, with all its postconditions. -/
theorem gaussCol_spec (hp : p.Prime) (A : Mat) (hA : A.WellShaped) (hr : A.Reduced p)
    (hpos : A.nrows ≠ 0) :
    ∃ rts, gaussCol p A =
        .ok (⟨A.nrows, rts.map Prod.fst⟩, ⟨A.cols.length, rts.map Prod.snd⟩) ∧
      rts.length = A.cols.length ∧ GOK p A.nrows A.cols.length (comb p A.cols) rts := by
  set todo := A.cols.zip (identityCols A.cols.length) with htodo
  have hlen : todo.length = A.cols.length := by simp [htodo, length_identityCols]
  have hget : ∀ k (h : k < todo.length), todo[k] =
      (A.cols[k]'(by omega), (identityCols A.cols.length)[k]'(by rw [length_identityCols]; omega)) := by
    intro k h; simp [htodo]
  have hok : ∀ rt ∈ todo, PairOK p A.nrows A.cols.length rt := by
    intro rt hrt
    obtain ⟨k, hk, rfl⟩ := List.getElem_of_mem hrt
    rw [hget k hk]
    refine ⟨hA _ (List.getElem_mem _), ?_, hr _ (List.getElem_mem _), redL_identityCols hp.two_le _⟩
    rw [identityCols_getElem]; simp
  obtain ⟨rts, h1, h2, h3, -⟩ := gaussLoop_spec hp (comb p A.cols) todo []
    ⟨by simp, by simp, by simp, by simp, by simp, by simp⟩ hok
    (by
      intro rt hrt
      obtain ⟨k, hk, rfl⟩ := List.getElem_of_mem hrt
      rw [hget k hk]
      simp only
      rw [zv_identityCols, comb_single, List_getD_eq_getElem])
    (by
      intro k hk
      rw [hget k hk]
      simp only
      rw [zv_identityCols]; simp)
  refine ⟨rts, ?_, by simpa [hlen] using h3, h2⟩
  unfold gaussCol
  rw [if_neg hpos, ← htodo, h1]
  rfl

end Permaviss
