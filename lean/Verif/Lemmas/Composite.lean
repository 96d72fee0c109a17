import Verif.Lemmas.Gauss

/-! The elimination loops for a modulus which need not be prime. -/

namespace Permaviss

open Finset

variable {p : ℕ}

theorem cancelPivot_any (hp : 2 ≤ p) {m n pv : ℕ} {rtk rtj : List Int × List Int}
    (hk : PairOK p m n rtk) (hj : PairOK p m n rtj) (hpk : indexPivot rtk.1 = some pv) :
    cancelPivot p pv rtk rtj = .error .valueError ∨ ∃ rt', cancelPivot p pv rtk rtj = .ok rt' ∧ PairOK p m n rt' ∧
      (∃ c : ZMod p, pz p rt' = pz p rtj + c • pz p rtk) ∧ zv p rt'.1 pv = 0 ∧
      ∀ j, pv < j → zv p rt'.1 j = zv p rtj.1 j := by
  have hpos : 0 < p := by omega
  have hpiv := (hk.red1.indexPivot_some hpos).mp hpk
  have hnz : rtk.1.getD pv 0 ≠ 0 := (indexPivot_eq_some.mp hpk).1
  have hr := hk.red1.getD hpos pv
  have hpp := invModP_pos hp (a := rtk.1.getD pv 0) (by omega)
  by_cases hg : Int.gcd (rtk.1.getD pv 0) p = 1
  swap
  · left; unfold cancelPivot; rw [hpp.2 hg]; rfl
  right
  obtain ⟨m', hm', h0, h1, hdv⟩ := hpp.1 hg
  have h2 : (m' : ZMod p) * ((rtk.1.getD pv 0 : Int) : ZMod p) = 1 := by
    have := (ZMod.intCast_zmod_eq_zero_iff_dvd _ _).mpr hdv
    push_cast at this
    exact sub_eq_zero.mp this
  unfold cancelPivot
  rw [hm']
  have l1 : rtj.1.length = (scale (-(rtj.1.getD pv 0 * m' % (p:Int))) rtk.1).length := by
    rw [length_scale, hj.len1, hk.len1]
  have l2 : rtj.2.length = (scale (-(rtj.1.getD pv 0 * m' % (p:Int))) rtk.2).length := by
    rw [length_scale, hj.len2, hk.len2]
  refine ⟨_, rfl, ⟨?_, ?_, redL_addArrays _ _ hpos, redL_addArrays _ _ hpos⟩, ?_, ?_, ?_⟩
  · simp [addArraysModC, length_scale, hj.len1, hk.len1]
  · simp [addArraysModC, length_scale, hj.len2, hk.len2]
  · refine ⟨((-(rtj.1.getD pv 0 * m' % (p:Int)) : Int) : ZMod p), ?_⟩
    simp only [pz]
    rw [zv_addArrays _ _ l1, zv_addArrays _ _ l2, zv_scale, zv_scale]
    rfl
  · simp only
    rw [zv_addArrays _ _ l1, zv_scale]
    simp only [Pi.add_apply, Pi.smul_apply, smul_eq_mul]
    push_cast
    simp only [zv]
    have : (m' : ZMod p) * ((rtk.1.getD pv 0 : Int) : ZMod p) = 1 := h2
    linear_combination (-((rtj.1.getD pv 0 : Int) : ZMod p)) * this
  · intro j hjj
    simp only
    rw [zv_addArrays _ _ l1, zv_scale]
    simp only [Pi.add_apply, Pi.smul_apply, smul_eq_mul, hpiv.2 j hjj, mul_zero, add_zero]

theorem reduceCol_any (hp : 2 ≤ p) {m n : ℕ} {done : List (List Int × List Int)}
    (hd : ∀ d ∈ done, PairOK p m n d) (fuel : ℕ) : ∀ rt, PairOK p m n rt → 0 < fuel →
    (∀ pv, indexPivot rt.1 = some pv → pv + 1 < fuel) →
    reduceCol p done fuel rt = .error .valueError ∨ ∃ rt', reduceCol p done fuel rt = .ok rt' ∧ PairOK p m n rt' ∧
      pz p rt' - pz p rt ∈ Submodule.span (ZMod p) {x | ∃ d ∈ done, zv p d.1 ≠ 0 ∧ pz p d = x} ∧
      ∀ d ∈ done, ∀ pv, indexPivot rt'.1 = some pv → indexPivot d.1 ≠ some pv := by
  induction fuel with
  | zero => intro rt _ h; omega
  | succ k ih =>
    intro rt hrt _ hf
    unfold reduceCol
    cases hpv : indexPivot rt.1 with
    | none =>
      refine Or.inr ⟨rt, rfl, hrt, by simp, ?_⟩
      intro d _ pv h; rw [hpv] at h; cases h
    | some pv =>
      simp only
      cases hfind : done.find? (fun k => indexPivot k.1 == some pv) with
      | none =>
        refine Or.inr ⟨rt, rfl, hrt, by simp, ?_⟩
        intro d hdm pv' h
        rw [hpv] at h; cases h
        have := List.find?_eq_none.mp hfind d hdm
        simpa using this
      | some rtk =>
        have hmem := List.mem_of_find?_eq_some hfind
        have hpk : indexPivot rtk.1 = some pv := by
          have := List.find?_some hfind; simpa using this
        rcases cancelPivot_any hp (hd _ hmem) hrt hpk with h1 | ⟨rt1, h1, hok, ⟨c, hc⟩, h0, hz⟩
        · left; simp only [h1]; rfl
        have hpos : 0 < p := by omega
        have hpj := (hrt.red1.indexPivot_some hpos).mp hpv
        have hlt : ∀ pv', indexPivot rt1.1 = some pv' → pv' < pv := by
          intro pv' h
          have h2 := (hok.red1.indexPivot_some hpos).mp h
          by_contra hc
          rcases Nat.lt_or_ge pv pv' with h3 | h3
          · exact h2.1 (by rw [hz pv' h3]; exact hpj.2 pv' h3)
          · have : pv' = pv := by omega
            subst this; exact h2.1 h0
        have hfp := hf pv hpv
        rcases ih rt1 hok (by omega)
          (fun pv' h => by have := hlt pv' h; omega) with h2 | ⟨rt', h2, hok', hs, hq⟩
        · left; simp only [h1]; exact h2
        refine Or.inr ⟨rt', ?_, hok', ?_, hq⟩
        · simp only [h1]; exact h2
        · have e : pz p rt' - pz p rt = (pz p rt' - pz p rt1) + c • pz p rtk := by
            rw [hc]; abel
          rw [e]
          exact Submodule.add_mem _ hs
            (Submodule.smul_mem _ _ (Submodule.subset_span ⟨rtk, hmem,
              ((hd _ hmem).red1.indexPivot_some hpos |>.mp hpk).ne_zero, rfl⟩))

theorem gaussLoop_any (hp : 2 ≤ p) {m n : ℕ} (A : (ℕ → ZMod p) →ₗ[ZMod p] (ℕ → ZMod p))
    (todo : List (List Int × List Int)) : ∀ done, GOK p m n A done →
    (∀ rt ∈ todo, PairOK p m n rt) →
    (∀ rt ∈ todo, zv p rt.1 = A (zv p rt.2)) →
    (∀ k (h : k < todo.length), zv p (todo[k].2) = Pi.single (done.length + k) 1) →
    gaussLoop p done todo = .error .valueError ∨ ∃ rts, gaussLoop p done todo = .ok rts ∧ GOK p m n A rts ∧
      rts.length = done.length + todo.length ∧ ∃ tl, rts = done ++ tl := by
  induction todo with
  | nil => intro done hd _ _ _; exact Or.inr ⟨done, rfl, hd, rfl, [], by simp⟩
  | cons rt todo ih =>
    intro done hd hok hg he
    have hrt := hok rt (by simp)
    rcases reduceCol_any hp hd.ok (rt.1.length + 1) rt hrt (by omega)
      (fun pv h => by have := indexPivot_lt h; omega) with h1 | ⟨rt', h1, hok', hs, hq⟩
    · left; unfold gaussLoop; simp only [h1]; rfl
    have hgr : zv p rt'.1 = A (zv p rt'.2) := by
      have hle : Submodule.span (ZMod p) {x | ∃ d ∈ done, zv p d.1 ≠ 0 ∧ pz p d = x} ≤
          LinearMap.ker ((A.comp (LinearMap.snd _ _ _)) - LinearMap.fst _ _ _) := by
        rw [Submodule.span_le]
        rintro x ⟨d, hdm, -, rfl⟩
        simp only [SetLike.mem_coe, LinearMap.mem_ker, LinearMap.sub_apply, LinearMap.comp_apply,
          LinearMap.snd_apply, LinearMap.fst_apply, pz, hd.graph d hdm, sub_self]
      have := hle hs
      simp only [LinearMap.mem_ker, LinearMap.sub_apply, LinearMap.comp_apply,
          LinearMap.snd_apply, LinearMap.fst_apply, pz, Prod.fst_sub, Prod.snd_sub, map_sub,
          hg rt (by simp)] at this
      have h3 := sub_eq_zero.mp this
      rw [sub_self, sub_eq_zero] at h3
      exact h3.symm
    have htri : ∀ i, done.length ≤ i → zv p rt'.2 i = zv p rt.2 i := by
      intro i hi
      have hle : Submodule.span (ZMod p) {x | ∃ d ∈ done, zv p d.1 ≠ 0 ∧ pz p d = x} ≤
          LinearMap.ker ((LinearMap.proj (R := ZMod p) (φ := fun _ : ℕ => ZMod p) i).comp
            (LinearMap.snd (ZMod p) (ℕ → ZMod p) _)) := by
        rw [Submodule.span_le]
        rintro x ⟨d, hdm, -, rfl⟩
        obtain ⟨k, hk, rfl⟩ := List.getElem_of_mem hdm
        simp only [SetLike.mem_coe, LinearMap.mem_ker, LinearMap.comp_apply,
          LinearMap.snd_apply, LinearMap.proj_apply, pz]
        exact hd.upper k hk i (by omega)
      have := hle hs
      simp only [LinearMap.mem_ker, LinearMap.comp_apply,
          LinearMap.snd_apply, LinearMap.proj_apply, pz, Prod.snd_sub, Pi.sub_apply] at this
      exact sub_eq_zero.mp this
    have he0 : zv p rt.2 = Pi.single done.length 1 := by
      have := he 0 (by simp); simpa using this
    have hd' : GOK p m n A (done ++ [rt']) := by
      refine ⟨?_, ?_, ?_, ?_, ?_, ?_⟩
      · intro x hx
        rcases List.mem_append.mp hx with h | h
        · exact hd.ok x h
        · simp at h; subst h; exact hok'
      · intro x hx
        rcases List.mem_append.mp hx with h | h
        · exact hd.graph x h
        · simp at h; subst h; exact hgr
      · intro j hj
        rcases Nat.lt_or_ge j done.length with h | h
        · rw [List.getElem_append_left h]; exact hd.one j h
        · have : j = done.length := by simp at hj; omega
          subst this
          simp only [List.getElem_concat_length]
          rw [htri _ (le_refl _), he0]; simp
      · intro j hj i hi
        rcases Nat.lt_or_ge j done.length with h | h
        · rw [List.getElem_append_left h]; exact hd.upper j h i hi
        · have : j = done.length := by simp at hj; omega
          subst this
          simp only [List.getElem_concat_length]
          rw [htri _ (by omega), he0]
          simp [Pi.single_apply]; omega
      · intro j hj
        have key : ∀ J, J ≤ done.length → {x | ∃ (k : ℕ) (hk : k < done.length), k < J ∧
              zv p (done[k].1) ≠ 0 ∧ zv p (done[k].2) = x} ⊆
            {x | ∃ (k : ℕ) (hk : k < (done ++ [rt']).length), k < J ∧
              zv p ((done ++ [rt'])[k].1) ≠ 0 ∧ zv p ((done ++ [rt'])[k].2) = x} := by
          rintro J hJ x ⟨k, hk, h1, h2, h3⟩
          refine ⟨k, by simp; omega, h1, ?_, ?_⟩
          · rw [List.getElem_append_left hk]; exact h2
          · rw [List.getElem_append_left hk]; exact h3
        rcases Nat.lt_or_ge j done.length with h | h
        · rw [List.getElem_append_left h]
          exact Submodule.span_mono (key j h.le) (hd.tmem j h)
        · have : j = done.length := by simp at hj; omega
          subst this
          simp only [List.getElem_concat_length]
          rw [← he0]
          apply Submodule.span_mono (key _ le_rfl)
          have hle : Submodule.span (ZMod p) {x | ∃ d ∈ done, zv p d.1 ≠ 0 ∧ pz p d = x} ≤
              Submodule.comap (LinearMap.snd (ZMod p) (ℕ → ZMod p) (ℕ → ZMod p))
                (Submodule.span (ZMod p) {x | ∃ (k : ℕ) (hk : k < done.length), k < done.length ∧
                  zv p (done[k].1) ≠ 0 ∧ zv p (done[k].2) = x}) := by
            rw [Submodule.span_le]
            rintro x ⟨d, hdm, hne, rfl⟩
            obtain ⟨k, hk, rfl⟩ := List.getElem_of_mem hdm
            exact Submodule.subset_span ⟨k, hk, hk, hne, rfl⟩
          exact hle hs
      · intro i j hi hj hij pv
        simp at hi hj
        rcases Nat.lt_or_ge j done.length with h | h
        · rw [List.getElem_append_left h, List.getElem_append_left (by omega)]
          exact hd.piv i j (by omega) h hij pv
        · have : j = done.length := by omega
          subst this
          simp only [List.getElem_concat_length]
          rw [List.getElem_append_left (by omega)]
          intro hpv
          exact hq _ (List.getElem_mem _) pv hpv
    rcases ih (done ++ [rt']) hd' (fun x hx => hok x (by simp [hx]))
      (fun x hx => hg x (by simp [hx]))
      (fun k hk => by
        have := he (k + 1) (by simpa using hk)
        simp only [List.getElem_cons_succ] at this
        rw [this]; congr 1; simp; omega) with h2 | ⟨rts, h2, h3, h4, tl, h5⟩
    · left; unfold gaussLoop; simp only [h1]; exact h2
    refine Or.inr ⟨rts, ?_, h3, ?_, rt' :: tl, ?_⟩
    · unfold gaussLoop; simp only [h1]; exact h2
    · rw [h4]; simp; omega
    · rw [h5]; simp

/-- `gauss_col` on reduced input, for any modulus: a `ValueError` or all the postconditions. -/
theorem gaussCol_any (hp : 2 ≤ p) (A : Mat) (hA : A.WellShaped) (hr : A.Reduced p)
    (hpos : A.nrows ≠ 0) :
    gaussCol p A = .error .valueError ∨ ∃ rts, gaussCol p A =
        .ok (⟨A.nrows, rts.map Prod.fst⟩, ⟨A.cols.length, rts.map Prod.snd⟩) ∧
      rts.length = A.cols.length ∧ GOK p A.nrows A.cols.length (comb p A.cols) rts := by
  set todo := A.cols.zip (identityCols A.cols.length) with htodo
  have hlen : todo.length = A.cols.length := by simp [htodo, length_identityCols]
  have hget : ∀ k (h : k < todo.length), todo[k] =
      (A.cols[k]'(by omega), (identityCols A.cols.length)[k]'(by rw [length_identityCols]; omega)) := by
    intro k h; simp [htodo]
  have hok : ∀ rt ∈ todo, PairOK p A.nrows A.cols.length rt := by
    intro rt hrt
    obtain ⟨k, hk, rfl⟩ := List.getElem_of_mem hrt
    rw [hget k hk]
    refine ⟨hA _ (List.getElem_mem _), ?_, hr _ (List.getElem_mem _), redL_identityCols hp _⟩
    rw [identityCols_getElem]; simp
  rcases gaussLoop_any hp (comb p A.cols) todo []
    ⟨by simp, by simp, by simp, by simp, by simp, by simp⟩ hok
    (by
      intro rt hrt
      obtain ⟨k, hk, rfl⟩ := List.getElem_of_mem hrt
      rw [hget k hk]
      simp only
      rw [zv_identityCols, comb_single, List_getD_eq_getElem])
    (by
      intro k hk
      rw [hget k hk]
      simp only
      rw [zv_identityCols]; simp) with h1 | ⟨rts, h1, h2, h3, -⟩
  · left; unfold gaussCol; rw [if_neg hpos, ← htodo, h1]; rfl
  refine Or.inr ⟨rts, ?_, by simpa [hlen] using h3, h2⟩
  unfold gaussCol
  rw [if_neg hpos, ← htodo, h1]
  rfl

end Permaviss
