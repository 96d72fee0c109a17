import Verif.Props.GaussRad

/-!
# `gauss_col_rad` only uses the first of the columns with a given pivot
-/

namespace Permaviss

open Finset

variable {p : ℕ} {α : Type} [LinearOrder α]

/-- The columns usable for a target of radius `rj` which are the first ones with pivot `pv`. -/
def FirstElig (p : ℕ) (rj : α) (done : List (α × (List Int × List Int))) (pv : ℕ) :
    Set ((ℕ → ZMod p) × (ℕ → ZMod p)) :=
  {x | ∃ (i : ℕ) (k : α × (List Int × List Int)), done[i]? = some k ∧ k.1 ≤ rj ∧ indexPivot k.2.1 = some pv ∧ pz p k.2 = x ∧
    ∀ j < i, ∀ k' : α × (List Int × List Int), done[j]? = some k' →
      ¬ (k'.1 ≤ rj ∧ indexPivot k'.2.1 = some pv)}

theorem radScan_zero (hp : p.Prime) {m n pv : ℕ} (rj : α) (done : List (α × (List Int × List Int))) :
    (∀ k ∈ done, PairOK p m n k.2) → ∀ rt, PairOK p m n rt → zv p rt.1 = 0 →
    ∃ rt', radScan p rj pv done rt = .ok rt' ∧ PairOK p m n rt' ∧ pz p rt' = pz p rt := by
  have := Fact.mk hp
  induction done with
  | nil => intro _ rt h _; exact ⟨rt, rfl, h, rfl⟩
  | cons k ks ih =>
    intro hok rt hrt hz
    have hks : ∀ k ∈ ks, PairOK p m n k.2 := fun k' h => hok k' (by simp [h])
    unfold radScan
    by_cases hm : k.1 ≤ rj ∧ indexPivot k.2.1 = some pv
    · rw [if_pos hm]
      obtain ⟨rt1, h1, hok1, ⟨c, hc⟩, h0, hab⟩ := cancelPivot_spec hp (hok k (by simp)) hrt hm.2
      have hpiv := ((hok k (by simp)).red1.indexPivot_some hp.pos).mp hm.2
      have hc0 : c = 0 := by
        have := congrFun (congrArg Prod.fst hc) pv
        simp only [pz, Prod.fst_add, Prod.smul_fst, Pi.add_apply, Pi.smul_apply, smul_eq_mul, hz,
          Pi.zero_apply, zero_add, h0] at this
        exact (mul_eq_zero.1 this.symm).resolve_right hpiv.1
      have he : pz p rt1 = pz p rt := by rw [hc, hc0, zero_smul, add_zero]
      have hz1 : zv p rt1.1 = 0 := (congrArg Prod.fst he).trans hz
      rw [h1]
      simp only [bind, Except.bind]
      split
      · exact ⟨rt1, rfl, hok1, he⟩
      · obtain ⟨rt2, g1, g2, g3⟩ := ih hks rt1 hok1 hz1
        exact ⟨rt2, g1, g2, g3.trans he⟩
    · rw [if_neg hm]; exact ih hks rt hrt hz

theorem radScan_first (hp : p.Prime) {m n pv : ℕ} (rj : α) (done : List (α × (List Int × List Int))) :
    (∀ k ∈ done, PairOK p m n k.2) → ∀ rt rt', PairOK p m n rt →
    radScan p rj pv done rt = .ok rt' →
    pz p rt' - pz p rt ∈ Submodule.span (ZMod p) (FirstElig p rj done pv) := by
  induction done with
  | nil =>
    intro _ rt rt' _ h
    cases h
    rw [sub_self]; exact Submodule.zero_mem _
  | cons k ks ih =>
    intro hok rt rt' hrt h
    have hks : ∀ k ∈ ks, PairOK p m n k.2 := fun k' h => hok k' (by simp [h])
    unfold radScan at h
    by_cases hm : k.1 ≤ rj ∧ indexPivot k.2.1 = some pv
    · rw [if_pos hm] at h
      obtain ⟨rt1, h1, hok1, ⟨c, hc⟩, h0, hab⟩ := cancelPivot_spec hp (hok k (by simp)) hrt hm.2
      have hmem1 : pz p rt1 - pz p rt ∈ Submodule.span (ZMod p) (FirstElig p rj (k :: ks) pv) := by
        rw [hc, add_sub_cancel_left]
        exact Submodule.smul_mem _ _ (Submodule.subset_span ⟨0, k, rfl, hm.1, hm.2, rfl, by simp⟩)
      rw [h1] at h
      simp only [bind, Except.bind] at h
      split at h
      · cases h; exact hmem1
      · next hn =>
        have hz1 : zv p rt1.1 = 0 := by
          funext i
          refine (hok1.red1.zv_eq_zero hp.pos i).mpr ?_
          by_contra hc
          apply hn
          unfold npAny
          rw [List.any_eq_true]
          have hi : i < rt1.1.length := by
            by_contra hi
            exact hc (getD_eq_zero_of_le _ (by omega))
          rw [List_getD_eq_getElem _ _ hi] at hc
          exact ⟨_, List.getElem_mem hi, by simpa using hc⟩
        obtain ⟨rt2, g1, -, g3⟩ := radScan_zero hp (pv := pv) rj ks hks rt1 hok1 hz1
        rw [h] at g1
        cases g1
        rw [g3]; exact hmem1
    · rw [if_neg hm] at h
      refine Submodule.span_mono ?_ (ih hks rt rt' hrt h)
      rintro x ⟨i, k', h1, h2, h3, h4, h5⟩
      refine ⟨i + 1, k', h1, h2, h3, h4, ?_⟩
      intro j hj k'' hk''
      cases j with
      | zero =>
        simp only [List.getElem?_cons_zero, Option.some.injEq] at hk''
        subst hk''; exact hm
      | succ j => exact h5 j (by omega) k'' hk''

theorem radLoop_first (hp : p.Prime) {m n : ℕ} (rj : α)
    (done : List (α × (List Int × List Int))) (hd : ∀ k ∈ done, PairOK p m n k.2) (fuel : ℕ) :
    ∀ rt rt', PairOK p m n rt → radLoop p rj done fuel rt = .ok rt' →
      pz p rt' - pz p rt ∈ Submodule.span (ZMod p) (⋃ pv, FirstElig p rj done pv) := by
  induction fuel with
  | zero => intro rt rt' _ h; cases h
  | succ f ih =>
    intro rt rt' hrt h
    unfold radLoop at h
    cases hpv : indexPivot rt.1 with
    | none =>
      rw [hpv] at h
      cases h
      rw [sub_self]; exact Submodule.zero_mem _
    | some pv =>
      rw [hpv] at h
      simp only at h
      have hpiv := (hrt.red1.indexPivot_some hp.pos).mp hpv
      obtain ⟨rt1, h1, hok1, -, -, -, -⟩ := radScan_spec hp rj done hd rt hrt hpiv.2
      have hf := radScan_first hp rj done hd rt rt1 hrt h1
      rw [h1] at h
      simp only [bind, Except.bind] at h
      split at h
      · cases h
      · have := ih rt1 rt' hok1 h
        have e : pz p rt' - pz p rt = (pz p rt' - pz p rt1) + (pz p rt1 - pz p rt) := by abel
        rw [e]
        exact Submodule.add_mem _ this (Submodule.span_mono (Set.subset_iUnion _ pv) hf)

/-- A column which comes after a usable column with the same pivot is not used. -/
theorem gaussColRad_first (hp : p.Prime) {A Red T : Mat} {R : List α} {start : ℕ}
    (hA : A.WellShaped) (hR : R.length = A.ncols) (hs : start ≤ A.ncols)
    (h : gaussColRad p A R start = .ok (Red, T)) {j k k' pv : ℕ} (hj1 : start ≤ j) (hj2 : j < A.ncols)
    (hk : k < start) (hkk : k' < k) (hu : Usable R k' j) (h1 : IsPiv (colv p A k) pv)
    (h2 : IsPiv (colv p A k') pv) : T.get k j = 0 := by
  have hl := radAll_length (p := p) A R hR
  have hok := radAll_ok A R hR hp hA
  unfold gaussColRad at h
  simp only [bind, Except.bind] at h
  split at h
  · cases h
  rename_i out hout
  simp only [pure, Except.pure, Except.ok.injEq, Prod.mk.injEq] at h
  obtain ⟨rfl, rfl⟩ := h
  obtain ⟨ho1, ho2⟩ := mapM_ok_spec hout
  rw [List.length_drop, hl] at ho1
  have hlen1 : (((radAll p A R).take start).map Prod.snd).length = start := by
    simp [hl]; omega
  have hjo : j - start < out.length := by omega
  have hjd : j - start < ((radAll p A R).drop start).length := by simp [hl]; omega
  have hrun := ho2 (j - start) hjd hjo
  rw [List.getElem_drop] at hrun
  have hjj : start + (j - start) = j := by omega
  simp only [hjj] at hrun
  obtain ⟨rj, hrj, e⟩ := radAll_get A R hR (p := p) (j := j) (by omega)
  have hokj := hok _ (List.getElem_mem (l := radAll p A R) (n := j) (by omega))
  have hpzj := radAll_pz A R hR (p := p) (j := j) (by omega)
  have hrad : (radAll p A R)[j].1 = rj := by rw [e]
  rw [hrad] at hrun
  have hgetT : (⟨A.cols.length, ((((radAll p A R).take start).map Prod.snd ++ out).map
      Prod.snd)⟩ : Mat).get k j = (out[j - start].2).getD k 0 := by
    simp only [Mat.get]
    congr 1
    rw [List_getD_eq_getElem _ _ (by simp [hl]; omega), List.getElem_map,
      List.getElem_append_right (by omega)]
    simp only [hlen1]
  have hdone : ∀ x ∈ (radAll p A R).take start, PairOK p A.nrows A.cols.length x.2 :=
    fun x hx => hok x (List.mem_of_mem_take hx)
  obtain ⟨rt', g1, g2, -, -⟩ | ⟨g1, -⟩ := radLoop_spec hp rj ((radAll p A R).take start) hdone _ _ hokj
    (Nat.succ_pos _) (fun pv h => Nat.succ_lt_succ (indexPivot_lt h))
  swap
  · rw [hrun] at g1; cases g1
  rw [hrun] at g1
  cases g1
  have hm := radLoop_first hp rj ((radAll p A R).take start) hdone _ _ _ hokj hrun
  rw [hpzj] at hm
  rw [hgetT]
  apply (g2.red2.zv_eq_zero hp.pos k).mp
  have hx : ∀ x ∈ Submodule.span (ZMod p) (⋃ pv, FirstElig p rj ((radAll p A R).take start) pv),
      x.2 k = 0 := by
    intro x hx
    induction hx using Submodule.span_induction with
    | mem x hx =>
      obtain ⟨pv', i, c, c1, c2, c3, rfl, c5⟩ := Set.mem_iUnion.1 hx
      have hi : i < start := by
        have := (List.getElem?_eq_some_iff.1 c1).1
        simp at this; omega
      rw [List.getElem?_take, if_pos hi, List.getElem?_eq_some_iff] at c1
      obtain ⟨hil, rfl⟩ := c1
      rw [radAll_pz A R hR hil]
      by_cases hik : i = k
      · exfalso
        subst hik
        have hkl : k' < (radAll p A R).length := by omega
        have p1 := (hok _ (List.getElem_mem hil)).red1.indexPivot_some hp.pos |>.mp c3
        have q1 := congrArg Prod.fst (radAll_pz A R hR (p := p) hil)
        have q2 := congrArg Prod.fst (radAll_pz A R hR (p := p) hkl)
        simp only [pz] at q1 q2
        rw [q1] at p1
        have hpv : pv' = pv := by
          rcases Nat.lt_trichotomy pv' pv with hlt | he | hlt
          · exact absurd (p1.2 pv hlt) h1.1
          · exact he
          · exact absurd (h1.2 pv' hlt) p1.1
        refine c5 k' hkk (radAll p A R)[k'] ?_ ⟨?_, ?_⟩
        · rw [List.getElem?_take, if_pos (by omega), List.getElem?_eq_getElem hkl]
        · obtain ⟨rk, rj', u1, u2, u3⟩ := hu
          rw [hrj, Option.some.injEq] at u2
          subst u2
          obtain ⟨r, hr, e'⟩ := radAll_get A R hR (p := p) hkl
          rw [e', ← Option.some.inj (u1.symm.trans hr)]
          exact u3
        · refine ((hok _ (List.getElem_mem hkl)).red1.indexPivot_some hp.pos).mpr ?_
          rw [q2, hpv]; exact h2
      · exact Pi.single_eq_of_ne (Ne.symm hik) _
    | zero => rfl
    | add x y _ _ hx hy => rw [Prod.snd_add, Pi.add_apply, hx, hy, add_zero]
    | smul a x _ hx => rw [Prod.smul_snd, Pi.smul_apply, hx, smul_zero]
  have := hx _ hm
  simp only [pz, Prod.snd_sub, Pi.sub_apply] at this
  rw [Pi.single_eq_of_ne (by omega), sub_zero] at this
  exact this

end Permaviss
