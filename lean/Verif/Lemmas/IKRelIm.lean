import Verif.Lemmas.IKRel
import Verif.Lemmas.IKFinal

/-!
# `image_kernel` in the relative case: the loop
-/

namespace Permaviss

open Finset

variable {α : Type} [LinearOrder α]

/-- The invariant of the loop over image generators; `s.2` is `new_pivots`. -/
structure RMid (E : IKEnv α) [Fact E.p.Prime] (rad : α) (st0 : IK α) (c : ℕ)
    (s : IK α × List Int) : Prop where
  core : RCore E (· < rad) (· ≤ rad) c s.1
  hist : RHist E s.1 (· < rad)
  N : ∀ q ∈ s.2, ∃ i : ℕ, q = i ∧ ∃ k, k < c ∧ s.1.piv k = i
  N2 : ∀ k, k < c → ∀ i : ℕ, s.1.piv k = i → (i : Int) ∈ s.2 ∨ st0.piv k = i
  un : ∀ k, c ≤ k → s.1.piv k = st0.piv k
  oinj : ∀ k k', ∀ i : ℕ, st0.piv k = i → st0.piv k' = i → k = k'

variable {E : IKEnv α} [Fact E.p.Prime] {rad : α} {aA aB dA bA dB : List ℕ} {st0 : IK α} {c : ℕ}
  {s : IK α × List Int}

/-- Nothing happens. -/
theorem RMid.skip (hL : Lists E rad aA aB dA bA dB) (h : RMid E rad st0 c s)
    (hdB : ∀ i : ℕ, st0.piv c = i → i ∉ dB) (hN : st0.piv c ∉ s.2)
    (hb : c ∉ bA) : RMid E rad st0 (c + 1) s := by
  have hc := h.core
  have hrc : s.1.piv c = st0.piv c := h.un c le_rfl
  have hbb : BornBy (· ≤ rad) E.A.barcode c ↔ BornBy (· < rad) E.A.barcode c := by
    rw [born_le_iff]
    constructor
    · rintro (h1 | h1)
      · exact h1
      · exact absurd ((hL.mbA c).2 h1) hb
    · exact Or.inl
  refine ⟨{ hc with
      unborn := ?_, alive := ?_, supp := ?_, injLo := ?_, injHi := ?_, pre := ?_ },
    h.hist, ?_, ?_, ?_, h.oinj⟩
  · intro j hj
    by_cases hjc : j = c
    · subst hjc
      have := hc.unborn j hj
      rw [cutAt_hi le_rfl] at this
      rw [cutAt_lo (by omega), this, hbb]
    · rw [cut_succ_ne hjc]; exact hc.unborn j hj
  · intro j r hjr
    by_cases hjc : j = c
    · subst hjc
      rw [cutAt_lo (by omega)]
      have ha := hc.alive j r hjr
      rw [cutAt_hi le_rfl] at ha
      obtain ⟨h1, h2, h3⟩ := ha
      refine ⟨act_new h1 fun hb => hdB r (hrc ▸ hjr) ((hL.mdB r).2 hb), h2, fun l hl hA => ?_⟩
      by_contra hne
      have := hc.supp j ⟨r, hjr⟩ l hne
      rw [cutAt_hi le_rfl] at this
      exact hne (h3 l hl (act_old hA this))
    · rw [cut_succ_ne hjc]; exact hc.alive j r hjr
  · intro j hj l hl
    have := hc.supp j hj l hl
    by_cases hjc : j = c
    · subst hjc
      rw [cutAt_hi le_rfl] at this
      rw [cutAt_lo (by omega)]
      exact this.le
    · rw [cut_succ_ne hjc]; exact this
  · have key : ∀ k, k < c → ∀ i : ℕ, s.1.piv k = i → s.1.piv c = i → False := by
      intro k hk i h1 h2
      rcases h.N2 k hk i h1 with h3 | h3
      · rw [← h2, hrc] at h3; exact hN h3
      · have := h.oinj k c i h3 (hrc ▸ h2); omega
    intro k k' hk hk' i h1 h2
    by_cases hkc : k = c
    · by_cases hkc' : k' = c
      · omega
      · exact (key k' (by omega) i h2 (hkc ▸ h1)).elim
    · by_cases hkc' : k' = c
      · exact (key k (by omega) i h1 (hkc' ▸ h2)).elim
      · exact hc.injLo k k' (by omega) (by omega) i h1 h2
  · intro k k' hk hk'
    exact hc.injHi k k' (by omega) (by omega)
  · intro m
    rw [hc.pre m]
    refine spn_congr (fun j _ => ?_) fun _ _ _ => rfl
    by_cases hjc : j = c
    · subst hjc
      rw [cutAt_hi le_rfl, cutAt_lo (by omega)]
      exact hbb.symm
    · rw [cut_succ_ne hjc]
  · intro q hq
    obtain ⟨i, h1, k, h2, h3⟩ := h.N q hq
    exact ⟨i, h1, k, by omega, h3⟩
  · intro k hk i hi
    by_cases hkc : k = c
    · subst hkc; right; rw [← hrc]; exact hi
    · exact h.N2 k (by omega) i hi
  · intro k hk; exact h.un k (by omega)

/-- What the reduction of column `c` does. -/
structure RRed (E : IKEnv α) [Fact E.p.Prime] (rad : α) (s : IK α) (c : ℕ) (M T : Mat) (q : Int)
    (a : ℕ → ZMod E.p) : Prop where
  okM : MatOK E.p E.B.dim E.A.dim M
  okT : MatOK E.p E.A.dim E.A.dim T
  otherM : ∀ j, j ≠ c → M.col j = s.im.col j
  supp : ∀ i, a i ≠ 0 → i < c ∧ s.Has i
  eq : zv E.p (M.col c) = E.V s c + ∑ i ∈ range c, a i • E.V s i
  otherT : ∀ j, j ≠ c → T.col j = s.T.col j
  eqT : zv E.p (T.col c) = E.Tc s c + ∑ i ∈ range c, a i • E.Tc s i
  res : (q = -1 ∧ ∀ i, ActBy (· ≤ rad) E.B.barcode i → zv E.p (M.col c) i = 0) ∨
    ∃ i : ℕ, q = i ∧ IsPivOn (ActBy (· ≤ rad) E.B.barcode) (zv E.p (M.col c)) i ∧
      ∀ k, k < c → s.piv k ≠ i

theorem RMid.reduce (hE : RelOK E) (hL : Lists E rad aA aB dA bA dB) (h : RMid E rad st0 c s)
    (hcn : c < E.A.dim) :
    ∃ M T q a, pivotCheckReduce E.p s.1.im aB c (s.1.pivIm.take c) (some s.1.T) =
      .ok (M, some T, q) ∧ RRed E rad s.1 c M T q a := by
  have hc := h.core
  have hlen : (s.1.pivIm.take c).length = c := by
    rw [List.length_take, hc.pivIm]; omega
  have hget : ∀ i, i < c → (s.1.pivIm.take c)[i]? = some (s.1.piv i) := by
    intro i hi
    rw [List.getElem?_take, if_pos hi]
    unfold IK.piv
    rw [List_getD_eq_getElem _ _ (by rw [hc.pivIm]; omega)]
    exact List.getElem?_eq_getElem _
  have haB : (fun r => r ∈ aB) = ActBy (· ≤ rad) E.B.barcode := funext fun r => propext (hL.mB r)
  obtain ⟨M, T', q, a, h1, h2, -, h3⟩ := pivotCheckReduce_spec hE.hp (m := E.B.dim) (n := E.A.dim)
    (nT := E.A.dim) (col := c) (pivPrev := s.1.pivIm.take c) (T := some s.1.T) hL.sB
    (fun r hr => by rw [hE.lenB]; exact ((hL.mB r).1 hr).lt) hcn hcn (by omega) hc.im
    (fun _ h => by cases h; exact ⟨_, hc.T⟩) (by
      intro i r hi hr
      have hic : i < c := by
        have := (List.getElem?_eq_some_iff.1 hi).1
        omega
      rw [hget i hic] at hi
      have := hc.alive i r (by injection hi)
      rw [cutAt_lo hic] at this
      rw [haB]; exact this)
  obtain ⟨T, rfl, hT1, hT2, hT3⟩ := h3 s.1.T _ rfl hc.T
  refine ⟨M, T, q, a, h1, h2.ok, hT1, h2.other, ?_, ?_, hT2, by rw [hT3, hlen]; rfl, ?_⟩
  · intro i hi
    obtain ⟨h3, r, h4, h5⟩ := h2.supp i hi
    rw [hlen] at h3
    rw [hget i h3] at h5
    exact ⟨h3, r, by injection h5⟩
  · rw [h2.eq, hlen]; rfl
  · rcases h2.res with ⟨h3, h4⟩ | ⟨r, h3, h4, h5⟩
    · exact Or.inl ⟨h3, fun i hi => h4 i ((hL.mB i).2 hi)⟩
    · right
      refine ⟨r, h3, ?_, ?_⟩
      · rw [haB] at h4; exact h4
      · intro k hk hkr
        apply h5
        have := List.mem_of_getElem? (hget k hk)
        rwa [hkr] at this

/-- The step of the invariant. -/
theorem RMid.update (hE : RelOK E) (h : RMid E rad st0 c s)
    (hcn : c < E.A.dim) (hpc : s.1.piv c ≠ -1) (hborn : BornBy (· ≤ rad) E.A.barcode c)
    {M T : Mat} {q : Int} {a : ℕ → ZMod E.p} (hr : RRed E rad s.1 c M T q a) {st' : IK α}
    {N : List Int} (hpiv' : st'.pivIm = s.1.pivIm.set c q)
    (hstep : (q ≠ -1 ∧ st'.im = M ∧ st'.T = T ∧ st'.imDeath = s.1.imDeath ∧ N = s.2 ++ [q]) ∨
      (q = -1 ∧ MatOK E.p E.B.dim E.A.dim st'.im ∧ MatOK E.p E.A.dim E.A.dim st'.T ∧
        (∀ j, j ≠ c → st'.im.col j = M.col j) ∧
        st'.imDeath = s.1.imDeath.set c rad ∧ N = s.2)) :
    RMid E rad st0 (c + 1) (st', N) := by
  have hc := h.core
  have hpl : c < s.1.pivIm.length := by rw [hc.pivIm]; exact hcn
  have hpiv : ∀ j, st'.piv j = if j = c then q else s.1.piv j := by
    intro j
    unfold IK.piv
    rw [hpiv']
    exact getD_set _ _ _ _ _ hpl
  have hpne : ∀ j, j ≠ c → st'.piv j = s.1.piv j := fun j hj => by rw [hpiv, if_neg hj]
  have hpcc : st'.piv c = q := by rw [hpiv, if_pos rfl]
  have hVne : ∀ j, j ≠ c → E.V st' j = E.V s.1 j := by
    intro j hj
    unfold IKEnv.V
    rw [← hr.otherM j hj]
    rcases hstep with ⟨-, e, -⟩ | ⟨-, -, -, e, -⟩
    · rw [e]
    · rw [e j hj]
  have hVc : q ≠ -1 → E.V st' c = zv E.p (M.col c) := by
    intro hq
    rcases hstep with ⟨-, e, -⟩ | ⟨e, -⟩
    · unfold IKEnv.V; rw [e]
    · exact absurd e hq
  have hq : q = -1 ∨ ∃ r : ℕ, q = r := by
    rcases hr.res with ⟨h1, -⟩ | ⟨r, h1, -⟩
    · exact Or.inl h1
    · exact Or.inr ⟨r, h1⟩
  have hHne : ∀ j, j ≠ c → (st'.Has j ↔ s.1.Has j) := by
    intro j hj; unfold IK.Has; rw [hpne j hj]
  have hlen : st'.pivIm.length = E.A.dim := by rw [hpiv', List.length_set, hc.pivIm]
  have hdl : st'.imDeath.length = E.A.dim := by
    rcases hstep with ⟨-, -, -, e, -⟩ | ⟨-, -, -, -, e, -⟩
    · rw [e]; exact hc.imDeath
    · rw [e, List.length_set]; exact hc.imDeath
  have hres : ∀ r : ℕ, q = r → IsPivOn (ActBy (· ≤ rad) E.B.barcode) (zv E.p (M.col c)) r ∧
      ∀ k, k < c → s.1.piv k ≠ r := by
    intro r hqr
    rcases hr.res with ⟨h1, -⟩ | ⟨r', h1, h2⟩
    · omega
    · have : r = r' := by omega
      subst this; exact h2
  have hcsupp : ∀ l, E.V s.1 c l ≠ 0 → BornBy (· ≤ rad) E.B.barcode l := by
    intro l hl
    rcases hc.pcase c hcn with h1 | h1 | h1
    · rw [hc.orig c hcn h1] at hl
      exact hE.f_born (down_le rad) hborn l hl
    · exact absurd h1 hpc
    · have := hc.supp c h1 l hl
      rw [cutAt_hi le_rfl] at this
      exact this.le
  have hMsupp : ∀ l, zv E.p (M.col c) l ≠ 0 → BornBy (· ≤ rad) E.B.barcode l := by
    intro l hl
    rw [hr.eq, Pi.add_apply, Finset.sum_apply] at hl
    by_cases h1 : E.V s.1 c l = 0
    · rw [h1, zero_add] at hl
      obtain ⟨i, -, hi⟩ := Finset.exists_ne_zero_of_sum_ne_zero hl
      rw [Pi.smul_apply, smul_eq_mul] at hi
      obtain ⟨h2, h3⟩ := hr.supp i (left_ne_zero_of_mul hi)
      have := hc.supp i h3 l (right_ne_zero_of_mul hi)
      rwa [cutAt_lo h2] at this
    · exact hcsupp l h1
  -- spans
  have hpre1 : ∀ m, spn (ZMod E.p) (fun j => E.rB (· ≤ rad) (E.V s.1 j)) (fun j => s.1.Has j ∨ j = c) m =
      spn (ZMod E.p) (fun j => E.rB (· ≤ rad) (E.f j))
        (fun j => BornBy (cutAt (· < rad) (· ≤ rad) (c + 1) j) E.A.barcode j) m := by
    intro m
    rcases hc.pcase c hcn with h1 | h1 | h1
    · have hxy : E.rB (· ≤ rad) (E.V s.1 c) = E.rB (· ≤ rad) (E.f c) := by rw [hc.orig c hcn h1]
      rw [spn_insert_congr (x := fun j => E.rB (· ≤ rad) (E.V s.1 j)) hc.pre hxy m]
      refine spn_congr (fun j _ => ?_) fun _ _ _ => rfl
      by_cases hjc : j = c
      · subst hjc
        have e : BornBy (cutAt (· < rad) (· ≤ rad) (j + 1) j) E.A.barcode j := by
          rw [cutAt_lo (Nat.lt_succ_self j)]; exact hborn
        simp [e]
      · rw [cut_succ_ne hjc]; simp [hjc]
    · exact absurd h1 hpc
    · have hcb : BornBy (· < rad) E.A.barcode c := by
        by_contra hnb
        have := (hc.unborn c hcn).2 (by rw [cutAt_hi le_rfl]; exact hnb)
        obtain ⟨r, hr⟩ := h1
        omega
      have e1 : spn (ZMod E.p) (fun j => E.rB (· ≤ rad) (E.V s.1 j)) (fun j => s.1.Has j ∨ j = c) m =
          spn (ZMod E.p) (fun j => E.rB (· ≤ rad) (E.V s.1 j)) s.1.Has m :=
        spn_congr (fun j _ => ⟨fun h => h.elim id (fun e => e ▸ h1), Or.inl⟩) fun _ _ _ => rfl
      rw [e1, hc.pre m]
      refine spn_congr (fun j _ => ?_) fun _ _ _ => rfl
      by_cases hjc : j = c
      · subst hjc
        have e : BornBy (cutAt (· < rad) (· ≤ rad) (j + 1) j) E.A.barcode j := by
          rw [cutAt_lo (Nat.lt_succ_self j)]; exact hborn
        have e' : BornBy (cutAt (· < rad) (· ≤ rad) j j) E.A.barcode j := by
          rw [cutAt_hi le_rfl]; exact hcb
        exact ⟨fun _ => e, fun _ => e'⟩
      · rw [cut_succ_ne hjc]
  have hcomb : E.rB (· ≤ rad) (∑ i ∈ range c, a i • E.V s.1 i) ∈
      spn (ZMod E.p) (fun j => E.rB (· ≤ rad) (E.V s.1 j)) (fun j => s.1.Has j ∨ j = c) c := by
    rw [map_sum]
    refine Submodule.sum_mem _ fun i hi => ?_
    rw [map_smul]
    by_cases hai : a i = 0
    · rw [hai, zero_smul]; exact Submodule.zero_mem _
    · exact Submodule.smul_mem _ _ (mem_spn (x := fun j => E.rB (· ≤ rad) (E.V s.1 j))
        (mem_range.1 hi) (Or.inl (hr.supp i hai).2))
  refine ⟨⟨?_, ?_, hlen, hdl, ?_, ?_, ?_, ?_, ?_, ?_, ?_, ?_, ?_⟩, ?_, ?_, ?_, ?_, h.oinj⟩
  · rcases hstep with ⟨-, e, -⟩ | ⟨-, e, -⟩
    · dsimp only; rw [e]; exact hr.okM
    · exact e
  · rcases hstep with ⟨-, -, e, -⟩ | ⟨-, -, e, -⟩
    · dsimp only; rw [e]; exact hr.okT
    · exact e
  · intro j hj
    by_cases hjc : j = c
    · subst hjc
      rw [hpcc, cutAt_lo (by omega)]
      refine ⟨fun e => ?_, fun e => absurd hborn e⟩
      rcases hq with h1 | ⟨r, h1⟩ <;> omega
    · rw [hpne j hjc, cut_succ_ne hjc]; exact hc.unborn j hj
  · intro j hj hj2
    by_cases hjc : j = c
    · subst hjc
      rw [hpcc] at hj2
      rcases hq with h1 | ⟨r, h1⟩ <;> omega
    · rw [hpne j hjc] at hj2
      rw [hVne j hjc]; exact hc.orig j hj hj2
  · intro j hj
    by_cases hjc : j = c
    · subst hjc
      rw [hpcc]
      rcases hq with h1 | ⟨r, h1⟩
      · exact Or.inr (Or.inl h1)
      · exact Or.inr (Or.inr ⟨r, by rw [hpcc]; exact h1⟩)
    · rw [hpne j hjc, hHne j hjc]; exact hc.pcase j hj
  · intro j r hj
    by_cases hjc : j = c
    · subst hjc
      rw [hpcc] at hj
      rw [cutAt_lo (by omega), hVc (by omega)]
      exact (hres r hj).1
    · rw [hpne j hjc] at hj
      rw [cut_succ_ne hjc, hVne j hjc]; exact hc.alive j r hj
  · intro j hj l hl
    by_cases hjc : j = c
    · subst hjc
      obtain ⟨r, hj⟩ := hj
      rw [hpcc] at hj
      rw [hVc (by omega)] at hl
      rw [cutAt_lo (by omega)]
      exact hMsupp l hl
    · rw [hHne j hjc] at hj
      rw [hVne j hjc] at hl
      rw [cut_succ_ne hjc]; exact hc.supp j hj l hl
  · have key : ∀ k, k < c → ∀ i : ℕ, st'.piv k = i → st'.piv c = i → False := by
      intro k hk i h1 h2
      rw [hpcc] at h2
      rw [hpne k (by omega)] at h1
      exact (hres i h2).2 k hk h1
    intro k k' hk hk' i h1 h2
    by_cases hkc : k = c
    · by_cases hkc' : k' = c
      · omega
      · exact (key k' (by omega) i h2 (hkc ▸ h1)).elim
    · by_cases hkc' : k' = c
      · exact (key k (by omega) i h1 (hkc' ▸ h2)).elim
      · rw [hpne k hkc] at h1
        rw [hpne k' hkc'] at h2
        exact hc.injLo k k' (by omega) (by omega) i h1 h2
  · intro k k' hk hk' i h1 h2
    rw [hpne k (by omega)] at h1
    rw [hpne k' (by omega)] at h2
    exact hc.injHi k k' (by omega) (by omega) i h1 h2
  · intro m
    rw [← hpre1 m]
    rcases hq with hq1 | ⟨r, hq1⟩
    · have hz : E.rB (· ≤ rad) (zv E.p (M.col c)) = 0 := by
        unfold IKEnv.rB
        rw [restr_eq_zero]
        rcases hr.res with ⟨-, h2⟩ | ⟨r', h1, -⟩
        · exact h2
        · omega
      rw [hr.eq, map_add] at hz
      have hin : E.rB (· ≤ rad) (E.V s.1 c) ∈
          spn (ZMod E.p) (fun j => E.rB (· ≤ rad) (E.V s.1 j)) (fun j => s.1.Has j ∨ j = c) c := by
        rw [eq_neg_of_add_eq_zero_left hz]
        exact Submodule.neg_mem _ hcomb
      rw [← spn_remove hin]
      refine spn_congr (fun j _ => ?_) fun j _ hj => ?_
      · by_cases hjc : j = c
        · subst hjc
          simp only [ne_eq, not_true_eq_false, and_false, iff_false]
          rintro ⟨r, hr⟩
          rw [hpcc] at hr; omega
        · rw [hHne j hjc]; simp [hjc]
      · have hjc : j ≠ c := by
          rintro rfl
          obtain ⟨r, hr⟩ := hj
          rw [hpcc] at hr; omega
        rw [hVne j hjc]
    · have hop : E.rB (· ≤ rad) (E.V st' c) - E.rB (· ≤ rad) (E.V s.1 c) ∈
          spn (ZMod E.p) (fun j => E.rB (· ≤ rad) (E.V s.1 j)) (fun j => s.1.Has j ∨ j = c) c := by
        rw [hVc (by omega), hr.eq, map_add, add_sub_cancel_left]
        exact hcomb
      rw [← spn_op (x' := fun j => E.rB (· ≤ rad) (E.V st' j))
        (fun j hj => by simp only [hVne j hj]) hop]
      refine spn_congr (fun j _ => ?_) fun _ _ _ => rfl
      by_cases hjc : j = c
      · subst hjc
        simp only [or_true, iff_true]
        exact ⟨r, by rw [hpcc]; exact hq1⟩
      · rw [hHne j hjc]; simp [hjc]
  · intro j hj hj1 e he
    rcases hstep with ⟨h1, -, -, h2, -⟩ | ⟨h1, -, -, -, h2, -⟩
    · have hjc : j ≠ c := by rintro rfl; exact h1 (hpcc ▸ hj1)
      rw [hpne j hjc] at hj1
      dsimp only at he
      rw [h2] at he
      exact hc.db j hj hj1 e he
    · dsimp only at he
      rw [h2, List.getElem?_set] at he
      by_cases hjc : j = c
      · subst hjc
        rw [if_pos rfl, if_pos (by rw [hc.imDeath]; exact hj), Option.some.injEq] at he
        exact he ▸ le_rfl
      · rw [if_neg (fun e => hjc e.symm)] at he
        rw [hpne j hjc] at hj1
        exact hc.db j hj hj1 e he
  · refine h.hist.update hE.lenA.symm ?_ ?_
    · intro j hj hj1
      have hjc : j ≠ c := by rintro rfl; exact hpc hj1
      refine ⟨by rw [hpne j hjc]; exact hj1, ?_⟩
      rcases hstep with ⟨-, -, -, h2, -⟩ | ⟨-, -, -, -, h2, -⟩
      · dsimp only; rw [h2]
      · dsimp only; rw [h2, List.getElem?_set, if_neg (fun e => hjc e.symm)]
    · intro j hj hj1 hj2
      have hjc : j = c := by
        by_contra hjc
        rw [hpne j hjc] at hj2
        exact hj1 hj2
      subst hjc
      rcases hstep with ⟨h1, -⟩ | ⟨-, -, -, -, h2, -⟩
      · exact absurd (hpcc ▸ hj2) h1
      · dsimp only
        rw [h2, List.getElem?_set, if_pos rfl, if_pos (by rw [hc.imDeath]; exact hj)]
  · intro q' hq'
    have hold : q' ∈ s.2 → ∃ i : ℕ, q' = i ∧ ∃ k, k < c + 1 ∧ st'.piv k = i := by
      intro h1
      obtain ⟨i, h2, k, h3, h4⟩ := h.N q' h1
      exact ⟨i, h2, k, by omega, by rw [hpne k (by omega)]; exact h4⟩
    rcases hstep with ⟨h1, -, -, -, rfl⟩ | ⟨h1, -, -, -, -, rfl⟩
    · rcases List.mem_append.1 hq' with h2 | h2
      · exact hold h2
      · obtain ⟨r, h3⟩ := hq.resolve_left h1
        refine ⟨r, (List.mem_singleton.1 h2).trans h3, c, by omega, hpcc.trans h3⟩
    · exact hold hq'
  · intro k hk i hi
    by_cases hkc : k = c
    · subst hkc
      rw [hpcc] at hi
      left
      rcases hstep with ⟨-, -, -, -, rfl⟩ | ⟨h1, -⟩
      · simp [hi]
      · omega
    · rw [hpne k hkc] at hi
      refine (h.N2 k (by omega) i hi).imp (fun h1 => ?_) id
      rcases hstep with ⟨-, -, -, -, rfl⟩ | ⟨-, -, -, -, -, rfl⟩
      · exact List.mem_append_left _ h1
      · exact h1
  · intro k hk
    rw [hpne k (by omega)]
    exact h.un k (by omega)

theorem RMid.step (hE : RelOK E) (hL : Lists E rad aA aB dA bA dB)
    (h : RMid E rad st0 c s) (hcn : c < E.A.dim) (hst0 : st0.pivIm.length = E.A.dim) :
    ∃ s', imStep E rad aB dA bA dB st0.pivIm s c = .ok s' ∧ RMid E rad st0 (c + 1) s' := by
  have hc := h.core
  have hrc : s.1.piv c = st0.piv c := h.un c le_rfl
  have hold : st0.pivIm.getD c 0 = st0.piv c := by
    unfold IK.piv
    have : c < st0.pivIm.length := by omega
    rw [List_getD_eq_getElem _ _ this, List_getD_eq_getElem _ _ this]
  unfold imStep
  rw [hold]
  by_cases ht : ((decide (0 ≤ st0.piv c) &&
        decide ((s.1.im.col c).getD (st0.piv c).toNat 0 % (E.p : Int) = 0)) ||
      dB.any (fun d => (d : Int) == st0.piv c) || s.2.contains (st0.piv c) ||
      bA.contains c) = true
  · rw [if_pos ht]
    have hcase : c ∈ bA ∨ ∃ r : ℕ, s.1.piv c = r := by
      rw [Bool.or_eq_true, Bool.or_eq_true, Bool.or_eq_true, Bool.and_eq_true] at ht
      rcases ht with ((⟨h1, -⟩ | h1) | h1) | h1
      · right
        have h1 : 0 ≤ st0.piv c := by simpa using h1
        exact ⟨(st0.piv c).toNat, by rw [hrc]; omega⟩
      · right
        rw [List.any_eq_true] at h1
        obtain ⟨d, -, h3⟩ := h1
        have : (d : Int) = st0.piv c := by simpa using h3
        exact ⟨d, by rw [hrc, this]⟩
      · right
        have h1 : st0.piv c ∈ s.2 := by simpa using h1
        obtain ⟨i, h2, -⟩ := h.N _ h1
        exact ⟨i, by rw [hrc, h2]⟩
      · left; simpa using h1
    have hpc : s.1.piv c ≠ -1 ∧ BornBy (· ≤ rad) E.A.barcode c := by
      rcases hcase with h1 | ⟨r, h1⟩
      · have hb := (hL.mbA c).1 h1
        refine ⟨?_, born_le_iff.2 (Or.inr hb)⟩
        have := (hc.unborn c hcn).2 (by rw [cutAt_hi le_rfl]; exact not_born_of_birth hb)
        omega
      · refine ⟨by omega, ?_⟩
        by_contra hnb
        have := (hc.unborn c hcn).2 (by rw [cutAt_hi le_rfl]; exact fun h => hnb h.le)
        omega
    obtain ⟨hpc, hborn⟩ := hpc
    obtain ⟨M, T, q, a, h1, h2⟩ := h.reduce hE hL hcn
    rw [h1]
    dsimp only
    simp only [Option.getD_some]
    by_cases hq : q = -1
    · subst hq
      rw [if_neg (by simp)]
      unfold imDie
      rw [if_neg (by rw [hE.full]; simp), if_pos hE.start]
      refine ⟨_, rfl, h.update hE hcn hpc hborn h2 rfl (Or.inr ⟨rfl, ?_, ?_, ?_, rfl, rfl⟩)⟩
      · refine MatOK.setCol h2.okM c ?_ (mulAt_red hE.hp.pos _ _ _)
        rw [mulAt_len]; exact hE.F.rows
      · refine MatOK.setCol h2.okT c ?_ (overwriteAt_red hE.hp.pos _ (h2.okT.col_red c) ?_)
        · rw [overwriteAt_len]; exact h2.okT.col_len hcn
        · intro x hx; cases hx
      · intro j hj
        simp only [stripPrev, Mat.col_setCol]
        rw [if_neg (fun e => hj e.1.symm)]
    · rw [if_pos hq]
      exact ⟨_, rfl, h.update hE hcn hpc hborn h2 rfl (Or.inl ⟨hq, rfl, rfl, rfl, rfl⟩)⟩
  · rw [if_neg ht]
    rw [Bool.or_eq_true, Bool.or_eq_true, Bool.or_eq_true] at ht
    push Not at ht
    obtain ⟨⟨⟨-, h2⟩, h3⟩, h4⟩ := ht
    refine ⟨s, rfl, h.skip hL ?_ (by simpa using h3) (by simpa using h4)⟩
    intro i hi hd
    apply h2
    rw [List.any_eq_true]
    exact ⟨i, hd, by simp [hi]⟩

/-- A property of the state which the two phases of a radius keep. -/
structure Kept (E : IKEnv α) [Fact E.p.Prime] (J : IK α → Prop) : Prop where
  kill : ∀ rad st c, RCore E (· < rad) (· ≤ rad) 0 st →
    (∃ b, E.A.barcode[c]? = some b ∧ b.2 = rad) → J st → J (relKill E.start rad st c)
  step : ∀ rad aA aB dA bA dB st0 c s s', Lists E rad aA aB dA bA dB → RMid E rad st0 c s →
    c < E.A.dim → st0.pivIm.length = E.A.dim →
    imStep E rad aB dA bA dB st0.pivIm s c = .ok s' → J s.1 → J s'.1

theorem Kept.kills {J : IK α → Prop} (hJ : Kept E J) (hE : RelOK E) (l : List ℕ)
    (hl : ∀ c ∈ l, ∃ b, E.A.barcode[c]? = some b ∧ b.2 = rad) :
    ∀ st : IK α, RCore E (· < rad) (· ≤ rad) 0 st → RHist E st (· < rad) → J st →
    J (l.foldl (relKill E.start rad) st) := by
  induction l with
  | nil => exact fun st _ _ h => h
  | cons c l ih =>
    intro st h hh hj
    obtain ⟨h1, h2⟩ := h.kill hE hh (hl c (by simp))
    exact ih (fun c hc => hl c (by simp [hc])) _ h1 h2 (hJ.kill rad st c h (hl c (by simp)) hj)

/-- One radius. -/
theorem ikRadius_rel (hE : RelOK E) {J : IK α → Prop} (hJ : Kept E J) {st : IK α}
    (hc : RCore E (· < rad) (· < rad) 0 st) (hh : RHist E st (· < rad)) (hj : J st) :
    ∃ st', ikRadius E st rad = .ok st' ∧
      RCore E (· ≤ rad) (· ≤ rad) 0 st' ∧ RHist E st' (· < rad) ∧ J st' := by
  let aA := barIndices E.A.barcode fun b => decide (b.1 ≤ rad) && decide (rad < b.2)
  let aB := barIndices E.B.barcode fun b => decide (b.1 ≤ rad) && decide (rad < b.2)
  let dA := barIndices E.A.barcode fun b => decide (b.2 = rad)
  let bA := barIndices E.A.barcode fun b => decide (b.1 = rad)
  let dB := barIndices E.B.barcode fun b => decide (b.2 = rad)
  have hL : Lists E rad aA aB dA bA dB := by
    refine ⟨?_, barIndices_sorted _ _, ?_, barIndices_sorted _ _, ?_, ?_, ?_⟩
    · intro i; simp [aA, mem_barIndices, ActBy]
    · intro i; simp [aB, mem_barIndices, ActBy]
    · intro i; simp [dA, mem_barIndices]
    · intro i; simp [bA, mem_barIndices]
    · intro i; simp [dB, mem_barIndices]
  obtain ⟨h2, h3⟩ := RCore.kills hE dA (fun c hc => (hL.mdA c).1 hc) st (hc.enter hE) hh
  have hj1 := hJ.kills hE dA (fun c hc => (hL.mdA c).1 hc) st (hc.enter hE) hh hj
  set st1 := dA.foldl (relKill E.start rad) st with hst1
  have h0 : RMid E rad st1 0 (st1, []) :=
    ⟨h2, h3, by simp, fun k hk => absurd hk (by omega), fun _ _ => rfl,
      fun k k' i => h2.injHi k k' (by omega) (by omega) i⟩
  obtain ⟨s, h4, h5⟩ := foldlM_range_inv (imStep E rad aB dA bA dB st1.pivIm)
    (fun c s => RMid E rad st1 c s ∧ J s.1) E.A.dim (st1, []) ⟨h0, hj1⟩
    (fun c hcn s hs => by
      obtain ⟨s', h1, h2'⟩ := hs.1.step hE hL hcn h2.pivIm
      exact ⟨s', h1, h2', hJ.step rad aA aB dA bA dB st1 c s s' hL hs.1 hcn h2.pivIm h1 hs.2⟩)
  obtain ⟨h5, hj2⟩ := h5
  refine ⟨s.1, ?_, ?_, h5.hist, hj2⟩
  · unfold ikRadius Basis.active Basis.death Basis.birth
    rw [hE.flatA, hE.flatB]
    simp only [hE.full, bind, Except.bind, Bool.false_eq_true, if_false, relPhase, hE.unb,
      Option.isSome_none]
    unfold imPhase
    change (match (List.range E.A.dim).foldlM (imStep E rad aB dA bA dB st1.pivIm) (st1, []) with
      | Except.error e => Except.error e
      | Except.ok s => Except.ok s.1) = _
    rw [h4]
  · have hc := h5.core
    have hpl : ∀ j, s.1.Has j → j < E.A.dim := fun j h => IK.has_lt hc.pivIm h
    have hcc : ∀ j, j < E.A.dim → cutAt (· < rad) (· ≤ rad) E.A.dim j = (· ≤ rad) :=
      fun j hj => cutAt_lo hj
    have hc0 : ∀ j, cutAt (· ≤ rad) (· ≤ rad) 0 j = (· ≤ rad) := fun j => cutAt_hi (by omega)
    exact { hc with
      unborn := fun j hj => by rw [hc0, ← hcc j hj]; exact hc.unborn j hj
      alive := fun j r hj => by rw [hc0, ← hcc j (hpl j ⟨r, hj⟩)]; exact hc.alive j r hj
      supp := fun j hj => by rw [hc0, ← hcc j (hpl j hj)]; exact hc.supp j hj
      injLo := fun j j' h => absurd h (by omega)
      injHi := fun j j' _ _ r h1 h2 =>
        hc.injLo j j' (hpl j ⟨r, h1⟩) (hpl j' ⟨r, h2⟩) r h1 h2
      pre := fun m => by
        rw [hc.pre m]
        refine spn_congr (fun j _ => ?_) fun _ _ _ => rfl
        rw [hc0]
        by_cases hj : j < E.A.dim
        · rw [hcc j hj]
        · have hn : ∀ P : α → Prop, ¬ BornBy P E.A.barcode j := fun P hb => hj (hE.lenA ▸ hb.lt)
          exact ⟨fun h => absurd h (hn _), fun h => absurd h (hn _)⟩ }

/-- The history at the present. -/
theorem RCore.present (hE : RelOK E) {t : α} {st : IK α} (hc : RCore E (· ≤ t) (· ≤ t) 0 st) (m : ℕ) :
    Module.finrank (ZMod E.p) (spn (ZMod E.p) (fun j => E.rB (· ≤ t) (E.f j))
      (BornBy (· ≤ t) E.A.barcode) m) = (rset E st t m).card := by
  classical
  have hc0 : ∀ j, cutAt (· ≤ t) (· ≤ t) 0 j = (· ≤ t) := fun j => cutAt_hi (by omega)
  have h1 := hc.pre m
  simp only [hc0] at h1
  have hset : ∀ j, j ∈ rset E st t m ↔ j < m ∧ st.Has j := by
    intro j
    unfold rset
    rw [Finset.mem_filter, mem_range]
    refine and_congr_right fun _ => ?_
    constructor
    · rintro ⟨hb, hd⟩
      have hj : j < E.A.dim := hE.lenA ▸ hb.lt
      rcases hc.pcase j hj with h2 | h2 | h2
      · have := (hc.unborn j hj).1 h2
        rw [hc0] at this
        exact absurd hb this
      · have hl : j < st.imDeath.length := by rw [hc.imDeath]; exact hj
        have e := List.getElem?_eq_getElem hl
        exact absurd (hd h2 _ e) (not_lt.2 (hc.db j hj h2 _ e))
      · exact h2
    · intro hH
      have hj := IK.has_lt hc.pivIm hH
      refine ⟨?_, fun h2 => ?_⟩
      · by_contra hnb
        have := (hc.unborn j hj).2 (by rw [hc0]; exact hnb)
        obtain ⟨r, hr⟩ := hH
        omega
      · obtain ⟨r, hr⟩ := hH
        omega
  have hind : LinearIndependent (ZMod E.p)
      fun j : rset E st t m => restr (ActBy (· ≤ t) E.B.barcode) (E.V st j) := by
    refine indep_of_pivots _ (fun j => (st.piv j).toNat) ?_ ?_
    · intro j hj
      obtain ⟨-, r, hr⟩ := (hset j).1 hj
      have := hc.alive j r hr
      rw [hc0] at this
      simpa only [hr, Int.toNat_natCast] using this
    · intro j hj j' hj' he
      obtain ⟨-, r, hr⟩ := (hset j).1 hj
      obtain ⟨-, r', hr'⟩ := (hset j').1 hj'
      have : r = r' := by simpa [hr, hr'] using he
      subst this
      exact hc.injHi j j' (by omega) (by omega) r hr hr'
  have h2 : spn (ZMod E.p) (fun j => E.rB (· ≤ t) (E.V st j)) st.Has m =
      Submodule.span (ZMod E.p) (Set.range fun j : rset E st t m =>
        restr (ActBy (· ≤ t) E.B.barcode) (E.V st j)) := by
    unfold spn
    congr 1
    ext x
    constructor
    · rintro ⟨j, hj, rfl⟩; exact ⟨⟨j, (hset j).2 hj⟩, rfl⟩
    · rintro ⟨⟨j, hj⟩, rfl⟩; exact ⟨j, (hset j).1 hj, rfl⟩
  rw [← h1, h2, finrank_span_eq_card hind, Fintype.card_coe]

/-- The whole invariant. -/
def RInv (E : IKEnv α) [Fact E.p.Prime] (P : α → Prop) (st : IK α) : Prop :=
  RCore E P P 0 st ∧ RHist E st P

theorem born_act_congr {P P' : α → Prop} (h1 : ∀ x, P x → P' x) (bars : List (α × α))
    (hb : ∀ b ∈ bars, (P' b.1 → P b.1) ∧ (P' b.2 → P b.2)) :
    (BornBy P' bars = BornBy P bars) ∧ (ActBy P' bars = ActBy P bars) := by
  constructor
  · funext i
    apply propext
    constructor
    · rintro ⟨b, h2, h3⟩; exact ⟨b, h2, (hb b (List.mem_of_getElem? h2)).1 h3⟩
    · rintro ⟨b, h2, h3⟩; exact ⟨b, h2, h1 _ h3⟩
  · funext i
    apply propext
    constructor
    · rintro ⟨b, h2, h3, h4⟩
      exact ⟨b, h2, (hb b (List.mem_of_getElem? h2)).1 h3, fun h => h4 (h1 _ h)⟩
    · rintro ⟨b, h2, h3, h4⟩
      exact ⟨b, h2, h1 _ h3, fun h => h4 ((hb b (List.mem_of_getElem? h2)).2 h)⟩

/-- The core only depends on which end points have passed. -/
theorem RCore.congr {P P' : α → Prop} {st : IK α} (hc : RCore E P P 0 st)
    (h1 : ∀ x, P x → P' x)
    (hA : ∀ b ∈ E.A.barcode, (P' b.1 → P b.1) ∧ (P' b.2 → P b.2))
    (hB : ∀ b ∈ E.B.barcode, (P' b.1 → P b.1) ∧ (P' b.2 → P b.2)) : RCore E P' P' 0 st := by
  obtain ⟨eA1, eA2⟩ := born_act_congr h1 _ hA
  obtain ⟨eB1, eB2⟩ := born_act_congr h1 _ hB
  have hcut : ∀ (Q : α → Prop) j, cutAt Q Q 0 j = Q := fun Q j => cutAt_hi (by omega)
  have er : E.rB P' = E.rB P := by unfold IKEnv.rB; rw [eB2]
  exact { hc with
    unborn := fun j hj => by have := hc.unborn j hj; rw [hcut] at this ⊢; rw [eA1]; exact this
    alive := fun j r hj => by have := hc.alive j r hj; rw [hcut] at this ⊢; rw [eB2]; exact this
    supp := fun j hj => by have := hc.supp j hj; rw [hcut] at this ⊢; rw [eB1]; exact this
    pre := fun m => by
      have := hc.pre m
      simp only [hcut] at this ⊢
      rw [er, eA1]; exact this
    db := fun j hj h e he => h1 _ (hc.db j hj h e he) }

/-- Between two radii nothing happens. -/
theorem RInv.extend (hE : RelOK E) {P P' : α → Prop} {st : IK α} (h : RInv E P st) (hP : Down P)
    (h1 : ∀ x, P x → P' x) (hP' : Down P')
    (hA : ∀ b ∈ E.A.barcode, (P' b.1 → P b.1) ∧ (P' b.2 → P b.2))
    (hB : ∀ b ∈ E.B.barcode, (P' b.1 → P b.1) ∧ (P' b.2 → P b.2)) : RInv E P' st := by
  refine ⟨h.1.congr h1 hA hB, ?_⟩
  intro t ht
  by_cases hPt : P t
  · exact h.2 t hPt
  · refine RCore.present hE (h.1.congr (P' := (· ≤ t)) ?_ ?_ ?_)
    · intro x hx
      by_contra hlt
      exact hPt (hP x t (le_of_lt (not_le.1 hlt)) hx)
    · intro b hb
      exact ⟨fun h => (hA b hb).1 (hP' _ _ h ht), fun h => (hA b hb).2 (hP' _ _ h ht)⟩
    · intro b hb
      exact ⟨fun h => (hB b hb).1 (hP' _ _ h ht), fun h => (hB b hb).2 (hP' _ _ h ht)⟩

theorem ikRadius_rinv (hE : RelOK E) {J : IK α → Prop} (hJ : Kept E J) {st : IK α}
    (h : RInv E (· < rad) st) (hj : J st) :
    ∃ st', ikRadius E st rad = .ok st' ∧ RInv E (· ≤ rad) st' ∧ J st' := by
  obtain ⟨st', h1, h2, h3, hj'⟩ := ikRadius_rel hE hJ h.1 h.2 hj
  refine ⟨st', h1, ⟨h2, ?_⟩, hj'⟩
  intro t ht
  rcases lt_or_eq_of_le ht with h4 | rfl
  · exact h3 t h4
  · exact h2.present hE

/-- A loop whose invariant is stepped by each radius and extended between radii. -/
theorem ikLoop_induct (I : (α → Prop) → IK α → Prop)
    (hext : ∀ (P P' : α → Prop) (st : IK α), I P st → Down P → (∀ x, P x → P' x) → Down P' →
      (∀ b ∈ E.A.barcode, (P' b.1 → P b.1) ∧ (P' b.2 → P b.2)) →
      (∀ b ∈ E.B.barcode, (P' b.1 → P b.1) ∧ (P' b.2 → P b.2)) → I P' st)
    (hrad : ∀ (rad : α) (st : IK α), I (· < rad) st →
      ∃ st', ikRadius E st rad = .ok st' ∧ I (· ≤ rad) st') (l : List α) :
    ∀ (P : α → Prop) (st : IK α), Down P → I P st → l.Pairwise (· < ·) →
    (∀ x ∈ l, ¬ P x) →
    (∀ b ∈ E.A.barcode ++ E.B.barcode, (P b.1 ∨ b.1 ∈ l) ∧ (P b.2 ∨ b.2 ∈ l)) →
    ∃ st', ikLoop E l st = .ok st' ∧ I (fun _ => True) st' := by
  induction l with
  | nil =>
    intro P st hP h _ _ hl
    refine ⟨st, rfl, hext P _ st h hP (fun _ _ => trivial) (fun _ _ _ _ => trivial) ?_ ?_⟩
    · intro b hb
      have := hl b (List.mem_append_left _ hb)
      simp only [List.not_mem_nil, or_false] at this
      exact ⟨fun _ => this.1, fun _ => this.2⟩
    · intro b hb
      have := hl b (List.mem_append_right _ hb)
      simp only [List.not_mem_nil, or_false] at this
      exact ⟨fun _ => this.1, fun _ => this.2⟩
  | cons rad l ih =>
    intro P st hP h hs hn hl
    rw [List.pairwise_cons] at hs
    have hPr : ¬ P rad := hn rad (by simp)
    have hlt : ∀ x, P x → x < rad := by
      intro x hx
      by_contra hge
      exact hPr (hP x rad (not_lt.1 hge) hx)
    have hback : ∀ y, (P y ∨ y ∈ rad :: l) → y < rad → P y := by
      intro y hy hlt
      rcases hy with hy | hy
      · exact hy
      · exfalso
        rcases List.mem_cons.1 hy with rfl | hy
        · exact lt_irrefl _ hlt
        · exact lt_asymm hlt (hs.1 y hy)
    have hext' : I (· < rad) st := by
      refine hext P _ st h hP hlt (down_lt rad) ?_ ?_
      · intro b hb
        have := hl b (List.mem_append_left _ hb)
        exact ⟨hback _ this.1, hback _ this.2⟩
      · intro b hb
        have := hl b (List.mem_append_right _ hb)
        exact ⟨hback _ this.1, hback _ this.2⟩
    obtain ⟨st1, h1, h2⟩ := hrad rad st hext'
    obtain ⟨st2, h3, h4⟩ := ih (· ≤ rad) st1 (down_le rad) h2 hs.2
      (fun x hx => not_le.2 (hs.1 x hx)) (by
        intro b hb
        have hb' := hl b hb
        have conv : ∀ y, (P y ∨ y ∈ rad :: l) → (y ≤ rad ∨ y ∈ l) := by
          rintro y (hy | hy)
          · exact Or.inl (le_of_lt (hlt y hy))
          · rcases List.mem_cons.1 hy with rfl | hy
            · exact Or.inl le_rfl
            · exact Or.inr hy
        exact ⟨conv _ hb'.1, conv _ hb'.2⟩)
    refine ⟨st2, ?_, h4⟩
    simp only [ikLoop]
    rw [h1]
    exact h3

/-- What is known about the state after the loop. -/
structure RFinal (E : IKEnv α) [Fact E.p.Prime] (st : IK α) : Prop where
  im : MatOK E.p E.B.dim E.A.dim st.im
  T : MatOK E.p E.A.dim E.A.dim st.T
  pivIm : st.pivIm.length = E.A.dim
  imDeath : st.imDeath.length = E.A.dim
  dead : ∀ j, j < E.A.dim → st.piv j = -1
  count : ∀ t m, Module.finrank (ZMod E.p) (spn (ZMod E.p) (fun j => E.rB (· ≤ t) (E.f j))
    (BornBy (· ≤ t) E.A.barcode) m) = (rset E st t m).card

theorem init_rinv [Zero α] (hE : RelOK E) : RInv E (fun _ => False) E.init := by
  have hp1 : 1 < E.p := hE.hp.one_lt
  have hnb : ∀ bars i, ¬ BornBy (fun _ : α => False) bars i := fun bars i ⟨_, _, h⟩ => h
  have hcut : ∀ j, cutAt (fun _ : α => False) (fun _ => False) 0 j = fun _ => False :=
    fun j => cutAt_hi (by omega)
  have hpiv : ∀ j, (E.init).piv j = -2 := by
    intro j
    simp only [IK.piv, IKEnv.init, List.getD_eq_getElem?_getD, List.getElem?_replicate]
    split <;> simp
  have hH : ∀ j, ¬ (E.init).Has j := by
    rintro j ⟨r, h⟩
    rw [hpiv] at h; omega
  refine ⟨{
    im := hE.F
    T := identity_ok hp1 _
    pivIm := by simp [IKEnv.init]
    imDeath := by simp [IKEnv.init]
    unborn := fun j _ => by rw [hcut]; simp [hpiv, hnb]
    orig := fun j _ _ => rfl
    pcase := fun j _ => Or.inl (hpiv j)
    alive := fun j r h => by rw [hpiv] at h; omega
    supp := fun j h => absurd h (hH j)
    injLo := fun j j' h => absurd h (by omega)
    injHi := fun j j' _ _ r h => by rw [hpiv] at h; omega
    pre := fun m => by
      simp only [hcut]
      exact (le_antisymm (spn_le fun j _ h => absurd h (hH j))
        (spn_le fun j _ h => absurd h (hnb _ _)))
    db := fun j _ h => by rw [hpiv] at h; omega }, fun t h => h.elim⟩

theorem ikLoop_kept [Zero α] (hE : RelOK E) {J : IK α → Prop} (hJ : Kept E J) (hj : J E.init) :
    ∃ st, ikLoop E E.radii E.init = .ok st ∧ RFinal E st ∧ J st := by
  obtain ⟨st, h1, h2⟩ := ikLoop_induct (E := E) (fun P st => RInv E P st ∧ J st)
    (fun P P' st h hP h1 hP' hA hB => ⟨h.1.extend hE hP h1 hP' hA hB, h.2⟩)
    (fun rad st h => ikRadius_rinv hE hJ h.1 h.2) E.radii (fun _ => False) E.init
    (fun _ _ _ h => h) ⟨init_rinv hE, hj⟩ (npUnique_strict _) (fun _ _ h => h) (by
      intro b hb
      have : ∀ y, (y = b.1 ∨ y = b.2) → y ∈ E.radii := by
        intro y hy
        unfold IKEnv.radii Basis.changesList
        rw [mem_npUnique, List.mem_append, mem_npUnique, mem_npUnique]
        simp only [List.mem_flatMap]
        rcases List.mem_append.1 hb with h | h
        · left; exact ⟨b, h, by simpa using hy⟩
        · right; exact ⟨b, h, by simpa using hy⟩
      exact ⟨Or.inr (this _ (Or.inl rfl)), Or.inr (this _ (Or.inr rfl))⟩)
  obtain ⟨⟨hc, hh⟩, hj'⟩ := h2
  have hcut : ∀ j, cutAt (fun _ : α => True) (fun _ => True) 0 j = fun _ => True :=
    fun j => cutAt_hi (by omega)
  refine ⟨st, h1, ⟨hc.im, hc.T, hc.pivIm, hc.imDeath, ?_, fun t m => hh t trivial m⟩, hj'⟩
  intro j hj
  rcases hc.pcase j hj with h3 | h3 | ⟨r, h3⟩
  · have := (hc.unborn j hj).1 h3
    rw [hcut] at this
    exact absurd ⟨_, List.getElem?_eq_getElem (hE.lenA ▸ hj), trivial⟩ this
  · exact h3
  · have := hc.alive j r h3
    rw [hcut] at this
    obtain ⟨⟨_, _, _, h4⟩, _⟩ := this
    exact absurd trivial h4

theorem ikLoop_rel [Zero α] (hE : RelOK E) :
    ∃ st, ikLoop E E.radii E.init = .ok st ∧ RFinal E st := by
  obtain ⟨st, h1, h2, -⟩ := ikLoop_kept hE (J := fun _ => True)
    ⟨fun _ _ _ _ _ _ => trivial, fun _ _ _ _ _ _ _ _ _ _ _ _ _ _ _ _ => trivial⟩ trivial
  exact ⟨st, h1, h2⟩

end Permaviss
