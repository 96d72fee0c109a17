import Verif.Lemmas.BrokenMultiLoop

/-!
# `image_kernel` with a broken barcode basis with any number of levels: the loop over the columns
-/

attribute [-instance] instMulZeroClassOfSemiring

namespace Permaviss

open Finset

variable {α : Type} [LinearOrder α]

/-- What the reduction of a column has done when it ends. -/
theorem pcrLoop_ends {p m n : ℕ} (hpos : 0 < p) {active : List ℕ} {col : ℕ} {pivPrev : List Int}
    (hs : active.Pairwise (· < ·)) (hcol : col < n) (hlen : pivPrev.length ≤ col) (fuel : ℕ) :
    ∀ (M : Mat) (T : Option Mat) M' T' q, MatOK p m n M →
      pcrLoop p active col pivPrev fuel M T = .ok (M', T', q) →
      ∃ a, PCROut p m n M M' active col pivPrev a q := by
  induction fuel with
  | zero => intro M T M' T' q _ h; simp [pcrLoop] at h
  | succ f ih =>
    intro M T M' T' q hM h
    rw [pcrLoop, pcr_red hM hpos] at h
    cases hk : indexPivot (active.map fun r => (M.col col).getD r 0) with
    | none =>
      rw [hk] at h
      obtain ⟨rfl, h'⟩ := Prod.mk.inj (Except.ok.inj h)
      obtain ⟨-, rfl⟩ := Prod.mk.inj h'
      exact ⟨0, hM, fun _ _ => rfl, fun i h => absurd rfl h, by simp,
        Or.inl ⟨rfl, pcr_none (hM.col_red col) hpos hk⟩⟩
    | some k =>
      obtain ⟨hkl, hra, hpiv⟩ := pcr_pivot (hM.col_red col) hpos hs hk
      rw [hk] at h
      dsimp only at h
      cases hfind : pivPrev.findIdx? (· == (active.getD k 0 : Int)) with
      | none =>
        rw [hfind] at h
        obtain ⟨rfl, h'⟩ := Prod.mk.inj (Except.ok.inj h)
        obtain ⟨-, rfl⟩ := Prod.mk.inj h'
        refine ⟨0, hM, fun _ _ => rfl, fun i h => absurd rfl h, by simp,
          Or.inr ⟨_, rfl, hpiv, ?_⟩⟩
        intro hmem
        rw [List.findIdx?_eq_none_iff] at hfind
        simpa using hfind _ hmem
      | some prev =>
        rw [hfind] at h
        rw [List.findIdx?_eq_some_iff_getElem] at hfind
        obtain ⟨hpl, hpe, -⟩ := hfind
        have hpe' : pivPrev[prev] = (active.getD k 0 : Int) := by simpa using hpe
        have hget : pivPrev[prev]? = some ((active.getD k 0 : ℕ) : Int) := by
          rw [List.getElem?_eq_getElem hpl, hpe']
        dsimp only at h
        cases hinv : invModP ((M.col prev).getD (active.getD k 0) 0) p with
        | error e => rw [hinv] at h; cases h
        | ok inv =>
          rw [hinv] at h
          dsimp only at h
          have hpn : prev < n := by omega
          obtain ⟨a, hout⟩ := ih _ _ _ _ _ (hM.addPrevCol hpos inv hpn hcol) h
          have hz := addPrevCol_col hM inv hpn hcol col
          rw [if_pos rfl] at hz
          refine ⟨a + Pi.single prev (inv : ZMod p), hout.ok, ?_, ?_, ?_, hout.res⟩
          · intro j hj
            rw [hout.other j hj, addPrevCol_other _ _ _ hj]
          · intro i hi
            by_cases hip : i = prev
            · subst hip; exact ⟨hpl, _, hra, hget⟩
            · apply hout.supp
              rwa [Pi.add_apply, Pi.single_eq_of_ne hip, add_zero] at hi
          · rw [hout.eq, hz]
            have e1 : ∀ i ∈ range pivPrev.length, a i • zv p ((addPrevCol p inv M prev col).col i) =
                a i • zv p (M.col i) := by
              intro i hi
              rw [mem_range] at hi
              rw [addPrevCol_other _ _ _ (by omega : i ≠ col)]
            rw [Finset.sum_congr rfl e1]
            simp only [Pi.add_apply, add_smul, Finset.sum_add_distrib]
            have e2 : ∑ i ∈ range pivPrev.length,
                (Pi.single prev (inv : ZMod p) : ℕ → ZMod p) i • zv p (M.col i) =
                (inv : ZMod p) • zv p (M.col prev) := by
              rw [Finset.sum_eq_single prev]
              · rw [Pi.single_eq_same]
              · intro i _ hi; rw [Pi.single_eq_of_ne hi, zero_smul]
              · intro hn; exact absurd (mem_range.2 hpl) hn
            rw [e2]
            abel

/-- The invariant of the loop over image generators; `s.2` is `new_pivots`. -/
structure GMid (E : IKEnv α) [Fact E.p.Prime] (BD : Mat) (L : List α) (rad : α) (st0 : IK α)
    (c : ℕ) (s : IK α × List Int) : Prop where
  core : GCore E BD L (· < rad) (· ≤ rad) c s.1
  hist : GHist E BD L s.1 (· < rad)
  N : ∀ q ∈ s.2, ∃ i : ℕ, q = i ∧ ∃ k, k < c ∧ s.1.piv k = i
  N2 : ∀ k, k < c → ∀ i : ℕ, s.1.piv k = i → (i : Int) ∈ s.2 ∨ st0.piv k = i
  un : ∀ k, c ≤ k → s.1.piv k = st0.piv k
  oinj : ∀ k k', ∀ i : ℕ, st0.piv k = i → st0.piv k' = i → k = k'

variable {E : IKEnv α} [Fact E.p.Prime] {BD : Mat} {L : List α} {rad R : α}
  {aA aB dA bA dB : List ℕ} {st0 : IK α} {c : ℕ} {s : IK α × List Int}

/-- Nothing happens. -/
theorem GMid.skip (hL : Lists E rad aA aB dA bA dB) (h : GMid E BD L rad st0 c s)
    (hdB : ∀ i : ℕ, st0.piv c = i → i ∉ dB) (hN : st0.piv c ∉ s.2)
    (hb : c ∉ bA) : GMid E BD L rad st0 (c + 1) s := by
  have hc := h.core
  have hrc : s.1.piv c = st0.piv c := h.un c le_rfl
  have hbb : BornBy (· ≤ rad) E.A.barcode c ↔ BornBy (· < rad) E.A.barcode c := by
    rw [born_le_iff]
    constructor
    · rintro (h1 | h1)
      · exact h1
      · exact absurd ((hL.mbA c).2 h1) hb
    · exact Or.inl
  refine ⟨{ hc with
      unborn := ?_, actLo := ?_, actHi := ?_, injLo := ?_, injHi := ?_, pre := ?_ },
    h.hist, ?_, ?_, ?_, h.oinj⟩
  · intro j hj
    by_cases hjc : j = c
    · subst hjc
      have := hc.unborn j hj
      rw [cutAt_hi le_rfl] at this
      rw [cutAt_lo (by omega), this, hbb]
    · rw [cut_succ_ne hjc]; exact hc.unborn j hj
  · intro j hj r hjr
    by_cases hjc : j = c
    · subst hjc
      exact act_new (hc.actHi j le_rfl r hjr) fun hb => hdB r (hrc ▸ hjr) ((hL.mdB r).2 hb)
    · exact hc.actLo j (by omega) r hjr
  · intro j hj; exact hc.actHi j (by omega)
  · have key : ∀ k, k < c → ∀ i : ℕ, s.1.piv k = i → s.1.piv c = i → False := by
      intro k hk i h1 h2
      rcases h.N2 k hk i h1 with h3 | h3
      · rw [← h2, hrc] at h3; exact hN h3
      · have := h.oinj k c i h3 (hrc ▸ h2); omega
    intro k k' hk hk' i h1 h2
    by_cases hkc : k = c
    · by_cases hkc' : k' = c
      · omega
      · exact (key k' (by omega) i h2 (hkc ▸ h1)).elim
    · by_cases hkc' : k' = c
      · exact (key k (by omega) i h1 (hkc' ▸ h2)).elim
      · exact hc.injLo k k' (by omega) (by omega) i h1 h2
  · intro k k' hk hk'
    exact hc.injHi k k' (by omega) (by omega)
  · intro m
    rw [hc.pre m]
    refine spn_congr (fun j _ => ?_) fun _ _ _ => rfl
    by_cases hjc : j = c
    · subst hjc
      rw [cutAt_hi le_rfl, cutAt_lo (by omega)]
      exact hbb.symm
    · rw [cut_succ_ne hjc]
  · intro q hq
    obtain ⟨i, h1, k, h2, h3⟩ := h.N q hq
    exact ⟨i, h1, k, by omega, h3⟩
  · intro k hk i hi
    by_cases hkc : k = c
    · subst hkc; right; rw [← hrc]; exact hi
    · exact h.N2 k (by omega) i hi
  · intro k hk; exact h.un k (by omega)

/-- What the reduction of column `c` does. -/
structure GRed (E : IKEnv α) [Fact E.p.Prime] (rad : α) (s : IK α) (c : ℕ) (M : Mat)
    (q : Int) (a : ℕ → ZMod E.p) : Prop where
  okM : MatOK E.p E.B.dim E.A.dim M
  otherM : ∀ j, j ≠ c → M.col j = s.im.col j
  supp : ∀ i, a i ≠ 0 → i < c ∧ s.Has i
  eq : zv E.p (M.col c) = E.V s c + ∑ i ∈ range c, a i • E.V s i
  res : (q = -1 ∧ ∀ i, ActBy (· ≤ rad) E.B.barcode i → zv E.p (M.col c) i = 0) ∨
    ∃ i : ℕ, q = i ∧ IsPivOn (ActBy (· ≤ rad) E.B.barcode) (zv E.p (M.col c)) i ∧
      ∀ k, k < c → s.piv k ≠ i

theorem GMid.reduce (hE : MulOK E BD L R) (hL : Lists E rad aA aB dA bA dB)
    (h : GMid E BD L rad st0 c s) (hcn : c < E.A.dim) {M : Mat} {T : Option Mat} {q : Int}
    (hok : pivotCheckReduce E.p s.1.im aB c (s.1.pivIm.take c) (some s.1.T) = .ok (M, T, q)) :
    ∃ a, GRed E rad s.1 c M q a := by
  have hc := h.core
  have hlen : (s.1.pivIm.take c).length = c := by
    rw [List.length_take, hc.pivIm]; omega
  have hget : ∀ i, i < c → (s.1.pivIm.take c)[i]? = some (s.1.piv i) := by
    intro i hi
    rw [List.getElem?_take, if_pos hi]
    unfold IK.piv
    rw [List_getD_eq_getElem _ _ (by rw [hc.pivIm]; omega)]
    exact List.getElem?_eq_getElem _
  have haB : (fun r => r ∈ aB) = ActBy (· ≤ rad) E.B.barcode := funext fun r => propext (hL.mB r)
  obtain ⟨a, h2⟩ := pcrLoop_ends hE.hp.pos (m := E.B.dim) (n := E.A.dim) hL.sB hcn (by omega) _ _ _ _ _
    _ hc.im hok
  refine ⟨a, h2.ok, h2.other, ?_, ?_, ?_⟩
  · intro i hi
    obtain ⟨h3, r, h4, h5⟩ := h2.supp i hi
    rw [hlen] at h3
    rw [hget i h3] at h5
    exact ⟨h3, r, by injection h5⟩
  · rw [h2.eq, hlen]; rfl
  · rcases h2.res with ⟨h3, h4⟩ | ⟨r, h3, h4, h5⟩
    · exact Or.inl ⟨h3, fun i hi => h4 i ((hL.mB i).2 hi)⟩
    · right
      refine ⟨r, h3, ?_, ?_⟩
      · rw [haB] at h4; exact h4
      · intro k hk hkr
        apply h5
        have := List.mem_of_getElem? (hget k hk)
        rwa [hkr] at this

/-- The step of the invariant. -/
theorem GMid.update (hE : MulOK E BD L R) (h : GMid E BD L rad st0 c s)
    (hcn : c < E.A.dim) (hpc : s.1.piv c ≠ -1) (hborn : BornBy (· ≤ rad) E.A.barcode c)
    {M : Mat} {q : Int} {a : ℕ → ZMod E.p} (hr : GRed E rad s.1 c M q a) {st' : IK α}
    {N : List Int} (hpiv' : st'.pivIm = s.1.pivIm.set c q) (him : st'.im = M)
    (hstep : (q ≠ -1 ∧ st'.imDeath = s.1.imDeath ∧ N = s.2 ++ [q]) ∨
      (q = -1 ∧ st'.imDeath = s.1.imDeath.set c rad ∧ N = s.2)) :
    GMid E BD L rad st0 (c + 1) (st', N) := by
  have hc := h.core
  have hpl : c < s.1.pivIm.length := by rw [hc.pivIm]; exact hcn
  have hpiv : ∀ j, st'.piv j = if j = c then q else s.1.piv j := by
    intro j
    unfold IK.piv
    rw [hpiv']
    exact getD_set _ _ _ _ _ hpl
  have hpne : ∀ j, j ≠ c → st'.piv j = s.1.piv j := fun j hj => by rw [hpiv, if_neg hj]
  have hpcc : st'.piv c = q := by rw [hpiv, if_pos rfl]
  have hVne : ∀ j, j ≠ c → E.V st' j = E.V s.1 j := by
    intro j hj
    unfold IKEnv.V
    rw [← hr.otherM j hj, him]
  have hVc : E.V st' c = zv E.p (M.col c) := by unfold IKEnv.V; rw [him]
  have hq : q = -1 ∨ ∃ r : ℕ, q = r := by
    rcases hr.res with ⟨h1, -⟩ | ⟨r, h1, -⟩
    · exact Or.inl h1
    · exact Or.inr ⟨r, h1⟩
  have hHne : ∀ j, j ≠ c → (st'.Has j ↔ s.1.Has j) := by
    intro j hj; unfold IK.Has; rw [hpne j hj]
  have hlen : st'.pivIm.length = E.A.dim := by rw [hpiv', List.length_set, hc.pivIm]
  have hdl : st'.imDeath.length = E.A.dim := by
    rcases hstep with ⟨-, e, -⟩ | ⟨-, e, -⟩
    · rw [e]; exact hc.imDeath
    · rw [e, List.length_set]; exact hc.imDeath
  have hres : ∀ r : ℕ, q = r → IsPivOn (ActBy (· ≤ rad) E.B.barcode) (zv E.p (M.col c)) r ∧
      ∀ k, k < c → s.1.piv k ≠ r := by
    intro r hqr
    rcases hr.res with ⟨h1, -⟩ | ⟨r', h1, h2⟩
    · omega
    · have : r = r' := by omega
      subst this; exact h2
  have hcsupp : ∀ l, E.V s.1 c l ≠ 0 → ActBy (· ≤ rad) E.B.barcode l := by
    intro l hl
    rcases hc.pcase c hcn with h1 | h1 | h1
    · rw [hc.orig c hcn h1] at hl
      have hlc : l = c := by
        by_contra hne; exact hl (Pi.single_eq_of_ne hne _)
      subst hlc
      obtain ⟨b, hb, hbr⟩ := (hE.born_iff _ l).1 hborn
      refine ⟨b, hb, hbr, ?_⟩
      have hnb := (hc.unborn l hcn).1 h1
      rw [cutAt_hi le_rfl, hE.born_iff] at hnb
      have hrb : ¬ b.1 < rad := fun hlt => hnb ⟨b, hb, hlt⟩
      intro hd
      exact hrb (lt_of_lt_of_le (hE.wf b (List.mem_of_getElem? hb)).1 hd)
    · exact absurd h1 hpc
    · exact hc.supp c h1 l hl
  have hMsupp : ∀ l, zv E.p (M.col c) l ≠ 0 → ActBy (· ≤ rad) E.B.barcode l := by
    intro l hl
    rw [hr.eq, Pi.add_apply, Finset.sum_apply] at hl
    by_cases h1 : E.V s.1 c l = 0
    · rw [h1, zero_add] at hl
      obtain ⟨i, -, hi⟩ := Finset.exists_ne_zero_of_sum_ne_zero hl
      rw [Pi.smul_apply, smul_eq_mul] at hi
      obtain ⟨h2, h3⟩ := hr.supp i (left_ne_zero_of_mul hi)
      exact hc.supp i h3 l (right_ne_zero_of_mul hi)
    · exact hcsupp l h1
  -- spans
  have hpre1 : ∀ m, spn (ZMod E.p) (fun j => E.V s.1 j) (fun j => s.1.Has j ∨ j = c) m =
      spn (ZMod E.p) (fun j => E.mt BD L (· ≤ rad) j)
        (fun j => BornBy (cutAt (· < rad) (· ≤ rad) (c + 1) j) E.A.barcode j) m := by
    intro m
    rcases hc.pcase c hcn with h1 | h1 | h1
    · have hxy : E.V s.1 c = E.mt BD L (· ≤ rad) c := by
        have hV := hc.orig c hcn h1
        have hA : ActBy (· ≤ rad) E.B.barcode c := hcsupp c (by rw [hV]; simp)
        obtain ⟨b, hb, -, hd⟩ := hA
        rw [hV]; exact (mtr_single (P := (· ≤ rad)) hb hd).symm
      rw [spn_insert_congr (x := fun j => E.V s.1 j) hc.pre hxy m]
      refine spn_congr (fun j _ => ?_) fun _ _ _ => rfl
      by_cases hjc : j = c
      · subst hjc
        have e : BornBy (cutAt (· < rad) (· ≤ rad) (j + 1) j) E.A.barcode j := by
          rw [cutAt_lo (Nat.lt_succ_self j)]; exact hborn
        simp [e]
      · rw [cut_succ_ne hjc]; simp [hjc]
    · exact absurd h1 hpc
    · have hcb : BornBy (· < rad) E.A.barcode c := by
        by_contra hnb
        have := (hc.unborn c hcn).2 (by rw [cutAt_hi le_rfl]; exact hnb)
        obtain ⟨r, hr⟩ := h1
        omega
      have e1 : spn (ZMod E.p) (fun j => E.V s.1 j) (fun j => s.1.Has j ∨ j = c) m =
          spn (ZMod E.p) (fun j => E.V s.1 j) s.1.Has m :=
        spn_congr (fun j _ => ⟨fun h => h.elim id (fun e => e ▸ h1), Or.inl⟩) fun _ _ _ => rfl
      rw [e1, hc.pre m]
      refine spn_congr (fun j _ => ?_) fun _ _ _ => rfl
      by_cases hjc : j = c
      · subst hjc
        have e : BornBy (cutAt (· < rad) (· ≤ rad) (j + 1) j) E.A.barcode j := by
          rw [cutAt_lo (Nat.lt_succ_self j)]; exact hborn
        have e' : BornBy (cutAt (· < rad) (· ≤ rad) j j) E.A.barcode j := by
          rw [cutAt_hi le_rfl]; exact hcb
        exact ⟨fun _ => e, fun _ => e'⟩
      · rw [cut_succ_ne hjc]
  have hcomb : (∑ i ∈ range c, a i • E.V s.1 i) ∈
      spn (ZMod E.p) (fun j => E.V s.1 j) (fun j => s.1.Has j ∨ j = c) c := by
    refine Submodule.sum_mem _ fun i hi => ?_
    by_cases hai : a i = 0
    · rw [hai, zero_smul]; exact Submodule.zero_mem _
    · exact Submodule.smul_mem _ _ (mem_spn (x := fun j => E.V s.1 j)
        (mem_range.1 hi) (Or.inl (hr.supp i hai).2))
  refine ⟨⟨by dsimp only; rw [him]; exact hr.okM, hlen, hdl, ?_,
    ?_, ?_, ?_, ?_, ?_, ?_, ?_, ?_, ?_⟩, ?_, ?_, ?_, ?_, h.oinj⟩
  · intro j hj
    by_cases hjc : j = c
    · subst hjc
      rw [hpcc, cutAt_lo (by omega)]
      refine ⟨fun e => ?_, fun e => absurd hborn e⟩
      rcases hq with h1 | ⟨r, h1⟩ <;> omega
    · rw [hpne j hjc, cut_succ_ne hjc]; exact hc.unborn j hj
  · intro j hj hj2
    by_cases hjc : j = c
    · subst hjc
      rw [hpcc] at hj2
      rcases hq with h1 | ⟨r, h1⟩ <;> omega
    · rw [hpne j hjc] at hj2
      rw [hVne j hjc]; exact hc.orig j hj hj2
  · intro j hj
    by_cases hjc : j = c
    · subst hjc
      rw [hpcc]
      rcases hq with h1 | ⟨r, h1⟩
      · exact Or.inr (Or.inl h1)
      · exact Or.inr (Or.inr ⟨r, by rw [hpcc]; exact h1⟩)
    · rw [hpne j hjc, hHne j hjc]; exact hc.pcase j hj
  · intro j hj' r hj
    by_cases hjc : j = c
    · subst hjc
      rw [hpcc] at hj
      exact (hres r hj).1.1
    · rw [hpne j hjc] at hj
      exact hc.actLo j (by omega) r hj
  · intro j hj' r hj
    have hjc : j ≠ c := by omega
    rw [hpne j hjc] at hj
    exact hc.actHi j (by omega) r hj
  · intro j hj l hl
    by_cases hjc : j = c
    · subst hjc
      rw [hVc] at hl
      exact hMsupp l hl
    · rw [hHne j hjc] at hj
      rw [hVne j hjc] at hl
      exact hc.supp j hj l hl
  · have key : ∀ k, k < c → ∀ i : ℕ, st'.piv k = i → st'.piv c = i → False := by
      intro k hk i h1 h2
      rw [hpcc] at h2
      rw [hpne k (by omega)] at h1
      exact (hres i h2).2 k hk h1
    intro k k' hk hk' i h1 h2
    by_cases hkc : k = c
    · by_cases hkc' : k' = c
      · omega
      · exact (key k' (by omega) i h2 (hkc ▸ h1)).elim
    · by_cases hkc' : k' = c
      · exact (key k (by omega) i h1 (hkc' ▸ h2)).elim
      · rw [hpne k hkc] at h1
        rw [hpne k' hkc'] at h2
        exact hc.injLo k k' (by omega) (by omega) i h1 h2
  · intro k k' hk hk' i h1 h2
    rw [hpne k (by omega)] at h1
    rw [hpne k' (by omega)] at h2
    exact hc.injHi k k' (by omega) (by omega) i h1 h2
  · intro m
    rw [← hpre1 m]
    rcases hq with hq1 | ⟨r, hq1⟩
    · have hz : zv E.p (M.col c) = 0 := by
        funext l
        by_contra hne
        rcases hr.res with ⟨-, h2⟩ | ⟨r', h1, -⟩
        · exact hne (h2 l (hMsupp l hne))
        · omega
      rw [hr.eq] at hz
      have hin : E.V s.1 c ∈
          spn (ZMod E.p) (fun j => E.V s.1 j) (fun j => s.1.Has j ∨ j = c) c := by
        rw [eq_neg_of_add_eq_zero_left hz]
        exact Submodule.neg_mem _ hcomb
      rw [← spn_remove (x := fun j => E.V s.1 j) hin]
      refine spn_congr (fun j _ => ?_) fun j _ hj => ?_
      · by_cases hjc : j = c
        · subst hjc
          simp only [ne_eq, not_true_eq_false, and_false, iff_false]
          rintro ⟨r, hr⟩
          rw [hpcc] at hr; omega
        · rw [hHne j hjc]; simp [hjc]
      · have hjc : j ≠ c := by
          rintro rfl
          obtain ⟨r, hr⟩ := hj
          rw [hpcc] at hr; omega
        rw [hVne j hjc]
    · have hop : E.V st' c - E.V s.1 c ∈
          spn (ZMod E.p) (fun j => E.V s.1 j) (fun j => s.1.Has j ∨ j = c) c := by
        rw [hVc, hr.eq, add_sub_cancel_left]
        exact hcomb
      rw [← spn_op (x := fun j => E.V s.1 j) (x' := fun j => E.V st' j)
        (fun j hj => by simp only [hVne j hj]) hop]
      refine spn_congr (fun j _ => ?_) fun _ _ _ => rfl
      by_cases hjc : j = c
      · subst hjc
        simp only [or_true, iff_true]
        exact ⟨r, by rw [hpcc]; exact hq1⟩
      · rw [hHne j hjc]; simp [hjc]
  · intro j hj hj1 e he
    rcases hstep with ⟨h1, h2, -⟩ | ⟨h1, h2, -⟩
    · have hjc : j ≠ c := by rintro rfl; exact h1 (hpcc ▸ hj1)
      rw [hpne j hjc] at hj1
      dsimp only at he
      rw [h2] at he
      exact hc.db j hj hj1 e he
    · dsimp only at he
      rw [h2, List.getElem?_set] at he
      by_cases hjc : j = c
      · subst hjc
        rw [if_pos rfl, if_pos (by rw [hc.imDeath]; exact hj), Option.some.injEq] at he
        exact he ▸ le_rfl
      · rw [if_neg (fun e => hjc e.symm)] at he
        rw [hpne j hjc] at hj1
        exact hc.db j hj hj1 e he
  · refine h.hist.update hE.lenA.symm ?_ ?_
    · intro j hj hj1
      have hjc : j ≠ c := by rintro rfl; exact hpc hj1
      refine ⟨by rw [hpne j hjc]; exact hj1, ?_⟩
      rcases hstep with ⟨-, h2, -⟩ | ⟨-, h2, -⟩
      · dsimp only; rw [h2]
      · dsimp only; rw [h2, List.getElem?_set, if_neg (fun e => hjc e.symm)]
    · intro j hj hj1 hj2
      have hjc : j = c := by
        by_contra hjc
        rw [hpne j hjc] at hj2
        exact hj1 hj2
      subst hjc
      rcases hstep with ⟨h1, -⟩ | ⟨-, h2, -⟩
      · exact absurd (hpcc ▸ hj2) h1
      · dsimp only
        rw [h2, List.getElem?_set, if_pos rfl, if_pos (by rw [hc.imDeath]; exact hj)]
  · intro q' hq'
    have hold : q' ∈ s.2 → ∃ i : ℕ, q' = i ∧ ∃ k, k < c + 1 ∧ st'.piv k = i := by
      intro h1
      obtain ⟨i, h2, k, h3, h4⟩ := h.N q' h1
      exact ⟨i, h2, k, by omega, by rw [hpne k (by omega)]; exact h4⟩
    rcases hstep with ⟨h1, -, rfl⟩ | ⟨h1, -, rfl⟩
    · rcases List.mem_append.1 hq' with h2 | h2
      · exact hold h2
      · obtain ⟨r, h3⟩ := hq.resolve_left h1
        refine ⟨r, (List.mem_singleton.1 h2).trans h3, c, by omega, hpcc.trans h3⟩
    · exact hold hq'
  · intro k hk i hi
    by_cases hkc : k = c
    · subst hkc
      rw [hpcc] at hi
      left
      rcases hstep with ⟨-, -, rfl⟩ | ⟨h1, -⟩
      · simp [hi]
      · omega
    · rw [hpne k hkc] at hi
      refine (h.N2 k (by omega) i hi).imp (fun h1 => ?_) id
      rcases hstep with ⟨-, -, rfl⟩ | ⟨-, -, rfl⟩
      · exact List.mem_append_left _ h1
      · exact h1
  · intro k hk
    rw [hpne k (by omega)]
    exact h.un k (by omega)

theorem GMid.step (hE : MulOK E BD L R) (hL : Lists E rad aA aB dA bA dB)
    (h : GMid E BD L rad st0 c s) (hcn : c < E.A.dim) (hst0 : st0.pivIm.length = E.A.dim) :
    ∀ s', imStep E rad aB dA bA dB st0.pivIm s c = .ok s' → GMid E BD L rad st0 (c + 1) s' := by
  intro s' hok
  have hc := h.core
  have hrc : s.1.piv c = st0.piv c := h.un c le_rfl
  have hold : st0.pivIm.getD c 0 = st0.piv c := by
    unfold IK.piv
    have : c < st0.pivIm.length := by omega
    rw [List_getD_eq_getElem _ _ this, List_getD_eq_getElem _ _ this]
  unfold imStep at hok
  rw [hold] at hok
  by_cases ht : ((decide (0 ≤ st0.piv c) &&
        decide ((s.1.im.col c).getD (st0.piv c).toNat 0 % (E.p : Int) = 0)) ||
      dB.any (fun d => (d : Int) == st0.piv c) || s.2.contains (st0.piv c) ||
      bA.contains c) = true
  · rw [if_pos ht] at hok
    have hcase : c ∈ bA ∨ ∃ r : ℕ, s.1.piv c = r := by
      rw [Bool.or_eq_true, Bool.or_eq_true, Bool.or_eq_true, Bool.and_eq_true] at ht
      rcases ht with ((⟨h1, -⟩ | h1) | h1) | h1
      · right
        have h1 : 0 ≤ st0.piv c := by simpa using h1
        exact ⟨(st0.piv c).toNat, by rw [hrc]; omega⟩
      · right
        rw [List.any_eq_true] at h1
        obtain ⟨d, -, h3⟩ := h1
        have : (d : Int) = st0.piv c := by simpa using h3
        exact ⟨d, by rw [hrc, this]⟩
      · right
        have h1 : st0.piv c ∈ s.2 := by simpa using h1
        obtain ⟨i, h2, -⟩ := h.N _ h1
        exact ⟨i, by rw [hrc, h2]⟩
      · left; simpa using h1
    have hpc : s.1.piv c ≠ -1 ∧ BornBy (· ≤ rad) E.A.barcode c := by
      rcases hcase with h1 | ⟨r, h1⟩
      · have hb := (hL.mbA c).1 h1
        refine ⟨?_, born_le_iff.2 (Or.inr hb)⟩
        have := (hc.unborn c hcn).2 (by rw [cutAt_hi le_rfl]; exact not_born_of_birth hb)
        omega
      · refine ⟨by omega, ?_⟩
        by_contra hnb
        have := (hc.unborn c hcn).2 (by rw [cutAt_hi le_rfl]; exact fun h => hnb h.le)
        omega
    obtain ⟨hpc, hborn⟩ := hpc
    cases hpr : pivotCheckReduce E.p s.1.im aB c (s.1.pivIm.take c) (some s.1.T) with
    | error e => rw [hpr] at hok; cases hok
    | ok out =>
      obtain ⟨M, T, q⟩ := out
      obtain ⟨a, h2⟩ := h.reduce hE hL hcn hpr
      rw [hpr] at hok
      dsimp only at hok
      by_cases hq : q = -1
      · subst hq
        rw [if_neg (by simp)] at hok
        unfold imDie at hok
        rw [if_neg (by rw [hE.full]; simp), if_neg (by rw [hE.start]; omega)] at hok
        obtain rfl := Except.ok.inj hok
        exact h.update hE hcn hpc hborn h2 rfl rfl (Or.inr ⟨rfl, rfl, rfl⟩)
      · rw [if_pos hq] at hok
        obtain rfl := Except.ok.inj hok
        exact h.update hE hcn hpc hborn h2 rfl rfl (Or.inl ⟨hq, rfl, rfl⟩)
  · rw [if_neg ht] at hok
    rw [Bool.or_eq_true, Bool.or_eq_true, Bool.or_eq_true] at ht
    push Not at ht
    obtain ⟨⟨⟨-, h2⟩, h3⟩, h4⟩ := ht
    obtain rfl := Except.ok.inj hok
    refine h.skip hL ?_ (by simpa using h3) (by simpa using h4)
    intro i hi hd
    apply h2
    rw [List.any_eq_true]
    exact ⟨i, hd, by simp [hi]⟩

theorem foldlM_range_ok {ε σ : Type*} (f : σ → ℕ → Except ε σ) (I : ℕ → σ → Prop) (n : ℕ) (s0 : σ)
    (h0 : I 0 s0) (hstep : ∀ c, c < n → ∀ s, I c s → ∀ s', f s c = .ok s' → I (c + 1) s') :
    ∀ s, (List.range n).foldlM f s0 = .ok s → I n s := by
  induction n with
  | zero =>
    intro s h
    simp [pure, Except.pure] at h
    exact h ▸ h0
  | succ n ih =>
    intro s h
    rw [List.range_succ, List.foldlM_append] at h
    cases h1 : (List.range n).foldlM f s0 with
    | error e => rw [h1] at h; cases h
    | ok s1 =>
      rw [h1] at h
      have h2 : f s1 n = .ok s := by
        cases h3 : f s1 n with
        | error e =>
          simp only [bind, Except.bind, List.foldlM_cons, h3] at h
          cases h
        | ok s2 =>
          simp only [bind, Except.bind, List.foldlM_cons, List.foldlM_nil, h3, pure, Except.pure] at h
          exact h
      exact hstep n (by omega) s1 (ih (fun c hc => hstep c (by omega)) s1 h1) s h2

/-- One radius. -/
theorem ikRadius_mul (hE : MulOK E BD L R) {st : IK α}
    (hc : GCore E BD L (· < rad) (· < rad) E.A.dim st) (hh : GHist E BD L st (· < rad)) :
    ∀ st', ikRadius E st rad = .ok st' →
      GCore E BD L (· ≤ rad) (· ≤ rad) E.A.dim st' ∧ GHist E BD L st' (· < rad) := by
  intro st' hok
  let aA := barIndices E.A.barcode fun b => decide (b.1 ≤ rad) && decide (rad < b.2)
  let aB := barIndices E.B.barcode fun b => decide (b.1 ≤ rad) && decide (rad < b.2)
  let dA := barIndices E.A.barcode fun b => decide (b.2 = rad)
  let bA := barIndices E.A.barcode fun b => decide (b.1 = rad)
  let dB := barIndices E.B.barcode fun b => decide (b.2 = rad)
  have hL : Lists E rad aA aB dA bA dB := by
    refine ⟨?_, barIndices_sorted _ _, ?_, barIndices_sorted _ _, ?_, ?_, ?_⟩
    · intro i; simp [aA, mem_barIndices, ActBy]
    · intro i; simp [aB, mem_barIndices, ActBy]
    · intro i; simp [dA, mem_barIndices]
    · intro i; simp [bA, mem_barIndices]
    · intro i; simp [dB, mem_barIndices]
  obtain ⟨st1, h1, h2, h3, hinj⟩ := hc.enter hE hL.mdA hh
  have h0 : GMid E BD L rad st1 0 (st1, []) :=
    ⟨h2, h3, by simp, fun k hk => absurd hk (by omega), fun _ _ => rfl, hinj⟩
  have hinv := foldlM_range_ok (imStep E rad aB dA bA dB st1.pivIm)
    (fun c s => GMid E BD L rad st1 c s) E.A.dim (st1, []) h0
    (fun c hcn s hs => hs.step hE hL hcn h2.pivIm)
  have h4 : imPhase E rad aB dA bA dB st1 = .ok st' := by
    unfold ikRadius Basis.active Basis.death Basis.birth at hok
    rw [hE.flatA, hE.flatB] at hok
    simp only [hE.full, bind, Except.bind, Bool.false_eq_true, if_false] at hok
    have h1' : relPhase E rad (barIndices E.A.barcode fun b => decide (b.2 = rad)) st = .ok st1 := h1
    rw [h1'] at hok
    exact hok
  unfold imPhase at h4
  cases h6 : (List.range E.A.dim).foldlM (imStep E rad aB dA bA dB st1.pivIm) (st1, []) with
  | error e => rw [h6] at h4; cases h4
  | ok s =>
  rw [h6] at h4
  obtain rfl := Except.ok.inj h4
  have h5 := hinv s h6
  refine ⟨?_, h5.hist⟩
  · have hc := h5.core
    have hpl : ∀ j, s.1.Has j → j < E.A.dim := fun j h => IK.has_lt hc.pivIm h
    have hcc : ∀ j, j < E.A.dim → cutAt (· < rad) (· ≤ rad) E.A.dim j = (· ≤ rad) :=
      fun j hj => cutAt_lo hj
    have hc0 : ∀ j, cutAt (· ≤ rad) (· ≤ rad) E.A.dim j = (· ≤ rad) := fun j => by
      unfold cutAt; split <;> rfl
    exact { hc with
      unborn := fun j hj => by rw [hc0, ← hcc j hj]; exact hc.unborn j hj
      actHi := fun j hj r hr => absurd (hpl j ⟨r, hr⟩) (by omega)
      injHi := fun j j' hj _ r hr => absurd (hpl j ⟨r, hr⟩) (by omega)
      pre := fun m => by
        rw [hc.pre m]
        refine spn_congr (fun j _ => ?_) fun _ _ _ => rfl
        rw [hc0]
        by_cases hj : j < E.A.dim
        · rw [hcc j hj]
        · have hn : ∀ P : α → Prop, ¬ BornBy P E.A.barcode j := fun P hb => hj (hE.lenA ▸ hb.lt)
          exact ⟨fun h => absurd h (hn _), fun h => absurd h (hn _)⟩ }

/-- The history at the present. -/
theorem GCore.present (hE : MulOK E BD L R) {t : α} {st : IK α}
    (hc : GCore E BD L (· ≤ t) (· ≤ t) E.A.dim st) (m : ℕ) :
    Module.finrank (ZMod E.p) (spn (ZMod E.p) (fun j => E.mt BD L (· ≤ t) j)
      (BornBy (· ≤ t) E.A.barcode) m) = (rset E st t m).card := by
  classical
  have hc0 : ∀ j, cutAt (· ≤ t) (· ≤ t) E.A.dim j = (· ≤ t) := fun j => by
    unfold cutAt; split <;> rfl
  have h1 := hc.pre m
  simp only [hc0] at h1
  have hset' : ∀ m j, j ∈ rset E st t m ↔ j < m ∧ st.Has j := by
    intro m j
    unfold rset
    rw [Finset.mem_filter, mem_range]
    refine and_congr_right fun _ => ?_
    constructor
    · rintro ⟨hb, hd⟩
      have hj : j < E.A.dim := hE.lenA ▸ hb.lt
      rcases hc.pcase j hj with h2 | h2 | h2
      · have := (hc.unborn j hj).1 h2
        rw [hc0] at this
        exact absurd hb this
      · have hl : j < st.imDeath.length := by rw [hc.imDeath]; exact hj
        have e := List.getElem?_eq_getElem hl
        exact absurd (hd h2 _ e) (not_lt.2 (hc.db j hj h2 _ e))
      · exact h2
    · intro hH
      have hj := IK.has_lt hc.pivIm hH
      refine ⟨?_, fun h2 => ?_⟩
      · by_contra hnb
        have := (hc.unborn j hj).2 (by rw [hc0]; exact hnb)
        obtain ⟨r, hr⟩ := hH
        omega
      · obtain ⟨r, hr⟩ := hH
        omega
  -- the columns with a pivot span all active rows and there are at most as many of them
  set n := E.A.dim with hn
  set Act := (range n).filter (fun i => ActBy (· ≤ t) E.B.barcode i) with hAct
  have hHas : ∀ j, j ∈ rset E st t n ↔ st.Has j := by
    intro j
    have hs : j ∈ rset E st t n ↔ j < n ∧ st.Has j := hset' n j
    rw [hs]
    exact ⟨fun h => h.2, fun h => ⟨IK.has_lt hc.pivIm h, h⟩⟩
  have hcard : (rset E st t n).card ≤ Act.card := by
    refine Finset.card_le_card_of_injOn (fun j => (st.piv j).toNat) ?_ ?_
    · intro j hj
      obtain ⟨r, hr⟩ := (hHas j).1 hj
      have h3 := hc.actLo j (IK.has_lt hc.pivIm ⟨r, hr⟩) r hr
      have hr' : (st.piv j).toNat = r := by rw [hr]; simp
      dsimp only
      rw [hr', Finset.mem_coe, hAct, Finset.mem_filter, mem_range]
      refine ⟨?_, h3⟩
      rw [hn, hE.dims, hE.lenB]
      exact h3.lt
    · intro j hj j' hj' he
      obtain ⟨r, hr⟩ := (hHas j).1 hj
      obtain ⟨r', hr'⟩ := (hHas j').1 hj'
      have : r = r' := by simpa [hr, hr'] using he
      subst this
      exact hc.injLo j j' (IK.has_lt hc.pivIm ⟨r, hr⟩) (IK.has_lt hc.pivIm ⟨r, hr'⟩) r hr hr'
  have hrank : Act.card ≤ Module.finrank (ZMod E.p) (spn (ZMod E.p) (fun j => E.V st j) st.Has n) := by
    have hli : LinearIndependent (ZMod E.p)
        (fun i : Act => (Pi.single (i : ℕ) (1 : ZMod E.p) : ℕ → ZMod E.p)) := by
      have := indep_of_pivots (K := ZMod E.p) (S := fun _ => True) (U := Act)
        (fun i => (Pi.single i (1 : ZMod E.p) : ℕ → ZMod E.p)) (fun i => i)
        (fun i _ => isPivOn_single trivial) (fun _ _ _ _ h => h)
      simpa [restr_single] using this
    rw [← Fintype.card_coe, ← finrank_span_eq_card hli]
    have hfin : Module.Finite (ZMod E.p)
        (spn (ZMod E.p) (fun j => E.V st j) st.Has n) := by
      unfold spn
      refine Module.Finite.span_of_finite _ ?_
      exact ((Finset.range n).finite_toSet.subset fun j hj => by simpa using hj.1).image _
    refine Submodule.finrank_mono ?_
    rw [Submodule.span_le, hc.pre n]
    rintro _ ⟨⟨i, hi⟩, rfl⟩
    rw [hAct, Finset.mem_filter, mem_range] at hi
    obtain ⟨hin, b, hb, hb1, hb2⟩ := hi
    have e : (Pi.single i (1 : ZMod E.p) : ℕ → ZMod E.p) = E.mt BD L (· ≤ t) i :=
      (mtr_single (P := (· ≤ t)) hb hb2).symm
    simp only [SetLike.mem_coe]
    rw [e]
    refine mem_spn (x := fun j => E.mt BD L (· ≤ t) j) hin ?_
    rw [hc0, hE.born_iff]
    exact ⟨b, hb, hb1⟩
  have hspan : ∀ m, spn (ZMod E.p) (fun j => E.V st j) st.Has m =
      Submodule.span (ZMod E.p) (Set.range fun j : rset E st t m => E.V st j) := by
    intro m
    unfold spn
    congr 1
    ext x
    constructor
    · rintro ⟨j, hj, rfl⟩; exact ⟨⟨j, (hset' m j).2 hj⟩, rfl⟩
    · rintro ⟨⟨j, hj⟩, rfl⟩; exact ⟨j, (hset' m j).1 hj, rfl⟩
  have hind : LinearIndependent (ZMod E.p) fun j : rset E st t n => E.V st j := by
    rw [linearIndependent_iff_card_le_finrank_span, Fintype.card_coe]
    refine hcard.trans ?_
    rw [hspan n] at hrank
    exact hrank
  have hind' : LinearIndependent (ZMod E.p) fun j : rset E st t m => E.V st j := by
    refine hind.comp (fun j : rset E st t m => (⟨j.1, (hHas j.1).2 ((hset' m j.1).1 j.2).2⟩ :
      rset E st t n)) ?_
    intro a b hab
    exact Subtype.ext (congrArg (fun x : rset E st t n => x.1) hab)
  rw [← h1, hspan m, finrank_span_eq_card hind', Fintype.card_coe]

/-- The whole invariant. -/
def GInv (E : IKEnv α) [Fact E.p.Prime] (BD : Mat) (L : List α) (P : α → Prop) (st : IK α) : Prop :=
  GCore E BD L P P E.A.dim st ∧ GHist E BD L st P

/-- The core only depends on which end points have passed. -/
theorem GCore.congr {P P' : α → Prop} {st : IK α} (hL : EndsOK E.B.barcode L)
    (hc : GCore E BD L P P E.A.dim st)
    (h1 : ∀ x, P x → P' x)
    (hA : ∀ b ∈ E.A.barcode, (P' b.1 → P b.1) ∧ (P' b.2 → P b.2))
    (hB : ∀ b ∈ E.B.barcode, (P' b.1 → P b.1) ∧ (P' b.2 → P b.2)) :
    GCore E BD L P' P' E.A.dim st := by
  obtain ⟨eA1, eA2⟩ := born_act_congr h1 _ hA
  obtain ⟨eB1, eB2⟩ := born_act_congr h1 _ hB
  have hcut : ∀ (Q : α → Prop) j, cutAt Q Q E.A.dim j = Q := fun Q j => by
    unfold cutAt; split <;> rfl
  have et : ∀ j, E.mt BD L P' j = E.mt BD L P j := by
    intro j
    exact mtr_congr hL (fun b hb => ⟨(hB b hb).2, h1 _⟩) j
  exact { hc with
    unborn := fun j hj => by have := hc.unborn j hj; rw [hcut] at this ⊢; rw [eA1]; exact this
    actLo := fun j hj r hr => by rw [eB2]; exact hc.actLo j hj r hr
    actHi := fun j hj r hr => by rw [eB2]; exact hc.actHi j hj r hr
    supp := fun j hj => by rw [eB2]; exact hc.supp j hj
    pre := fun m => by
      have := hc.pre m
      simp only [hcut, et] at this ⊢
      rw [eA1]; exact this
    db := fun j hj h e he => h1 _ (hc.db j hj h e he) }

/-- Between two radii nothing happens. -/
theorem GInv.extend (hE : MulOK E BD L R) {P P' : α → Prop} {st : IK α} (h : GInv E BD L P st)
    (hP : Down P) (h1 : ∀ x, P x → P' x) (hP' : Down P')
    (hA : ∀ b ∈ E.A.barcode, (P' b.1 → P b.1) ∧ (P' b.2 → P b.2))
    (hB : ∀ b ∈ E.B.barcode, (P' b.1 → P b.1) ∧ (P' b.2 → P b.2)) : GInv E BD L P' st := by
  refine ⟨h.1.congr hE.ends h1 hA hB, ?_⟩
  intro t ht
  by_cases hPt : P t
  · exact h.2 t hPt
  · refine GCore.present hE (h.1.congr hE.ends (P' := (· ≤ t)) ?_ ?_ ?_)
    · intro x hx
      by_contra hlt
      exact hPt (hP x t (le_of_lt (not_le.1 hlt)) hx)
    · intro b hb
      exact ⟨fun h => (hA b hb).1 (hP' _ _ h ht), fun h => (hA b hb).2 (hP' _ _ h ht)⟩
    · intro b hb
      exact ⟨fun h => (hB b hb).1 (hP' _ _ h ht), fun h => (hB b hb).2 (hP' _ _ h ht)⟩

theorem ikRadius_ginv (hE : MulOK E BD L R) {st : IK α} (h : GInv E BD L (· < rad) st) :
    ∀ st', ikRadius E st rad = .ok st' → GInv E BD L (· ≤ rad) st' := by
  intro st' hok
  obtain ⟨h2, h3⟩ := ikRadius_mul hE h.1 h.2 st' hok
  refine ⟨h2, ?_⟩
  intro t ht
  rcases lt_or_eq_of_le ht with h4 | rfl
  · exact h3 t h4
  · exact h2.present hE

/-- What is known about the state after the loop. -/
structure GFinal (E : IKEnv α) [Fact E.p.Prime] (BD : Mat) (L : List α) (st : IK α) : Prop where
  im : MatOK E.p E.B.dim E.A.dim st.im
  pivIm : st.pivIm.length = E.A.dim
  imDeath : st.imDeath.length = E.A.dim
  dead : ∀ j, j < E.A.dim → st.piv j = -1
  count : ∀ t m, Module.finrank (ZMod E.p) (spn (ZMod E.p) (fun j => E.mt BD L (· ≤ t) j)
    (BornBy (· ≤ t) E.A.barcode) m) = (rset E st t m).card

theorem init_ginv [Zero α] (hE : MulOK E BD L R) : GInv E BD L (fun _ => False) E.init := by
  have hnb : ∀ bars i, ¬ BornBy (fun _ : α => False) bars i := fun bars i ⟨_, _, h⟩ => h
  have hcut : ∀ j, cutAt (fun _ : α => False) (fun _ => False) E.A.dim j = fun _ => False :=
    fun j => by unfold cutAt; split <;> rfl
  have hpiv : ∀ j, (E.init).piv j = -2 := by
    intro j
    simp only [IK.piv, IKEnv.init, List.getD_eq_getElem?_getD, List.getElem?_replicate]
    split <;> simp
  have hH : ∀ j, ¬ (E.init).Has j := by
    rintro j ⟨r, h⟩
    rw [hpiv] at h; omega
  refine ⟨{
    im := hE.F
    pivIm := by simp [IKEnv.init]
    imDeath := by simp [IKEnv.init]
    unborn := fun j _ => by rw [hcut]; simp [hpiv, hnb]
    orig := fun j hj _ => hE.f j hj
    pcase := fun j _ => Or.inl (hpiv j)
    actLo := fun j _ r h => by rw [hpiv] at h; omega
    actHi := fun j _ r h => by rw [hpiv] at h; omega
    supp := fun j h => absurd h (hH j)
    injLo := fun j j' _ _ r h => by rw [hpiv] at h; omega
    injHi := fun j j' _ _ r h => by rw [hpiv] at h; omega
    pre := fun m => by
      simp only [hcut]
      exact (le_antisymm (spn_le fun j _ h => absurd h (hH j))
        (spn_le fun j _ h => absurd h (hnb _ _)))
    db := fun j _ h => by rw [hpiv] at h; omega }, fun t h => h.elim⟩

theorem ikLoop_ok_induct (I : (α → Prop) → IK α → Prop)
    (hext : ∀ (P P' : α → Prop) (st : IK α), I P st → Down P → (∀ x, P x → P' x) → Down P' →
      (∀ b ∈ E.A.barcode, (P' b.1 → P b.1) ∧ (P' b.2 → P b.2)) →
      (∀ b ∈ E.B.barcode, (P' b.1 → P b.1) ∧ (P' b.2 → P b.2)) → I P' st)
    (hrad : ∀ (rad : α) (st : IK α), I (· < rad) st →
      ∀ st', ikRadius E st rad = .ok st' → I (· ≤ rad) st') (l : List α) :
    ∀ (P : α → Prop) (st : IK α), Down P → I P st → l.Pairwise (· < ·) →
    (∀ x ∈ l, ¬ P x) →
    (∀ b ∈ E.A.barcode ++ E.B.barcode, (P b.1 ∨ b.1 ∈ l) ∧ (P b.2 ∨ b.2 ∈ l)) →
    ∀ st', ikLoop E l st = .ok st' → I (fun _ => True) st' := by
  induction l with
  | nil =>
    intro P st hP h _ _ hl st' hok
    obtain rfl := Except.ok.inj hok
    refine hext P _ st h hP (fun _ _ => trivial) (fun _ _ _ _ => trivial) ?_ ?_
    · intro b hb
      have := hl b (List.mem_append_left _ hb)
      simp only [List.not_mem_nil, or_false] at this
      exact ⟨fun _ => this.1, fun _ => this.2⟩
    · intro b hb
      have := hl b (List.mem_append_right _ hb)
      simp only [List.not_mem_nil, or_false] at this
      exact ⟨fun _ => this.1, fun _ => this.2⟩
  | cons rad l ih =>
    intro P st hP h hs hn hl st' hok
    rw [List.pairwise_cons] at hs
    have hPr : ¬ P rad := hn rad (by simp)
    have hlt : ∀ x, P x → x < rad := by
      intro x hx
      by_contra hge
      exact hPr (hP x rad (not_lt.1 hge) hx)
    have hback : ∀ y, (P y ∨ y ∈ rad :: l) → y < rad → P y := by
      intro y hy hlt
      rcases hy with hy | hy
      · exact hy
      · exfalso
        rcases List.mem_cons.1 hy with rfl | hy
        · exact lt_irrefl _ hlt
        · exact lt_asymm hlt (hs.1 y hy)
    have hext' : I (· < rad) st := by
      refine hext P _ st h hP hlt (down_lt rad) ?_ ?_
      · intro b hb
        have := hl b (List.mem_append_left _ hb)
        exact ⟨hback _ this.1, hback _ this.2⟩
      · intro b hb
        have := hl b (List.mem_append_right _ hb)
        exact ⟨hback _ this.1, hback _ this.2⟩
    simp only [ikLoop] at hok
    cases h1 : ikRadius E st rad with
    | error e => rw [h1] at hok; cases hok
    | ok st1 =>
    rw [h1] at hok
    have h2 := hrad rad st hext' st1 h1
    refine ih (· ≤ rad) st1 (down_le rad) h2 hs.2
      (fun x hx => not_le.2 (hs.1 x hx)) (by
        intro b hb
        have hb' := hl b hb
        have conv : ∀ y, (P y ∨ y ∈ rad :: l) → (y ≤ rad ∨ y ∈ l) := by
          rintro y (hy | hy)
          · exact Or.inl (le_of_lt (hlt y hy))
          · rcases List.mem_cons.1 hy with rfl | hy
            · exact Or.inl le_rfl
            · exact Or.inr hy
        exact ⟨conv _ hb'.1, conv _ hb'.2⟩) st' hok

theorem ikLoop_mul [Zero α] (hE : MulOK E BD L R) :
    ∀ st, ikLoop E E.radii E.init = .ok st → GFinal E BD L st := by
  intro st hok
  have h2 := ikLoop_ok_induct (E := E) (GInv E BD L)
    (fun P P' st h hP h1 hP' hA hB => h.extend hE hP h1 hP' hA hB)
    (fun rad st h => ikRadius_ginv hE h) E.radii (fun _ => False) E.init (fun _ _ _ h => h)
    (init_ginv hE) (npUnique_strict _) (fun _ _ h => h) (by
      intro b hb
      have : ∀ y, (y = b.1 ∨ y = b.2) → y ∈ E.radii := by
        intro y hy
        unfold IKEnv.radii Basis.changesList
        rw [mem_npUnique, List.mem_append, mem_npUnique, mem_npUnique]
        simp only [List.mem_flatMap]
        rcases List.mem_append.1 hb with h | h
        · left; exact ⟨b, h, by simpa using hy⟩
        · right; exact ⟨b, h, by simpa using hy⟩
      exact ⟨Or.inr (this _ (Or.inl rfl)), Or.inr (this _ (Or.inr rfl))⟩) st hok
  obtain ⟨hc, hh⟩ := h2
  have hcut : ∀ j, cutAt (fun _ : α => True) (fun _ => True) E.A.dim j = fun _ => True :=
    fun j => by unfold cutAt; split <;> rfl
  refine ⟨hc.im, hc.pivIm, hc.imDeath, ?_, fun t m => hh t trivial m⟩
  intro j hj
  rcases hc.pcase j hj with h3 | h3 | ⟨r, h3⟩
  · have := (hc.unborn j hj).1 h3
    rw [hcut] at this
    exact absurd ⟨_, List.getElem?_eq_getElem (hE.lenA ▸ hj), trivial⟩ this
  · exact h3
  · obtain ⟨_, _, _, h4⟩ := hc.actLo j hj r h3
    exact absurd trivial h4

end Permaviss
