import Verif.Model.ImageKernel
import Verif.Lemmas.Gauss
import Verif.Lemmas.Barcode

/-! Correctness of `pivot_check_reduce`. -/

namespace Permaviss

open Finset

variable {p : ℕ}

/-- `r` is the last position in `S` at which `v` is nonzero. -/
def IsPivOn {K : Type*} [Zero K] (S : ℕ → Prop) (v : ℕ → K) (r : ℕ) : Prop :=
  S r ∧ v r ≠ 0 ∧ ∀ j, r < j → S j → v j = 0

/-- Shape and range of a matrix. -/
structure MatOK (p m n : ℕ) (M : Mat) : Prop where
  rows : M.nrows = m
  ncols : M.cols.length = n
  len : ∀ c ∈ M.cols, c.length = m
  red : ∀ c ∈ M.cols, RedL p c

theorem Mat.col_mem {M : Mat} {j : ℕ} (h : j < M.cols.length) : M.col j ∈ M.cols := by
  unfold Mat.col
  rw [List_getD_eq_getElem _ _ h]
  exact List.getElem_mem h

theorem MatOK.col_len {m n : ℕ} {M : Mat} (h : MatOK p m n M) {j : ℕ} (hj : j < n) :
    (M.col j).length = m := h.len _ (Mat.col_mem (h.ncols ▸ hj))

theorem Mat.col_of_le {M : Mat} {j : ℕ} (h : M.cols.length ≤ j) : M.col j = [] := by
  unfold Mat.col
  rw [List.getD_eq_getElem?_getD, List.getElem?_eq_none h]; rfl

theorem MatOK.col_red {m n : ℕ} {M : Mat} (h : MatOK p m n M) (j : ℕ) : RedL p (M.col j) := by
  rcases lt_or_ge j M.cols.length with h1 | h1
  · exact h.red _ (Mat.col_mem h1)
  · rw [Mat.col_of_le h1]; intro x hx; cases hx

theorem Mat.col_setCol (M : Mat) (i j : ℕ) (c : List Int) :
    (M.setCol i c).col j = if i = j ∧ i < M.cols.length then c else M.col j := by
  unfold Mat.setCol Mat.col
  simp only [List.getD_eq_getElem?_getD, List.getElem?_set]
  by_cases h : i = j
  · subst h
    by_cases h' : i < M.cols.length
    · simp [h']
    · simp [h']
  · simp [h]

theorem MatOK.setCol {m n : ℕ} {M : Mat} (h : MatOK p m n M) (i : ℕ) {c : List Int}
    (hc : c.length = m) (hr : RedL p c) : MatOK p m n (M.setCol i c) where
  rows := h.rows
  ncols := by simp [Mat.setCol, h.ncols]
  len := by
    intro d hd
    rcases List.mem_or_eq_of_mem_set hd with hd | rfl
    · exact h.len d hd
    · exact hc
  red := by
    intro d hd
    rcases List.mem_or_eq_of_mem_set hd with hd | rfl
    · exact h.red d hd
    · exact hr

theorem anyMat_false {M : Mat} (h : anyMat (some M) = false) (j : ℕ) : zv p (M.col j) = 0 := by
  rcases lt_or_ge j M.cols.length with h1 | h1
  · have h2 : npAny (M.col j) = false := by
      simp only [anyMat, List.any_eq_false] at h
      simpa using h _ (Mat.col_mem h1)
    funext i
    simp only [zv, npAny_eq_false.1 h2 i, Int.cast_zero, Pi.zero_apply]
  · rw [Mat.col_of_le h1]; simp

theorem addPrevCol_col {m n : ℕ} {M : Mat} (h : MatOK p m n M) (inv : Int) {prev col : ℕ}
    (hp : prev < n) (hc : col < n) (j : ℕ) :
    zv p ((addPrevCol p inv M prev col).col j) =
      if j = col then (inv : ZMod p) • zv p (M.col prev) + zv p (M.col col) else zv p (M.col j) := by
  unfold addPrevCol
  rw [Mat.col_setCol]
  by_cases hj : j = col
  · subst hj
    rw [if_pos ⟨rfl, h.ncols ▸ hc⟩, if_pos rfl, zv_addArrays _ _
      (by rw [length_scale, h.col_len hp, h.col_len hc]), zv_scale]
  · rw [if_neg (fun h => hj h.1.symm), if_neg hj]

theorem addPrevCol_other (inv : Int) (M : Mat) (prev : ℕ) {col j : ℕ} (hj : j ≠ col) :
    (addPrevCol p inv M prev col).col j = M.col j := by
  unfold addPrevCol
  rw [Mat.col_setCol, if_neg (fun h => hj h.1.symm)]

theorem MatOK.addPrevCol {m n : ℕ} {M : Mat} (h : MatOK p m n M) (hp : 0 < p) (inv : Int)
    {prev col : ℕ} (h1 : prev < n) (hc : col < n) : MatOK p m n (addPrevCol p inv M prev col) :=
  h.setCol _ (by simp [addArraysModC, length_scale, h.col_len h1, h.col_len hc])
    (redL_addArrays _ _ hp)

/-- The effect of `pivot_check_reduce` on column `col`: multiples `a i` of earlier columns with an
active pivot are added, to the matrix and to `T`. -/
structure PCROut (p m n : ℕ) (M M' : Mat) (active : List ℕ) (col : ℕ) (pivPrev : List Int)
    (a : ℕ → ZMod p) (q : Int) : Prop where
  ok : MatOK p m n M'
  other : ∀ j, j ≠ col → M'.col j = M.col j
  supp : ∀ i, a i ≠ 0 → i < pivPrev.length ∧ ∃ r ∈ active, pivPrev[i]? = some (r : Int)
  eq : zv p (M'.col col) = zv p (M.col col) + ∑ i ∈ range pivPrev.length, a i • zv p (M.col i)
  res : (q = -1 ∧ ∀ r ∈ active, zv p (M'.col col) r = 0) ∨
    ∃ r : ℕ, q = r ∧ IsPivOn (· ∈ active) (zv p (M'.col col)) r ∧ (r : Int) ∉ pivPrev

theorem pcr_red {m n : ℕ} {M : Mat} (hM : MatOK p m n M) (hp : 0 < p) (active : List ℕ) (col : ℕ) :
    (active.map fun r => (M.col col).getD r 0 % (p : Int)) =
      active.map fun r => (M.col col).getD r 0 := by
  refine List.map_congr_left fun r _ => ?_
  have := (hM.col_red col).getD hp r
  exact Int.emod_eq_of_lt this.1 this.2

theorem pcr_pivot {v : List Int} (hv : RedL p v) (hp : 0 < p) {active : List ℕ}
    (hs : active.Pairwise (· < ·)) {k : ℕ}
    (h : indexPivot (active.map fun r => v.getD r 0) = some k) :
    k < active.length ∧ active.getD k 0 ∈ active ∧
      IsPivOn (· ∈ active) (zv p v) (active.getD k 0) := by
  have hk := indexPivot_lt h
  rw [List.length_map] at hk
  obtain ⟨h1, h2⟩ := indexPivot_eq_some.1 h
  have hm : active.getD k 0 ∈ active := by
    rw [List_getD_eq_getElem _ _ hk]; exact List.getElem_mem hk
  refine ⟨hk, hm, hm, ?_, ?_⟩
  · rw [Ne, hv.zv_eq_zero hp]
    rw [List_getD_eq_getElem _ _ (by simpa using hk), List.getElem_map] at h1
    rwa [List_getD_eq_getElem _ _ hk]
  · intro j hj hja
    obtain ⟨l, hl, rfl⟩ := List.getElem_of_mem hja
    rw [List_getD_eq_getElem _ _ hk] at hj
    have hkl : k < l := by
      by_contra hc
      rcases Nat.lt_or_ge l k with h3 | h3
      · have := List.pairwise_iff_getElem.1 hs l k hl hk h3; omega
      · have : l = k := by omega
        subst this; omega
    have := h2 l hkl
    rw [List_getD_eq_getElem _ _ (by simpa using hl), List.getElem_map] at this
    rw [hv.zv_eq_zero hp]
    exact this

theorem pcr_none {v : List Int} (hv : RedL p v) (hp : 0 < p) {active : List ℕ}
    (h : indexPivot (active.map fun r => v.getD r 0) = none) : ∀ r ∈ active, zv p v r = 0 := by
  intro r hr
  obtain ⟨l, hl, rfl⟩ := List.getElem_of_mem hr
  have := indexPivot_eq_none.1 h l
  rw [List_getD_eq_getElem _ _ (by simpa using hl), List.getElem_map] at this
  rw [hv.zv_eq_zero hp]
  exact this

/-- Positions in a strictly increasing list are ordered as the entries. -/
theorem getD_lt_of_lt {active : List ℕ} (hs : active.Pairwise (· < ·)) {k l : ℕ} (hkl : k < l)
    (hl : l < active.length) : active.getD k 0 < active.getD l 0 := by
  rw [List_getD_eq_getElem _ _ hl, List_getD_eq_getElem _ _ (hkl.trans hl)]
  exact List.pairwise_iff_getElem.1 hs k l _ hl hkl

theorem pcrLoop_spec (hp : p.Prime) {m n nT : ℕ} {active : List ℕ} {col : ℕ} {pivPrev : List Int}
    (hs : active.Pairwise (· < ·)) (hcol : col < n) (hcolT : col < nT)
    (hlen : pivPrev.length ≤ col) (fuel : ℕ) :
    ∀ (M : Mat) (T : Option Mat), MatOK p m n M →
    (∀ T0, T = some T0 → ∃ mT, MatOK p mT nT T0) →
    (∀ i (r : ℕ), pivPrev[i]? = some (r : Int) → r ∈ active →
      IsPivOn (· ∈ active) (zv p (M.col i)) r) →
    0 < fuel →
    (∀ k, indexPivot (active.map fun r => (M.col col).getD r 0) = some k →
      (k : Int) * p + p - (M.col col).getD (active.getD k 0) 0 < fuel) →
    ∃ M' T' q a, pcrLoop p active col pivPrev fuel M T = .ok (M', T', q) ∧
      PCROut p m n M M' active col pivPrev a q ∧
      (T = none → T' = none) ∧
      ∀ T0 mT, T = some T0 → MatOK p mT nT T0 → ∃ T0', T' = some T0' ∧ MatOK p mT nT T0' ∧
        (∀ j, j ≠ col → T0'.col j = T0.col j) ∧
        zv p (T0'.col col) = zv p (T0.col col) + ∑ i ∈ range pivPrev.length, a i • zv p (T0.col i) := by
  have hpos := hp.pos
  induction fuel with
  | zero => intro _ _ _ _ _ h; omega
  | succ f ih =>
    intro M T hM hT hprev _ hf
    rw [pcrLoop, pcr_red hM hpos]
    cases hk : indexPivot (active.map fun r => (M.col col).getD r 0) with
    | none =>
      refine ⟨M, T, -1, 0, rfl, ⟨hM, fun _ _ => rfl, fun i h => absurd rfl h, by simp,
        Or.inl ⟨rfl, pcr_none (hM.col_red col) hpos hk⟩⟩, fun h => h, ?_⟩
      intro T0 mT h h'
      exact ⟨T0, h, h', fun _ _ => rfl, by simp⟩
    | some k =>
      obtain ⟨hkl, hra, hpiv⟩ := pcr_pivot (hM.col_red col) hpos hs hk
      dsimp only
      cases hfind : pivPrev.findIdx? (· == (active.getD k 0 : Int)) with
      | none =>
        refine ⟨M, T, _, 0, rfl, ⟨hM, fun _ _ => rfl, fun i h => absurd rfl h, by simp,
          Or.inr ⟨_, rfl, hpiv, ?_⟩⟩, fun h => h, ?_⟩
        · intro hmem
          rw [List.findIdx?_eq_none_iff] at hfind
          simpa using hfind _ hmem
        · intro T0 mT h h'
          exact ⟨T0, h, h', fun _ _ => rfl, by simp⟩
      | some prev =>
        rw [List.findIdx?_eq_some_iff_getElem] at hfind
        obtain ⟨hpl, hpe, -⟩ := hfind
        have hpe' : pivPrev[prev] = (active.getD k 0 : Int) := by simpa using hpe
        have hget : pivPrev[prev]? = some ((active.getD k 0 : ℕ) : Int) := by
          rw [List.getElem?_eq_getElem hpl, hpe']
        have hpp := hprev prev _ hget hra
        have hpc : prev < col := by omega
        have hpn : prev < n := by omega
        have hnz := hpp.2.1
        rw [Ne, (hM.col_red prev).zv_eq_zero hpos] at hnz
        have hr := (hM.col_red prev).getD hpos (active.getD k 0)
        obtain ⟨inv, hinv, -, -, hinv1⟩ := invModP_ok hp
          (a := (M.col prev).getD (active.getD k 0) 0) (by omega) hr.2
        dsimp only
        rw [hinv]
        dsimp only
        have hM1 : MatOK p m n (addPrevCol p inv M prev col) := hM.addPrevCol hpos inv hpn hcol
        have hz := addPrevCol_col hM inv hpn hcol col
        rw [if_pos rfl] at hz
        have hzr : zv p ((addPrevCol p inv M prev col).col col) (active.getD k 0) =
            1 + zv p (M.col col) (active.getD k 0) := by
          rw [hz]
          simp only [Pi.add_apply, Pi.smul_apply, smul_eq_mul]
          congr 1
        have hzj : ∀ l, k < l → l < active.length →
            zv p ((addPrevCol p inv M prev col).col col) (active.getD l 0) = 0 := by
          intro l hl hl'
          have hlt := getD_lt_of_lt hs hl hl'
          have hmem : active.getD l 0 ∈ active := by
            rw [List_getD_eq_getElem _ _ hl']; exact List.getElem_mem hl'
          rw [hz]
          simp only [Pi.add_apply, Pi.smul_apply, smul_eq_mul, hpp.2.2 _ hlt hmem,
            hpiv.2.2 _ hlt hmem, mul_zero, add_zero]
        have hfk := hf k hk
        have hv := (hM.col_red col).getD hpos (active.getD k 0)
        have hf' : ∀ k', indexPivot (active.map fun r =>
            ((addPrevCol p inv M prev col).col col).getD r 0) = some k' →
            (k' : Int) * p + p - ((addPrevCol p inv M prev col).col col).getD (active.getD k' 0) 0
              < f := by
          intro k' hk'
          obtain ⟨hkl', hra', hpiv'⟩ := pcr_pivot (hM1.col_red col) hpos hs hk'
          have hv' := (hM1.col_red col).getD hpos (active.getD k' 0)
          have hnz' := hpiv'.2.1
          rw [Ne, (hM1.col_red col).zv_eq_zero hpos] at hnz'
          rcases lt_trichotomy k' k with h1 | h1 | h1
          · have : ((k' : Int) + 1) * p ≤ (k : Int) * p :=
              Int.mul_le_mul_of_nonneg_right (by omega) (by omega)
            rw [add_mul, one_mul] at this
            push_cast at hfk
            omega
          · subst h1
            -- the entry grew by one
            have e1 := hzr
            simp only [zv] at e1
            have e2 : ((((addPrevCol p inv M prev col).col col).getD (active.getD k' 0) 0 : Int) :
                ZMod p) = ((1 + (M.col col).getD (active.getD k' 0) 0 : Int) : ZMod p) := by
              rw [e1]; push_cast; rfl
            rw [ZMod.intCast_eq_intCast_iff] at e2
            rw [Int.ModEq, Int.emod_eq_of_lt hv'.1 hv'.2] at e2
            by_cases h4 : 1 + (M.col col).getD (active.getD k' 0) 0 < (p : Int)
            · rw [Int.emod_eq_of_lt (by omega) h4] at e2
              push_cast at hfk
              omega
            · have : 1 + (M.col col).getD (active.getD k' 0) 0 = (p : Int) := by omega
              rw [this, Int.emod_self] at e2
              exact absurd e2 hnz'
          · exact absurd (hzj k' h1 hkl') hpiv'.2.1
        have hprev' : ∀ i (r : ℕ), pivPrev[i]? = some (r : Int) → r ∈ active →
            IsPivOn (· ∈ active) (zv p ((addPrevCol p inv M prev col).col i)) r := by
          intro i r hi hra
          have hil := (List.getElem?_eq_some_iff.1 hi).1
          rw [addPrevCol_other _ _ _ (by omega : i ≠ col)]
          exact hprev i r hi hra
        have hT1 : ∀ T0, (if anyMat T then T.map fun T => addPrevCol p inv T prev col else T) =
            some T0 → ∃ mT, MatOK p mT nT T0 := by
          intro T0 h0
          split_ifs at h0
          · cases T with
            | none => cases h0
            | some T1 =>
              simp only [Option.map_some, Option.some.injEq] at h0
              obtain ⟨mT, h⟩ := hT T1 rfl
              exact ⟨mT, h0 ▸ h.addPrevCol hpos inv (by omega) hcolT⟩
          · exact hT T0 h0
        have hfpos : 0 < f := by
          by_contra hc
          have : f = 0 := by omega
          subst this
          have : (0:Int) ≤ k * p := by positivity
          push_cast at hfk
          omega
        obtain ⟨M', T', q, a, e, hout, hnone, hTT⟩ := ih (addPrevCol p inv M prev col) _ hM1 hT1
          hprev' hfpos hf'
        refine ⟨M', T', q, a + Pi.single prev (inv : ZMod p), e, ⟨hout.ok, ?_, ?_, ?_, hout.res⟩,
          ?_, ?_⟩
        · intro j hj
          rw [hout.other j hj, addPrevCol_other _ _ _ hj]
        · intro i hi
          by_cases hip : i = prev
          · subst hip; exact ⟨hpl, _, hra, hget⟩
          · apply hout.supp
            intro h0
            apply hi
            simp [h0, hip]
        · rw [hout.eq, hz]
          have : ∑ i ∈ range pivPrev.length, a i • zv p ((addPrevCol p inv M prev col).col i) =
              ∑ i ∈ range pivPrev.length, a i • zv p (M.col i) := by
            refine Finset.sum_congr rfl fun i hi => ?_
            have := mem_range.1 hi
            rw [addPrevCol_other _ _ _ (by omega : i ≠ col)]
          rw [this]
          simp only [Pi.add_apply, add_smul, Finset.sum_add_distrib]
          have h2 : ∑ i ∈ range pivPrev.length,
              (Pi.single prev (inv : ZMod p) : ℕ → ZMod p) i • zv p (M.col i) =
              (inv : ZMod p) • zv p (M.col prev) := by
            rw [Finset.sum_eq_single prev]
            · simp
            · intro i _ hi; simp [hi]
            · intro h; exact absurd (mem_range.2 hpl) h
          rw [h2]; abel
        · intro h0
          apply hnone
          subst h0
          simp [anyMat]
        · intro T0 mT h0 hT0
          subst h0
          have key : ∃ T1, (if anyMat (some T0) then (some T0).map fun T => addPrevCol p inv T prev col
              else some T0) = some T1 ∧ MatOK p mT nT T1 ∧ (∀ j, j ≠ col → T1.col j = T0.col j) ∧
              zv p (T1.col col) = (inv : ZMod p) • zv p (T0.col prev) + zv p (T0.col col) := by
            by_cases hany : anyMat (some T0) = true
            · rw [if_pos hany]
              refine ⟨_, rfl, hT0.addPrevCol hpos inv (by omega) hcolT,
                fun j hj => addPrevCol_other _ _ _ hj, ?_⟩
              rw [addPrevCol_col hT0 inv (by omega) hcolT, if_pos rfl]
            · rw [if_neg hany]
              refine ⟨T0, rfl, hT0, fun _ _ => rfl, ?_⟩
              rw [anyMat_false (p := p) (by simpa using hany) prev, smul_zero, zero_add]
          obtain ⟨T1, e1, hT1ok, hoth, hcc⟩ := key
          obtain ⟨T0', e2, h3, h4, h5⟩ := hTT T1 mT e1 hT1ok
          refine ⟨T0', e2, h3, fun j hj => by rw [h4 j hj, hoth j hj], ?_⟩
          rw [h5, hcc]
          have : ∑ i ∈ range pivPrev.length, a i • zv p (T1.col i) =
              ∑ i ∈ range pivPrev.length, a i • zv p (T0.col i) := by
            refine Finset.sum_congr rfl fun i hi => ?_
            have := mem_range.1 hi
            rw [hoth i (by omega : i ≠ col)]
          rw [this]
          simp only [Pi.add_apply, add_smul, Finset.sum_add_distrib]
          have h2 : ∑ i ∈ range pivPrev.length,
              (Pi.single prev (inv : ZMod p) : ℕ → ZMod p) i • zv p (T0.col i) =
              (inv : ZMod p) • zv p (T0.col prev) := by
            rw [Finset.sum_eq_single prev]
            · simp
            · intro i _ hi; simp [hi]
            · intro h; exact absurd (mem_range.2 hpl) h
          rw [h2]; abel

theorem length_le_of_lt {active : List ℕ} {m : ℕ} (hs : active.Pairwise (· < ·))
    (hr : ∀ r ∈ active, r < m) : active.length ≤ m := by
  have hn : active.Nodup := hs.imp (fun h => Nat.ne_of_lt h)
  have h := (List.subperm_of_subset hn (l₂ := List.range m)
    (fun r h => List.mem_range.2 (hr r h))).length_le
  simpa using h

/-- `pivot_check_reduce` terminates and does what it should. -/
theorem pivotCheckReduce_spec (hp : p.Prime) {m n nT : ℕ} {active : List ℕ} {col : ℕ}
    {pivPrev : List Int} (hs : active.Pairwise (· < ·)) (hrow : ∀ r ∈ active, r < m) (hcol : col < n)
    (hcolT : col < nT) (hlen : pivPrev.length ≤ col) {M : Mat} {T : Option Mat} (hM : MatOK p m n M)
    (hT : ∀ T0, T = some T0 → ∃ mT, MatOK p mT nT T0)
    (hprev : ∀ i (r : ℕ), pivPrev[i]? = some (r : Int) → r ∈ active →
      IsPivOn (· ∈ active) (zv p (M.col i)) r) :
    ∃ M' T' q a, pivotCheckReduce p M active col pivPrev T = .ok (M', T', q) ∧
      PCROut p m n M M' active col pivPrev a q ∧
      (T = none → T' = none) ∧
      ∀ T0 mT, T = some T0 → MatOK p mT nT T0 → ∃ T0', T' = some T0' ∧ MatOK p mT nT T0' ∧
        (∀ j, j ≠ col → T0'.col j = T0.col j) ∧
        zv p (T0'.col col) =
          zv p (T0.col col) + ∑ i ∈ range pivPrev.length, a i • zv p (T0.col i) := by
  unfold pivotCheckReduce
  refine pcrLoop_spec hp hs hcol hcolT hlen _ M T hM hT hprev (by omega) ?_
  intro k hk
  obtain ⟨hkl, hra, hpiv⟩ := pcr_pivot (hM.col_red col) hp.pos hs hk
  have hl := length_le_of_lt hs hrow
  have hv := (hM.col_red col).getD hp.pos (active.getD k 0)
  have : ((k : Int) + 1) * p ≤ (m : Int) * p :=
    Int.mul_le_mul_of_nonneg_right (by omega) (by omega)
  rw [add_mul, one_mul] at this
  rw [hM.rows]
  push_cast
  omega

/-- Nothing happens to a column which is zero on the active rows. -/
theorem pivotCheckReduce_triv {m n : ℕ} {active : List ℕ} {col : ℕ} {pivPrev : List Int} {M : Mat}
    {T : Option Mat} (hM : MatOK p m n M) (hp : 0 < p) (h : ∀ r ∈ active, zv p (M.col col) r = 0) :
    pivotCheckReduce p M active col pivPrev T = .ok (M, T, -1) := by
  have : indexPivot (active.map fun r => (M.col col).getD r 0 % (p : Int)) = none := by
    rw [pcr_red hM hp, indexPivot_eq_none]
    intro l
    rcases lt_or_ge l active.length with hl | hl
    · rw [List_getD_eq_getElem _ _ (by simpa using hl), List.getElem_map]
      exact ((hM.col_red col).zv_eq_zero hp _).1 (h _ (List.getElem_mem hl))
    · exact getD_eq_zero_of_le _ (by simpa using hl)
  unfold pivotCheckReduce pcrLoop
  rw [this]

end Permaviss
