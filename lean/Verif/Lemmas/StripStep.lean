import Verif.Lemmas.StripLift
import Verif.Lemmas.StripTrack
import Verif.Props.GaussBarcodes

/-!
# `lift_to_page`
-/

namespace Permaviss

open Finset

attribute [-instance] instMulZeroClassOfSemiring

section

variable {α : Type} [LinearOrder α]

/-- A list of generators in a module with `m` bars, as `lift_to_page` reads it. -/
structure LiftIn (p m : ℕ) (X : Basis α) : Prop where
  dim : X.dim = X.barcode.length
  mat : 0 < X.dim → MatOK p m X.dim X.coords

/-- `gauss_barcodes`, column by column. -/
theorem gaussBarcodes_cols {p : ℕ} (hp : p.Prime) {A C : Mat} {rowBars colBars : List (α × α)}
    {start : ℕ} (hr : A.Reduced p) (h : gaussBarcodes p A rowBars colBars start = .ok C) :
    C.cols.length = A.cols.length - start ∧ ∀ d < A.cols.length - start, ∃ bj,
      colBars[start + d]? = some bj ∧ (C.cols.getD d []).length = start ∧ RedL p (C.cols.getD d []) ∧
      (aliveAt rowBars bj.1 = [] → zv p (C.cols.getD d []) = 0) ∧
      BarSolution p A rowBars colBars start (start + d) bj.1 (zv p (C.cols.getD d [])) := by
  unfold gaussBarcodes at h
  rw [bind_ok] at h
  obtain ⟨out, hout, h⟩ := h
  cases h
  obtain ⟨h1, h2⟩ := mapM_ok_spec hout
  rw [List.length_drop, List.length_range] at h1
  refine ⟨h1, fun d hd => ?_⟩
  have hd' : d < out.length := by omega
  have h3 := h2 d (by simp; omega) hd'
  simp only [List.getElem_drop, List.getElem_range, gaussBarcodesRound] at h3
  split at h3
  swap
  · cases h3
  rename_i b hb
  dsimp only
  rw [List_getD_eq_getElem _ _ hd']
  refine ⟨b, hb, ?_⟩
  rcases gaussBarcodesCol_spec hp A rowBars colBars start (start + d) b.1 hr with
    ⟨c, h4, h5, h6, h7⟩ | ⟨h4, -⟩
  · rw [h3] at h4; cases h4
    refine ⟨h5, h6, fun h0 => ?_, h7⟩
    unfold gaussBarcodesCol at h3
    rw [if_pos h0] at h3
    rw [← Except.ok.inj h3]
    funext i
    unfold zv
    rw [List.getD_eq_getElem?_getD, List.getElem?_replicate]
    split <;> simp
  · rw [h3] at h4; cases h4

theorem gather_perm_getD {n : ℕ} {order ret : List ℕ} {σ : Equiv.Perm ℕ} (ho : IsOrder n order ret σ)
    {c : List ℤ} (hc : c.length = n) {i : ℕ} (hi : i < n) :
    (gather c order).getD i 0 = c.getD (σ i) 0 := by
  have hlt : ∀ i ∈ order, i < c.length := by
    intro x hx
    obtain ⟨a, ha, rfl⟩ := List.getElem_of_mem hx
    have := ho.get a (by rw [← ho.len]; exact ha)
    rw [List.getElem?_eq_getElem ha] at this
    rw [Option.some.inj this, hc]
    exact (ho.lt a).2 (by rw [← ho.len]; exact ha)
  rw [List.getD_eq_getElem?_getD, gather_getElem? hlt, ho.get i hi, List.getD_eq_getElem?_getD]
  rfl

theorem aliveBar_gather {order ret : List ℕ} {σ : Equiv.Perm ℕ} {bars : List (α × α)}
    (ho : IsOrder bars.length order ret σ) {i : ℕ} (hi : i < bars.length) (r : α) :
    AliveBar (gather bars order) i r ↔ AliveBar bars (σ i) r := by
  have hlt : ∀ i ∈ order, i < bars.length := by
    intro x hx
    obtain ⟨a, ha, rfl⟩ := List.getElem_of_mem hx
    have := ho.get a (by rw [← ho.len]; exact ha)
    rw [List.getElem?_eq_getElem ha] at this
    rw [Option.some.inj this]
    exact (ho.lt a).2 (by rw [← ho.len]; exact ha)
  unfold AliveBar
  rw [gather_getElem? hlt, ho.get i hi]
  rfl

variable [Zero α] {rnd : α → α} {E : SSEnv α} {ρ : List ℕ → α}

/-- One round of `lift_to_page`. -/
theorem liftStep_spec (hp : E.p.Prime) {S : SSt α} {n deg k : ℕ} {bars : List (α × α)}
    {cols : List (List ℤ)} {im : Basis α} {prev : List (α × α)} (him : S.im k n deg = some im)
    (hprev : (S.hom k n deg).prev = some prev) (hwf : ∀ b ∈ prev, b.1 < b.2)
    (hI : LiftIn E.p prev.length im) (hH : LiftIn E.p prev.length (S.hom k n deg).basis)
    (hred : ∀ c ∈ cols, RedL E.p c) {β γ : Mat}
    (h : liftStep rnd E S n deg bars k cols = .ok (some (β, γ))) :
    MatOK E.p (S.hom k n deg).basis.dim cols.length β ∧ MatOK E.p im.dim cols.length γ ∧
    ∀ j < cols.length, ∃ b, bars[j]? = some b ∧
      ((∀ i, ¬ AliveBar prev i b.1) → ∀ i, γ.zcol E.p j i = 0) ∧
      (∀ i, ¬ AliveBar (S.hom k n deg).basis.barcode i b.1 → β.zcol E.p j i = 0) ∧
      (∀ i, ¬ AliveBar im.barcode i b.1 → γ.zcol E.p j i = 0) ∧
      barRestr E.p prev b.1 (zv E.p (cols.getD j [])) = barRestr E.p prev b.1
        (∑ i ∈ range im.dim, γ.zcol E.p j i • im.coords.zcol E.p i +
          ∑ i ∈ range (S.hom k n deg).basis.dim, β.zcol E.p j i • (S.hom k n deg).basis.coords.zcol E.p i) := by
  set H := (S.hom k n deg).basis with hHe
  unfold liftStep at h
  simp only [him, hprev, ← hHe] at h
  split at h
  · cases h
  next hd0 =>
  have hHpos : 0 < H.dim := by omega
  have hHm := hH.mat hHpos
  split at h
  swap
  · cases h
  next hall =>
  rw [List.all_eq_true] at hall
  have hclen : ∀ c ∈ cols, c.length = prev.length := by
    intro c hc
    have := hall c hc
    rw [hHm.rows] at this
    simpa using this
  rw [basisOfBars_eq hwf, bind_ok] at h
  obtain ⟨rb, hrb, h⟩ := h
  obtain rfl := Except.ok.inj hrb
  rw [bind_ok] at h
  obtain ⟨⟨sb, order⟩, hsort, h⟩ := h
  unfold Basis.sort at hsort
  split at hsort
  · cases hsort
  simp only [Except.ok.injEq, Prod.mk.injEq] at hsort
  have horder : order = sortOrder rnd prev := hsort.2.symm
  obtain ⟨σ, ho⟩ := exists_isOrder (sortOrder_perm rnd prev)
  rw [← horder] at ho
  dsimp only at h
  rw [bind_ok] at h
  obtain ⟨coef, hcoef, h⟩ := h
  have h' := Except.ok.inj h
  simp only [Option.some.injEq, Prod.mk.injEq] at h'
  obtain ⟨rfl, rfl⟩ := h'
  set imCols := if 0 < im.dim then im.coords.cols else [] with himc
  have himBars : (if 0 < im.dim then im.barcode else []) = im.barcode := by
    split
    · rfl
    · exact (List.length_eq_zero_iff.1 (by have := hI.dim; omega)).symm
  rw [himBars] at hcoef
  have himl : imCols.length = im.dim := by
    rw [himc]; split
    · next hc => exact (hI.mat hc).ncols
    · rw [List.length_nil]; omega
  have himcol : ∀ i < im.dim, imCols.getD i [] = im.coords.cols.getD i [] := by
    intro i hi
    rw [himc, if_pos (by omega)]
  have hXlen : ∀ c ∈ imCols ++ H.coords.cols ++ cols, c.length = prev.length ∧ RedL E.p c := by
    intro c hc
    rcases List.mem_append.1 hc with hc | hc
    · rcases List.mem_append.1 hc with hc | hc
      · rw [himc] at hc
        split at hc
        · next h0 => exact ⟨(hI.mat h0).len c hc, (hI.mat h0).red c hc⟩
        · cases hc
      · exact ⟨hHm.len c hc, hHm.red c hc⟩
    · exact ⟨hclen c hc, hred c hc⟩
  have hXl : (imCols ++ H.coords.cols ++ cols).length = im.dim + H.dim + cols.length := by
    rw [List.length_append, List.length_append, himl, hHm.ncols]
  have hA : Mat.Reduced E.p ⟨order.length, (imCols ++ H.coords.cols ++ cols).map fun c => gather c order⟩ := by
    intro c hc
    obtain ⟨x, hx, rfl⟩ := List.mem_map.1 hc
    intro y hy
    refine (hXlen x hx).2 y ?_
    unfold gather at hy
    obtain ⟨i, -, hi⟩ := List.mem_filterMap.1 hy
    exact List.mem_of_getElem? hi
  obtain ⟨c1, c2⟩ := gaussBarcodes_cols hp hA hcoef
  simp only [List.length_map, hXl, Nat.add_sub_cancel_left] at c1 c2
  have hz : ∀ i < prev.length, ∀ j < im.dim + H.dim + cols.length,
      Mat.z E.p ⟨order.length, (imCols ++ H.coords.cols ++ cols).map fun c => gather c order⟩ i j =
        zv E.p ((imCols ++ H.coords.cols ++ cols).getD j []) (σ i) := by
    intro i hi j hj
    have hj' : j < (imCols ++ H.coords.cols ++ cols).length := by rw [hXl]; exact hj
    unfold Mat.z Mat.get zv
    dsimp only
    rw [getD_map_lt hj', List_getD_eq_getElem (imCols ++ H.coords.cols ++ cols) [] hj',
      gather_perm_getD ho (hXlen _ (List.getElem_mem hj')).1 hi]
  refine ⟨⟨rfl, by simpa using c1, ?_, ?_⟩, ⟨rfl, by simpa using c1, ?_, ?_⟩, ?_⟩
  · intro c hc
    obtain ⟨x, hx, rfl⟩ := List.mem_map.1 hc
    obtain ⟨d, hd, rfl⟩ := List.getElem_of_mem hx
    obtain ⟨_, -, e, -, -⟩ := c2 d (by omega)
    rw [List_getD_eq_getElem _ _ hd] at e
    rw [List.length_drop, e]; omega
  · intro c hc y hy
    obtain ⟨x, hx, rfl⟩ := List.mem_map.1 hc
    obtain ⟨d, hd, rfl⟩ := List.getElem_of_mem hx
    obtain ⟨_, -, -, e, -⟩ := c2 d (by omega)
    rw [List_getD_eq_getElem _ _ hd] at e
    exact e y (List.mem_of_mem_drop hy)
  · intro c hc
    obtain ⟨x, hx, rfl⟩ := List.mem_map.1 hc
    obtain ⟨d, hd, rfl⟩ := List.getElem_of_mem hx
    obtain ⟨_, -, e, -, -⟩ := c2 d (by omega)
    rw [List_getD_eq_getElem _ _ hd] at e
    rw [List.length_take, e]; omega
  · intro c hc y hy
    obtain ⟨x, hx, rfl⟩ := List.mem_map.1 hc
    obtain ⟨d, hd, rfl⟩ := List.getElem_of_mem hx
    obtain ⟨_, -, -, e, -⟩ := c2 d (by omega)
    rw [List_getD_eq_getElem _ _ hd] at e
    exact e y (List.mem_of_mem_take hy)
  · intro j hj
    obtain ⟨b, hb, clen, -, cdead, csup, csum⟩ := c2 j hj
    have hcj : j < coef.cols.length := by omega
    rw [List.getElem?_append_right (by rw [List.length_append, ← hI.dim, ← hH.dim]; omega),
      List.length_append, ← hI.dim, ← hH.dim, Nat.add_sub_cancel_left] at hb
    have hβ : ∀ i, i < H.dim → Mat.zcol E.p ⟨H.dim, coef.cols.map fun c => c.drop im.dim⟩ j i =
        zv E.p (coef.cols.getD j []) (im.dim + i) := by
      intro i hi
      unfold Mat.zcol zv
      dsimp only
      rw [getD_map_lt hcj, List_getD_eq_getElem coef.cols [] hcj, List.getD_eq_getElem?_getD,
        List.getElem?_drop, List.getD_eq_getElem?_getD]
    have hγ : ∀ i, i < im.dim → Mat.zcol E.p ⟨im.dim, coef.cols.map fun c => c.take im.dim⟩ j i =
        zv E.p (coef.cols.getD j []) i := by
      intro i hi
      unfold Mat.zcol zv
      dsimp only
      rw [getD_map_lt hcj, List_getD_eq_getElem coef.cols [] hcj, List.getD_eq_getElem?_getD,
        List.getElem?_take, if_pos hi, List.getD_eq_getElem?_getD]
    have hβ0 : ∀ i, H.dim ≤ i → Mat.zcol E.p ⟨H.dim, coef.cols.map fun c => c.drop im.dim⟩ j i = 0 := by
      intro i hi
      unfold Mat.zcol
      refine zv_of_le _ ?_
      dsimp only
      rw [getD_map_lt hcj, List.length_drop]
      rw [List_getD_eq_getElem _ _ hcj] at clen
      omega
    have hγ0 : ∀ i, im.dim ≤ i → Mat.zcol E.p ⟨im.dim, coef.cols.map fun c => c.take im.dim⟩ j i = 0 := by
      intro i hi
      unfold Mat.zcol
      refine zv_of_le _ ?_
      dsimp only
      rw [getD_map_lt hcj, List.length_take]
      omega
    refine ⟨b, hb, ?_, ?_, ?_, ?_⟩
    · intro hno i
      by_cases hlt : i < im.dim
      · rw [hγ i hlt, cdead]
        · rfl
        rw [List.eq_nil_iff_forall_not_mem]
        intro x hx
        have hx' : AliveBar (gather prev order) x b.1 := by
          have := (List.mem_filter.1 hx).2
          split at this
          · next y hy => exact ⟨y, hy, by simpa using this⟩
          · simp at this
        have hxl : x < prev.length := by
          obtain ⟨y, hy, -⟩ := hx'
          have := (List.getElem?_eq_some_iff.1 hy).1
          rw [length_gather] at this
          · rw [ho.len] at this; exact this
          · intro i hi
            obtain ⟨a, ha, rfl⟩ := List.getElem_of_mem hi
            have := ho.get a (by rw [← ho.len]; exact ha)
            rw [List.getElem?_eq_getElem ha] at this
            rw [Option.some.inj this]
            exact (ho.lt a).2 (by rw [← ho.len]; exact ha)
        exact hno _ ((aliveBar_gather ho hxl _).1 hx')
      · exact hγ0 i (by omega)
    · intro i hi
      by_cases hlt : i < H.dim
      · rw [hβ i hlt]
        refine csup _ (by omega) ?_
        rintro ⟨x, hx, hx1, hx2⟩
        rw [List.getElem?_append_left (by rw [List.length_append, ← hI.dim, ← hH.dim]; omega),
          List.getElem?_append_right (by rw [← hI.dim]; omega), ← hI.dim, Nat.add_sub_cancel_left] at hx
        exact hi ⟨x, hx, hx1, hx2⟩
      · exact hβ0 i (by omega)
    · intro i hi
      by_cases hlt : i < im.dim
      · rw [hγ i hlt]
        refine csup _ (by omega) ?_
        rintro ⟨x, hx, hx1, hx2⟩
        rw [List.getElem?_append_left (by rw [List.length_append, ← hI.dim, ← hH.dim]; omega),
          List.getElem?_append_left (by rw [← hI.dim]; omega)] at hx
        exact hi ⟨x, hx, hx1, hx2⟩
      · exact hγ0 i (by omega)
    · funext i
      by_cases hal : AliveBar prev i b.1
      swap
      · rw [barRestr, restr_apply_neg hal, restr_apply_neg hal]
      rw [barRestr, restr_apply_pos hal, restr_apply_pos hal]
      have hil : i < prev.length := by
        obtain ⟨x, hx, -⟩ := hal
        exact (List.getElem?_eq_some_iff.1 hx).1
      have hsl : σ.symm i < prev.length := (ho.symm_lt i).2 hil
      have hrowal : AliveBar (gather prev order) (σ.symm i) b.1 := by
        rw [aliveBar_gather ho hsl, Equiv.apply_symm_apply]; exact hal
      have hs := csum _ hrowal
      rw [hz _ hsl _ (by omega), Equiv.apply_symm_apply,
        Finset.sum_congr rfl fun k hk => by
          rw [hz _ hsl k (by have := mem_range.1 hk; omega), Equiv.apply_symm_apply]] at hs
      have e0 : (imCols ++ H.coords.cols ++ cols).getD (im.dim + H.dim + j) [] = cols.getD j [] := by
        rw [List.getD_eq_getElem?_getD, List.getElem?_append_right (by
          rw [List.length_append, himl, hHm.ncols]; omega), List.length_append, himl, hHm.ncols,
          Nat.add_sub_cancel_left, List.getD_eq_getElem?_getD]
      rw [e0, Finset.sum_range_add] at hs
      rw [hs, Pi.add_apply, Finset.sum_apply, Finset.sum_apply]
      congr 1
      · refine Finset.sum_congr rfl fun k hk => ?_
        have hk' := mem_range.1 hk
        rw [Pi.smul_apply, smul_eq_mul, hγ k hk']
        congr 1
        unfold Mat.zcol
        rw [← himcol k hk', List.getD_eq_getElem?_getD, List.getElem?_append_left (by
          rw [List.length_append]; omega), List.getElem?_append_left (by omega),
          ← List.getD_eq_getElem?_getD]
      · refine Finset.sum_congr rfl fun k hk => ?_
        have hk' := mem_range.1 hk
        rw [Pi.smul_apply, smul_eq_mul, hβ k hk']
        congr 1
        unfold Mat.zcol
        rw [List.getD_eq_getElem?_getD, List.getElem?_append_left (by
          rw [List.length_append, himl, hHm.ncols]; omega), List.getElem?_append_right (by omega), himl,
          Nat.add_sub_cancel_left, ← List.getD_eq_getElem?_getD]

/-- Position `(n, deg)` of the pages: the homology `H` and image `I` of page one, inside a module with
bars `prev`; the later pages repeat `H`. -/
structure LiftPos (E : SSEnv α) (S : SSt α) (n deg : ℕ) (prev : List (α × α)) (H I : Basis α) : Prop where
  hom : (S.hom 1 n deg).basis = H
  prev1 : H.dim ≠ 0 → (S.hom 1 n deg).prev = some prev
  im : S.im 1 n deg = some I
  wf : ∀ b ∈ prev, b.1 < b.2
  wfH : ∀ b ∈ H.barcode, b.1 < b.2
  liftH : LiftIn E.p prev.length H
  liftI : LiftIn E.p prev.length I
  kept : ∀ k, 2 ≤ k → k < E.noPages → KeptPage S n deg k H

theorem zcol_identity {p m i : ℕ} (hi : i < m) : Mat.zcol p ⟨m, identityCols m⟩ i = Pi.single i 1 := by
  funext j
  unfold Mat.zcol
  rw [zv_idCols hi]
  by_cases h : j = i
  · subst h; simp
  · rw [Pi.single_eq_of_ne h]; simp [h]

/-- The rounds of `lift_to_page` after the first one. -/
theorem liftLoop_kept (hp : E.p.Prime) {S : SSt α} {n deg : ℕ} {H : Basis α}
    {k0 : ℕ} (kept : ∀ k, k0 ≤ k → k < E.noPages → KeptPage S n deg k H) (wfH : ∀ b ∈ H.barcode, b.1 < b.2)
    (hHl : H.dim = H.barcode.length) (hH0 : H.dim ≠ 0) {bars : List (α × α)} : ∀ (m k : ℕ) {nc : ℕ}
    {last : Mat × Mat} {out : Option (Mat × Mat)}, k0 ≤ k → k + m ≤ E.noPages →
    MatOK E.p H.dim nc last.1 →
    (∀ j < nc, ∃ b, bars[j]? = some b ∧ ∀ i, ¬ AliveBar H.barcode i b.1 → last.1.zcol E.p j i = 0) →
    liftLoop rnd E S n deg bars m k last = .ok out →
    ∃ β γ, out = some (β, γ) ∧ MatOK E.p H.dim nc β ∧ (∀ j < nc, β.zcol E.p j = last.1.zcol E.p j) ∧
      (m = 0 → γ = last.2) ∧ (m ≠ 0 → ∀ c ∈ γ.cols, c = [])
  | 0, k, nc, last, out, _, _, hβ, _, h => by
    cases h
    exact ⟨last.1, last.2, rfl, hβ, fun _ _ => rfl, fun _ => rfl, fun h => absurd rfl h⟩
  | m + 1, k, nc, last, out, hk, hkm, hβ, hsup, h => by
    have hK := kept k hk (by omega)
    obtain ⟨J, hJ, hJ0, hJb⟩ := hK.im
    obtain ⟨-, hco, hpr⟩ := hK.coords hH0
    unfold liftLoop at h
    split at h
    · cases h
    · next hs =>
      exfalso
      unfold liftStep at hs
      rw [hJ, hpr] at hs
      dsimp only at hs
      rw [hK.dim, if_neg hH0] at hs
      split at hs
      · rw [basisOfBars_eq wfH] at hs
        simp only [bind_ok] at hs
        obtain ⟨_, _, _, _, _, _, hs⟩ := hs
        cases hs
      · cases hs
    · next o hs =>
      obtain ⟨β, γ⟩ := o
      have hLH : LiftIn E.p H.barcode.length (S.hom k n deg).basis := by
        refine ⟨by rw [hK.dim, hK.bars]; exact hHl, fun _ => ?_⟩
        rw [hK.dim, hco, ← hHl]
        exact identity_ok hp.one_lt H.dim
      have hLJ : LiftIn E.p H.barcode.length J := ⟨by rw [hJ0, hJb]; rfl, fun h0 => by omega⟩
      obtain ⟨s1, s2, s3⟩ := liftStep_spec hp hJ hpr wfH hLJ hLH hβ.red hs
      rw [hK.dim, show last.1.cols.length = nc from hβ.ncols] at s1
      rw [show last.1.cols.length = nc from hβ.ncols] at s2 s3
      have e : ∀ j < nc, β.zcol E.p j = last.1.zcol E.p j := by
        intro j hj
        obtain ⟨b, hb, -, h1, -, h3⟩ := s3 j hj
        obtain ⟨b', hb', h4⟩ := hsup j hj
        rw [hb] at hb'
        obtain rfl := Option.some.inj hb'
        rw [hJ0, Finset.sum_range_zero, zero_add, hK.dim, hco] at h3
        have hsum : ∑ i ∈ range H.dim, β.zcol E.p j i • Mat.zcol E.p ⟨H.dim, identityCols H.dim⟩ i =
            β.zcol E.p j := by
          funext a
          rw [Finset.sum_apply, Finset.sum_congr rfl fun i hi => by
            rw [Pi.smul_apply, zcol_identity (mem_range.1 hi), Pi.single_apply]]
          simp only [smul_eq_mul, mul_ite, mul_one, mul_zero, Finset.sum_ite_eq, mem_range]
          split
          · rfl
          · next hlt =>
            refine (h1 a ?_).symm
            rintro ⟨x, hx, -⟩
            rw [hK.bars] at hx
            exact hlt (by rw [hHl]; exact (List.getElem?_eq_some_iff.1 hx).1)
        rw [hsum] at h3
        funext a
        by_cases hal : AliveBar H.barcode a b.1
        · have := congrFun h3 a
          rw [barRestr, restr_apply_pos hal, restr_apply_pos hal] at this
          exact this.symm
        · rw [h4 a hal]
          refine h1 a ?_
          rw [hK.bars]; exact hal
      obtain ⟨β', γ', rfl, r1, r2, r3, r4⟩ := liftLoop_kept hp kept wfH hHl hH0 m (k + 1) (last := (β, γ)) (by omega) (by omega)
        s1 (by
          intro j hj
          obtain ⟨b, hb, h4⟩ := hsup j hj
          exact ⟨b, hb, fun i hi => by rw [e j hj]; exact h4 i hi⟩) h
      refine ⟨β', γ', rfl, r1, fun j hj => (r2 j hj).trans (e j hj), fun h0 => by omega, fun _ => ?_⟩
      by_cases hm : m = 0
      · rw [r3 hm]
        intro c hc
        have := s2.len c hc
        rw [hJ0] at this
        exact List.length_eq_zero_iff.1 this
      · exact r4 hm

/-- `lift_to_page` when the pages after the second one repeat it. -/
theorem liftToPage_spec (hp : E.p.Prime) {S : SSt α} {n deg target : ℕ} {prev : List (α × α)} {H I : Basis α}
    (P : LiftPos E S n deg prev H I) (ht : 2 ≤ target) (htp : target ≤ E.noPages) {bars : List (α × α)}
    {rows : List (List ℤ)} (hred : ∀ c ∈ rows, RedL E.p c) {out : Option (Mat × Mat)}
    (h : liftToPage rnd E S n deg target rows bars = .ok out) :
    (H.dim = 0 ∧ out = none) ∨ (H.dim ≠ 0 ∧ ∃ β γ γ', out = some (β, γ) ∧
      MatOK E.p H.dim rows.length β ∧ MatOK E.p I.dim rows.length γ' ∧ (target = 2 → γ = γ') ∧
      (target ≠ 2 → ∀ c ∈ γ.cols, c = []) ∧ ∀ j < rows.length, ∃ b, bars[j]? = some b ∧
      ((∀ i, ¬ AliveBar prev i b.1) → ∀ i, γ'.zcol E.p j i = 0) ∧
      (∀ i, ¬ AliveBar H.barcode i b.1 → β.zcol E.p j i = 0) ∧
      (∀ i, ¬ AliveBar I.barcode i b.1 → γ'.zcol E.p j i = 0) ∧
      barRestr E.p prev b.1 (zv E.p (rows.getD j [])) = barRestr E.p prev b.1
        (∑ i ∈ range I.dim, γ'.zcol E.p j i • I.coords.zcol E.p i +
          ∑ i ∈ range H.dim, β.zcol E.p j i • H.coords.zcol E.p i)) := by
  unfold liftToPage at h
  rw [if_neg (by omega)] at h
  obtain ⟨m, hm⟩ : ∃ m, target - 1 = m + 1 := ⟨target - 2, by omega⟩
  rw [hm] at h
  unfold liftLoop at h
  dsimp only at h
  by_cases hH0 : H.dim = 0
  · left
    refine ⟨hH0, ?_⟩
    have : liftStep rnd E S n deg bars 1 rows = .ok none := by
      unfold liftStep
      dsimp only
      rw [P.hom, if_pos hH0]
    rw [this] at h
    cases h; rfl
  right
  refine ⟨hH0, ?_⟩
  have hpr := P.prev1 hH0
  split at h
  · cases h
  · next hs =>
    exfalso
    unfold liftStep at hs
    rw [P.im, hpr] at hs
    dsimp only at hs
    rw [P.hom, if_neg hH0] at hs
    split at hs
    · rw [basisOfBars_eq P.wf] at hs
      simp only [bind_ok] at hs
      obtain ⟨_, _, _, _, _, _, hs⟩ := hs
      cases hs
    · cases hs
  · next o hs =>
    obtain ⟨β, γ⟩ := o
    obtain ⟨s1, s2, s3⟩ := liftStep_spec hp P.im hpr P.wf P.liftI (by rw [P.hom]; exact P.liftH) hred hs
    rw [P.hom] at s1 s3
    obtain ⟨β', γ', rfl, r1, r2, r3, r4⟩ := liftLoop_kept hp P.kept P.wfH P.liftH.dim hH0 m 2 (last := (β, γ)) (by omega) (by omega)
      s1 (by
        intro j hj
        obtain ⟨b, hb, -, h4, -⟩ := s3 j hj
        exact ⟨b, hb, h4⟩) h
    refine ⟨β', γ', γ, rfl, r1, s2, fun h2 => r3 (by omega), fun h2 => r4 (by omega), fun j hj => ?_⟩
    obtain ⟨b, hb, h3, h4, h5, h6⟩ := s3 j hj
    rw [r2 j hj]
    exact ⟨b, hb, h3, h4, h5, h6⟩

end

end Permaviss
