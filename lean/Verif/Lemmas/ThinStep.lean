import Verif.Lemmas.StripStep
import Verif.Lemmas.TwoPageTotal

/-!
# When `lift_to_page` succeeds
-/

namespace Permaviss

open Finset

attribute [-instance] instMulZeroClassOfSemiring

section

variable {α : Type} [LinearOrder α]

theorem gaussBarcodes_total {p : ℕ} (hp : p.Prime) {A : Mat} {rowBars colBars : List (α × α)}
    {start : ℕ} (hr : A.Reduced p) (h : ∀ d < A.cols.length - start, ∃ bj, colBars[start + d]? = some bj ∧
      ∃ c, BarSolution p A rowBars colBars start (start + d) bj.1 c) :
    ∃ C, gaussBarcodes p A rowBars colBars start = .ok C := by
  unfold gaussBarcodes
  obtain ⟨cs, hcs⟩ := mapM_ok_of (f := gaussBarcodesRound p A rowBars colBars start)
    (xs := (List.range A.cols.length).drop start) (by
      intro x hx
      obtain ⟨d, hd, rfl⟩ := List.getElem_of_mem hx
      rw [List.length_drop, List.length_range] at hd
      rw [List.getElem_drop, List.getElem_range]
      obtain ⟨b, hb, c, hc⟩ := h d hd
      unfold gaussBarcodesRound
      rw [hb]
      dsimp only
      rcases gaussBarcodesCol_spec hp A rowBars colBars start (start + d) b.1 hr with
        ⟨c, h4, -⟩ | ⟨-, h4⟩
      · exact ⟨c, h4⟩
      · exact absurd ⟨c, hc⟩ h4)
  rw [hcs]
  exact ⟨_, rfl⟩

/-- `x` is a combination, at `d`, of the generators of `I` and of `H` alive at `d`. -/
def Decomp (p : ℕ) (prev : List (α × α)) (I H : Basis α) (d : α) (x : ℕ → ZMod p) : Prop :=
  ∃ γ β : ℕ → ZMod p, (∀ i, ¬ AliveBar I.barcode i d → γ i = 0) ∧ (∀ i, ¬ AliveBar H.barcode i d → β i = 0) ∧
    barRestr p prev d x = barRestr p prev d
      (∑ i ∈ range I.dim, γ i • I.coords.zcol p i + ∑ i ∈ range H.dim, β i • H.coords.zcol p i)

variable [Zero α] {rnd : α → α} {E : SSEnv α} {ρ : List ℕ → α}

theorem liftStep_total (hp : E.p.Prime) {S : SSt α} {n deg k : ℕ} {bars : List (α × α)}
    {cols : List (List ℤ)} {im : Basis α} {prev : List (α × α)} (him : S.im k n deg = some im)
    (hprev : (S.hom k n deg).prev = some prev) (hwf : ∀ b ∈ prev, b.1 < b.2) (hne : prev ≠ [])
    (hI : LiftIn E.p prev.length im) (hH : LiftIn E.p prev.length (S.hom k n deg).basis)
    (hd0 : (S.hom k n deg).basis.dim ≠ 0)
    (hred : ∀ c ∈ cols, RedL E.p c) (hclen : ∀ c ∈ cols, c.length = prev.length)
    (hdec : ∀ j < cols.length, ∃ b, bars[j]? = some b ∧
      Decomp E.p prev im (S.hom k n deg).basis b.1 (zv E.p (cols.getD j []))) :
    ∃ βγ, liftStep rnd E S n deg bars k cols = .ok (some βγ) := by
  set H := (S.hom k n deg).basis with hHe
  have hHpos : 0 < H.dim := by omega
  have hHm := hH.mat hHpos
  unfold liftStep
  simp only [him, hprev, ← hHe]
  rw [if_neg hd0, if_pos (by
    rw [List.all_eq_true]
    intro c hc
    rw [hclen c hc, hHm.rows]; simp), basisOfBars_eq hwf, ok_bind]
  obtain ⟨sb, hsort⟩ : ∃ sb, (barsBasis prev).sort rnd = .ok (sb, sortOrder rnd prev) := by
    unfold Basis.sort
    have : (barsBasis prev).flat = false := by
      unfold barsBasis
      simp [hne]
    rw [if_neg (by rw [this]; simp)]
    exact ⟨_, rfl⟩
  rw [hsort, ok_bind]
  dsimp only
  obtain ⟨σ, ho⟩ := exists_isOrder (sortOrder_perm rnd prev)
  set order := sortOrder rnd prev with horder
  set imCols := if 0 < im.dim then im.coords.cols else [] with himc
  have himBars : (if 0 < im.dim then im.barcode else []) = im.barcode := by
    split
    · rfl
    · exact (List.length_eq_zero_iff.1 (by have := hI.dim; omega)).symm
  rw [himBars]
  have himl : imCols.length = im.dim := by
    rw [himc]; split
    · next hc => exact (hI.mat hc).ncols
    · rw [List.length_nil]; omega
  have himcol : ∀ i < im.dim, imCols.getD i [] = im.coords.cols.getD i [] := by
    intro i hi
    rw [himc, if_pos (by omega)]
  have hXlen : ∀ c ∈ imCols ++ H.coords.cols ++ cols, c.length = prev.length ∧ RedL E.p c := by
    intro c hc
    rcases List.mem_append.1 hc with hc | hc
    · rcases List.mem_append.1 hc with hc | hc
      · rw [himc] at hc
        split at hc
        · next h0 => exact ⟨(hI.mat h0).len c hc, (hI.mat h0).red c hc⟩
        · cases hc
      · exact ⟨hHm.len c hc, hHm.red c hc⟩
    · exact ⟨hclen c hc, hred c hc⟩
  have hXl : (imCols ++ H.coords.cols ++ cols).length = im.dim + H.dim + cols.length := by
    rw [List.length_append, List.length_append, himl, hHm.ncols]
  have hA : Mat.Reduced E.p ⟨order.length, (imCols ++ H.coords.cols ++ cols).map fun c => gather c order⟩ := by
    intro c hc
    obtain ⟨x, hx, rfl⟩ := List.mem_map.1 hc
    intro y hy
    refine (hXlen x hx).2 y ?_
    unfold gather at hy
    obtain ⟨i, -, hi⟩ := List.mem_filterMap.1 hy
    exact List.mem_of_getElem? hi
  have hz : ∀ i < prev.length, ∀ j < im.dim + H.dim + cols.length,
      Mat.z E.p ⟨order.length, (imCols ++ H.coords.cols ++ cols).map fun c => gather c order⟩ i j =
        zv E.p ((imCols ++ H.coords.cols ++ cols).getD j []) (σ i) := by
    intro i hi j hj
    have hj' : j < (imCols ++ H.coords.cols ++ cols).length := by rw [hXl]; exact hj
    unfold Mat.z Mat.get zv
    dsimp only
    rw [getD_map_lt hj', List_getD_eq_getElem (imCols ++ H.coords.cols ++ cols) [] hj',
      gather_perm_getD ho (hXlen _ (List.getElem_mem hj')).1 hi]
  obtain ⟨coef, hcoef⟩ := gaussBarcodes_total hp (rowBars := gather prev order)
    (colBars := im.barcode ++ H.barcode ++ bars) (start := im.dim + H.dim) hA (by
    intro d hd
    dsimp only at hd
    rw [List.length_map, hXl, Nat.add_sub_cancel_left] at hd
    obtain ⟨b, hb, γ, β, hγ, hβ, he⟩ := hdec d hd
    refine ⟨b, ?_, fun i => if i < im.dim then γ i else β (i - im.dim), ?_, ?_⟩
    · rw [List.getElem?_append_right (by rw [List.length_append, ← hI.dim, ← hH.dim]; omega),
        List.length_append, ← hI.dim, ← hH.dim, Nat.add_sub_cancel_left]
      exact hb
    · intro i hi hal
      dsimp only
      split
      · next hlt =>
        refine hγ i ?_
        rintro ⟨x, hx, hx1, hx2⟩
        refine hal ⟨x, ?_, hx1, hx2⟩
        rw [List.getElem?_append_left (by rw [List.length_append, ← hI.dim, ← hH.dim]; omega),
          List.getElem?_append_left (by rw [← hI.dim]; omega)]
        exact hx
      · next hlt =>
        refine hβ _ ?_
        rintro ⟨x, hx, hx1, hx2⟩
        refine hal ⟨x, ?_, hx1, hx2⟩
        rw [List.getElem?_append_left (by rw [List.length_append, ← hI.dim, ← hH.dim]; omega),
          List.getElem?_append_right (by rw [← hI.dim]; omega), ← hI.dim]
        exact hx
    · intro i hal
      have hil : i < prev.length := by
        obtain ⟨x, hx, -⟩ := hal
        have hlt : ∀ i ∈ order, i < prev.length := by
          intro x hx
          obtain ⟨a, ha, rfl⟩ := List.getElem_of_mem hx
          have := ho.get a (by rw [← ho.len]; exact ha)
          rw [List.getElem?_eq_getElem ha] at this
          rw [Option.some.inj this]
          exact (ho.lt a).2 (by rw [← ho.len]; exact ha)
        have := (List.getElem?_eq_some_iff.1 hx).1
        rw [length_gather hlt, ho.len] at this
        exact this
      rw [aliveBar_gather ho hil] at hal
      have := congrFun he (σ i)
      rw [barRestr, restr_apply_pos hal, restr_apply_pos hal] at this
      have e0 : (imCols ++ H.coords.cols ++ cols).getD (im.dim + H.dim + d) [] = cols.getD d [] := by
        rw [List.getD_eq_getElem?_getD, List.getElem?_append_right (by
          rw [List.length_append, himl, hHm.ncols]; omega), List.length_append, himl, hHm.ncols,
          Nat.add_sub_cancel_left, List.getD_eq_getElem?_getD]
      rw [hz i hil _ (by omega), e0, this, Pi.add_apply, Finset.sum_apply, Finset.sum_apply,
        Finset.sum_range_add]
      congr 1
      · refine Finset.sum_congr rfl fun k hk => ?_
        have hk' := mem_range.1 hk
        dsimp only
        rw [if_pos hk', hz i hil k (by omega), Pi.smul_apply, smul_eq_mul]
        congr 1
        unfold Mat.zcol
        rw [← himcol k hk', List.getD_eq_getElem?_getD, List.getD_eq_getElem?_getD,
          List.getElem?_append_left (by rw [List.length_append]; omega), List.getElem?_append_left (by omega)]
      · refine Finset.sum_congr rfl fun k hk => ?_
        have hk' := mem_range.1 hk
        dsimp only
        rw [if_neg (by omega), hz i hil _ (by omega), Pi.smul_apply, smul_eq_mul, Nat.add_sub_cancel_left]
        congr 1
        unfold Mat.zcol
        rw [List.getD_eq_getElem?_getD, List.getD_eq_getElem?_getD, List.getElem?_append_left (by
          rw [List.length_append, himl, hHm.ncols]; omega), List.getElem?_append_right (by omega), himl,
          Nat.add_sub_cancel_left])
  rw [hcoef]
  exact ⟨_, rfl⟩

/-- The rounds of `lift_to_page` after the first one succeed. -/
theorem liftLoop_total (hp : E.p.Prime) {S : SSt α} {n deg : ℕ} {prev : List (α × α)} {H I : Basis α}
    (P : LiftPos E S n deg prev H I) (hH0 : H.dim ≠ 0) {bars : List (α × α)} : ∀ (m k : ℕ) {nc : ℕ}
    {last : Mat × Mat}, 2 ≤ k → k + m ≤ E.noPages →
    MatOK E.p H.dim nc last.1 →
    (∀ j < nc, ∃ b, bars[j]? = some b ∧ ∀ i, ¬ AliveBar H.barcode i b.1 → last.1.zcol E.p j i = 0) →
    ∃ out, liftLoop rnd E S n deg bars m k last = .ok out
  | 0, k, nc, last, _, _, hβ, _ => ⟨_, rfl⟩
  | m + 1, k, nc, last, hk, hkm, hβ, hsup => by
    have hK := P.kept k hk (by omega)
    obtain ⟨J, hJ, hJ0, hJb⟩ := hK.im
    obtain ⟨-, hco, hpr⟩ := hK.coords hH0
    have hHl : H.dim = H.barcode.length := P.liftH.dim
    have hLH : LiftIn E.p H.barcode.length (S.hom k n deg).basis := by
      refine ⟨by rw [hK.dim, hK.bars]; exact hHl, fun _ => ?_⟩
      rw [hK.dim, hco, ← hHl]
      exact identity_ok hp.one_lt H.dim
    have hLJ : LiftIn E.p H.barcode.length J := ⟨by rw [hJ0, hJb]; rfl, fun h0 => by omega⟩
    have hncl : last.1.cols.length = nc := hβ.ncols
    obtain ⟨⟨β, γ⟩, hs⟩ := liftStep_total (rnd := rnd) (bars := bars) (cols := last.1.cols) hp hJ hpr P.wfH
      (by intro h0; rw [h0] at hHl; simp at hHl; omega) hLJ hLH (by rw [hK.dim]; exact hH0) hβ.red
      (fun c hc => by rw [hβ.len c hc, hHl]) (by
        intro j hj
        obtain ⟨b, hb, hz⟩ := hsup j (by omega)
        refine ⟨b, hb, 0, last.1.zcol E.p j, fun _ _ => rfl, fun i hi => hz i (by rwa [hK.bars] at hi), ?_⟩
        congr 1
        rw [hJ0, Finset.sum_range_zero, zero_add, hK.dim, hco]
        funext a
        rw [Finset.sum_apply, Finset.sum_congr rfl fun i hi => by
          rw [Pi.smul_apply, zcol_identity (mem_range.1 hi), Pi.single_apply]]
        simp only [smul_eq_mul, mul_ite, mul_one, mul_zero, Finset.sum_ite_eq, mem_range]
        split
        · rfl
        · next hlt =>
          refine zv_of_le _ ?_
          rw [hβ.len _ (getD_mem' (by omega))]; omega)
    obtain ⟨s1, -, s3⟩ := liftStep_spec hp hJ hpr P.wfH hLJ hLH hβ.red hs
    rw [hK.dim, hncl] at s1
    rw [hncl] at s3
    unfold liftLoop
    rw [hs]
    exact liftLoop_total hp P hH0 m (k + 1) (by omega) (by omega) s1 (by
      intro j hj
      obtain ⟨b, hb, -, h1, -⟩ := s3 j hj
      exact ⟨b, hb, fun i hi => h1 i (by rw [hK.bars]; exact hi)⟩)

theorem liftToPage_total (hp : E.p.Prime) {S : SSt α} {n deg target : ℕ} {prev : List (α × α)} {H I : Basis α}
    (P : LiftPos E S n deg prev H I) (hne : H.dim ≠ 0 → prev ≠ []) (ht : 2 ≤ target) (htp : target ≤ E.noPages)
    {bars : List (α × α)}
    {rows : List (List ℤ)} (hred : ∀ c ∈ rows, RedL E.p c) (hlen : ∀ c ∈ rows, c.length = prev.length)
    (hdec : H.dim ≠ 0 → ∀ j < rows.length, ∃ b, bars[j]? = some b ∧
      Decomp E.p prev I H b.1 (zv E.p (rows.getD j []))) :
    ∃ out, liftToPage rnd E S n deg target rows bars = .ok out := by
  unfold liftToPage
  rw [if_neg (by omega)]
  obtain ⟨m, hm⟩ : ∃ m, target - 1 = m + 1 := ⟨target - 2, by omega⟩
  rw [hm]
  unfold liftLoop
  dsimp only
  by_cases hH0 : H.dim = 0
  · have : liftStep rnd E S n deg bars 1 rows = .ok none := by
      unfold liftStep
      dsimp only
      rw [P.hom, if_pos hH0]
    rw [this]
    exact ⟨_, rfl⟩
  have hpr := P.prev1 hH0
  obtain ⟨⟨β, γ⟩, hs⟩ := liftStep_total (rnd := rnd) hp P.im hpr P.wf (hne hH0) P.liftI
    (by rw [P.hom]; exact P.liftH) (by rw [P.hom]; exact hH0) hred hlen (by rw [P.hom]; exact hdec hH0)
  obtain ⟨s1, s2, s3⟩ := liftStep_spec hp P.im hpr P.wf P.liftI (by rw [P.hom]; exact P.liftH) hred hs
  rw [P.hom] at s1 s3
  rw [hs]
  exact liftLoop_total hp P hH0 m 2 (by omega) (by omega) s1 (by
    intro j hj
    obtain ⟨b, hb, -, h4, -⟩ := s3 j hj
    exact ⟨b, hb, h4⟩)

end

end Permaviss
