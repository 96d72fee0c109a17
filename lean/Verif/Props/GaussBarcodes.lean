import Verif.Spec.Bars
import Verif.Props.GaussRad

/-!
# C14: `gauss_barcodes`
-/

namespace Permaviss

open Finset

variable {p : ℕ} {α : Type} [LinearOrder α]

theorem mem_aliveAt {bars : List (α × α)} {r : α} {i : ℕ} :
    i ∈ aliveAt bars r ↔ AliveBar bars i r := by
  simp only [aliveAt, List.mem_filter, List.mem_range, AliveBar]
  constructor
  · rintro ⟨h1, h2⟩
    rw [List.getElem?_eq_getElem h1] at h2 ⊢
    exact ⟨_, rfl, by simpa using h2⟩
  · rintro ⟨b, h1, h2⟩
    refine ⟨(List.getElem?_eq_some_iff.mp h1).1, ?_⟩
    rw [h1]; simpa using h2

theorem aliveAt_nodup (bars : List (α × α)) (r : α) : (aliveAt bars r).Nodup :=
  List.Nodup.filter _ List.nodup_range

theorem aliveAt_lt {bars : List (α × α)} {r : α} {i : ℕ} (h : i ∈ aliveAt bars r) :
    i < bars.length := by
  simp only [aliveAt, List.mem_filter, List.mem_range] at h; exact h.1

/-- Sums over a list of distinct indices. -/
theorem sum_over_list {K : Type*} [CommRing K] (cols : List ℕ) (hnd : cols.Nodup) (start : ℕ)
    (hlt : ∀ k ∈ cols, k < start) (f : ℕ → K) (g : ℕ → K) :
    ∑ a ∈ range cols.length, f (cols.getD a 0) * g a =
      ∑ k ∈ range start, f k * (if k ∈ cols then g (cols.idxOf k) else 0) := by
  have e : ∑ k ∈ range start, f k * (if k ∈ cols then g (cols.idxOf k) else 0) =
      ∑ k ∈ (range start).filter (· ∈ cols), f k * g (cols.idxOf k) := by
    rw [Finset.sum_filter]
    exact Finset.sum_congr rfl fun k _ => by split <;> simp
  rw [e]
  refine Finset.sum_nbij' (fun a => cols.getD a 0) (fun k => cols.idxOf k) ?_ ?_ ?_ ?_ ?_
  · intro a ha
    have ha' := mem_range.mp ha
    have : cols.getD a 0 ∈ cols := by
      rw [List_getD_eq_getElem _ _ ha']; exact List.getElem_mem ha'
    simp only [Finset.mem_filter, mem_range]
    exact ⟨hlt _ this, this⟩
  · intro k hk
    exact mem_range.mpr (List.idxOf_lt_length_of_mem (Finset.mem_filter.mp hk).2)
  · intro a ha
    have ha' := mem_range.mp ha
    simp only [List_getD_eq_getElem _ _ ha']
    exact hnd.idxOf_getElem _ ha'
  · intro k hk
    have hk' := (Finset.mem_filter.mp hk).2
    have := List.idxOf_lt_length_of_mem hk'
    simp only [List_getD_eq_getElem _ _ this]
    exact List.getElem_idxOf this
  · intro a ha
    have ha' := mem_range.mp ha
    congr 1
    simp only [List_getD_eq_getElem _ _ ha']
    rw [hnd.idxOf_getElem _ ha']

theorem Mat.Reduced.get {A : Mat} (h : A.Reduced p) (hp : 0 < p) (i j : ℕ) :
    0 ≤ A.get i j ∧ A.get i j < (p : Int) := by
  simp only [Mat.get]
  rcases lt_or_ge j A.cols.length with hj | hj
  · rw [List_getD_eq_getElem _ _ hj]
    exact RedL.getD (h _ (List.getElem_mem hj)) hp i
  · simp [List.getD_eq_getElem?_getD, hj, hp]

/-- A combination of columns alive at `r` that equals column `j` on the rows alive at `r`. -/
def BarSolution (p : ℕ) (A : Mat) (rowBars colBars : List (α × α)) (start j : ℕ) (r : α)
    (c : ℕ → ZMod p) : Prop :=
  (∀ k < start, ¬ AliveBar colBars k r → c k = 0) ∧
  ∀ i, AliveBar rowBars i r → A.z p i j = ∑ k ∈ range start, c k * A.z p i k

theorem gaussBarcodesCol_spec (hp : p.Prime) (A : Mat) (rowBars colBars : List (α × α))
    (start j : ℕ) (bj : α) (hr : A.Reduced p) :
    (∃ c, gaussBarcodesCol p A rowBars colBars start j bj = .ok c ∧ c.length = start ∧ RedL p c ∧
      BarSolution p A rowBars colBars start j bj (zv p c)) ∨
    (gaussBarcodesCol p A rowBars colBars start j bj = .error .runtimeError ∧
      ¬ ∃ c, BarSolution p A rowBars colBars start j bj c) := by
  have hp0 : (0 : Int) < p := by exact_mod_cast hp.pos
  unfold gaussBarcodesCol
  simp only
  set rows := aliveAt rowBars bj with hrows
  set cols := aliveAt (colBars.take start) bj with hcols
  have hcmem : ∀ k, k ∈ cols ↔ k < start ∧ AliveBar colBars k bj := by
    intro k
    rw [hcols, mem_aliveAt]
    constructor
    · rintro ⟨b, h1, h2⟩
      rw [List.getElem?_take] at h1
      split at h1
      · rename_i h; exact ⟨h, b, h1, h2⟩
      · cases h1
    · rintro ⟨h, b, h1, h2⟩
      exact ⟨b, by rw [List.getElem?_take, if_pos h]; exact h1, h2⟩
  have hcnd : cols.Nodup := aliveAt_nodup _ _
  by_cases hre : rows = []
  · left
    rw [if_pos hre]
    have hzv : zv p (List.replicate start 0) = 0 := by
      funext i
      simp [zv, List.getD_eq_getElem?_getD, List.getElem?_replicate]
      split <;> simp
    refine ⟨_, rfl, by simp, ?_, ?_, ?_⟩
    · intro x hx; rw [List.eq_of_mem_replicate hx]; omega
    · intro k _ _; rw [hzv]; rfl
    · intro i hi
      rw [← mem_aliveAt, ← hrows, hre] at hi
      cases hi
  · rw [if_neg hre]
    let S : Mat := subMat A rows cols
    let b : List Int := rows.map fun i => A.get i j
    have hsub : subMat A rows (cols ++ [j]) = ⟨S.nrows, S.cols ++ [b]⟩ := by
      simp [subMat, S, b]
    have hS0 : 0 < S.nrows := List.length_pos_iff.mpr hre
    have hSw : S.WellShaped := by
      intro c hc
      simp only [S, subMat, List.mem_map] at hc
      obtain ⟨k, -, rfl⟩ := hc
      simp [S, subMat]
    have hSr : S.Reduced p := by
      intro c hc x hx
      simp only [S, subMat, List.mem_map] at hc
      obtain ⟨k, -, rfl⟩ := hc
      simp only [List.mem_map] at hx
      obtain ⟨i, -, rfl⟩ := hx
      exact hr.get hp.pos i k
    have hbr : RedL p b := by
      intro x hx
      simp only [b, List.mem_map] at hx
      obtain ⟨i, -, rfl⟩ := hx
      exact hr.get hp.pos i j
    have hSz : ∀ a < rows.length, ∀ k < cols.length,
        S.z p a k = A.z p (rows.getD a 0) (cols.getD k 0) := by
      intro a ha k hk
      simp [S, subMat, Mat.z, Mat.get, List.getD_eq_getElem?_getD, ha, hk]
    have hbz : ∀ a < rows.length, zv p b a = A.z p (rows.getD a 0) j := by
      intro a ha
      simp [b, zv, Mat.z, List.getD_eq_getElem?_getD, ha]
    have hSn : S.ncols = cols.length := by simp [S, subMat, Mat.ncols]
    -- translation between solutions on the submatrix and on the whole matrix
    have htrans1 : ∀ x : ℕ → ZMod p, IsSolution p S x (zv p b) →
        BarSolution p A rowBars colBars start j bj
          (fun k => if k ∈ cols then x (cols.idxOf k) else 0) := by
      intro x hx
      refine ⟨?_, ?_⟩
      · intro k hk hd
        exact if_neg fun h => hd ((hcmem k).mp h).2
      · intro i hi
        rw [← mem_aliveAt, ← hrows] at hi
        obtain ⟨a, ha, rfl⟩ := List.getElem_of_mem hi
        have h1 := hx a ha
        rw [hbz a ha, hSn, Finset.sum_congr rfl fun k hk => by
          rw [hSz a ha k (mem_range.mp hk)]] at h1
        rw [sum_over_list cols hcnd start (fun k hk => ((hcmem k).mp hk).1)
          (fun k => A.z p (rows.getD a 0) k) x] at h1
        rw [List_getD_eq_getElem _ _ ha] at h1
        rw [← h1]
        exact Finset.sum_congr rfl fun k _ => mul_comm _ _
    have htrans2 : ∀ c : ℕ → ZMod p, BarSolution p A rowBars colBars start j bj c →
        IsSolution p S (fun a => c (cols.getD a 0)) (zv p b) := by
      rintro c ⟨h1, h2⟩ a ha
      have ha' : a < rows.length := ha
      have hmem : rows.getD a 0 ∈ rows := by
        rw [List_getD_eq_getElem _ _ ha']; exact List.getElem_mem ha'
      have h3 := h2 _ (mem_aliveAt.mp hmem)
      rw [hbz a ha', h3, hSn, Finset.sum_congr rfl fun k hk => by
          rw [hSz a ha' k (mem_range.mp hk)]]
      rw [sum_over_list cols hcnd start (fun k hk => ((hcmem k).mp hk).1)
          (fun k => A.z p (rows.getD a 0) k) (fun a => c (cols.getD a 0))]
      refine Finset.sum_congr rfl fun k hk => ?_
      by_cases hkc : k ∈ cols
      · rw [if_pos hkc, List_getD_eq_getElem _ _ (List.idxOf_lt_length_of_mem hkc),
          List.getElem_idxOf, mul_comm]
      · rw [if_neg hkc, h1 k (mem_range.mp hk) (fun h => hkc ((hcmem k).mpr ⟨mem_range.mp hk, h⟩)),
          mul_zero, zero_mul]
    have hspec := solveModP_spec hp S b hSw hSr (by simp [b, S, subMat]) hbr hS0
    unfold solveModP at hspec
    rw [if_neg hS0.ne', ← hsub] at hspec
    simp only [bind, Except.bind] at hspec ⊢
    cases hg : gaussCol p (subMat A rows (cols ++ [j])) with
    | error e =>
      exfalso
      rw [hg] at hspec
      obtain ⟨R, T, h⟩ := C05_gauss_col_total hp (subMat A rows (cols ++ [j]))
        (by
          intro c hc
          simp only [subMat, List.mem_map] at hc
          obtain ⟨k, -, rfl⟩ := hc
          simp [subMat])
        (by
          intro c hc x hx
          simp only [subMat, List.mem_map] at hc
          obtain ⟨k, -, rfl⟩ := hc
          simp only [List.mem_map] at hx
          obtain ⟨i, -, rfl⟩ := hx
          exact hr.get hp.pos i k)
      rw [hg] at h; cases h
    | ok RT =>
      rw [hg] at hspec
      simp only at hspec ⊢
      by_cases hz : npAny (RT.1.cols.getLastD []) = true
      · right
        rw [if_pos hz] at hspec ⊢
        refine ⟨rfl, ?_⟩
        rcases hspec with ⟨x, hx, -⟩ | ⟨-, h2⟩
        · cases hx
        · rintro ⟨c, hc⟩
          exact h2 ⟨_, htrans2 c hc⟩
      · left
        rw [if_neg hz] at hspec ⊢
        rcases hspec with ⟨x, hx, hxl, hxr, hxs⟩ | ⟨h1, -⟩
        · simp only [Except.ok.injEq] at hx
          rw [hx]
          have hzv : zv p ((List.range start).map (scatter cols x)) =
              fun k => if k ∈ cols then zv p x (cols.idxOf k) else 0 := by
            funext k
            rcases lt_or_ge k start with hk | hk
            · have e : ((List.range start).map (scatter cols x)).getD k 0 = scatter cols x k := by
                rw [List_getD_eq_getElem _ _ (by simpa using hk)]; simp
              simp only [zv]
              rw [e]
              unfold scatter
              by_cases hkc : k ∈ cols
              · have : cols.idxOf? k = some (cols.idxOf k) := by
                  rw [List.idxOf?_eq_some_iff]
                  refine ⟨List.idxOf_lt_length_of_mem hkc, List.getElem_idxOf _, ?_⟩
                  intro l hl heq
                  have := hcnd.idxOf_getElem l (by
                    have := List.idxOf_lt_length_of_mem hkc; omega)
                  rw [heq] at this; omega
                rw [this, if_pos hkc]
              · have : cols.idxOf? k = none := by
                  rw [List.idxOf?_eq_none_iff]; exact hkc
                rw [this, if_neg hkc]; simp
            · rw [zv_of_le _ (by simpa using hk), if_neg]
              intro h; have := ((hcmem k).mp h).1; omega
          refine ⟨_, rfl, by simp, ?_, ?_⟩
          · intro y hy
            simp only [List.mem_map] at hy
            obtain ⟨k, -, rfl⟩ := hy
            unfold scatter
            split
            · exact hxr.getD hp.pos _
            · omega
          · rw [hzv]; exact htrans1 _ hxs
        · cases h1

/-- **C14.** If `gauss_barcodes` returns `C`, then for each target column `j ≥ s` with birth `b_j`,
the coefficients `C[:, j - s]` are zero on the columns that are not alive at `b_j`, are in `[0, p)`,
and on every row alive at `b_j` column `j` is the combination of the first `s` columns given by
them. -/
theorem C14_gauss_barcodes_sound (hp : p.Prime) (A C : Mat) (rowBars colBars : List (α × α))
    (start : ℕ) (hr : A.Reduced p) (hs : start ≤ A.ncols)
    (h : gaussBarcodes p A rowBars colBars start = .ok C) :
    C.nrows = start ∧ C.ncols = A.ncols - start ∧ C.Reduced p ∧
    ∀ j, start ≤ j → j < A.ncols → ∃ bj, colBars[j]? = some bj ∧
      BarSolution p A rowBars colBars start j bj.1 (fun k => C.z p k (j - start)) := by
  unfold gaussBarcodes at h
  simp only [bind, Except.bind] at h
  split at h
  · cases h
  · rename_i out hout
    simp only [pure, Except.pure, Except.ok.injEq] at h
    subst h
    obtain ⟨h1, h2⟩ := mapM_ok_spec hout
    rw [List.length_drop, List.length_range] at h1
    have hrun : ∀ d (hd : d < out.length), ∃ bj, colBars[start + d]? = some bj ∧
        gaussBarcodesCol p A rowBars colBars start (start + d) bj.1 = .ok out[d] := by
      intro d hd
      have h3 := h2 d (by simp; omega) hd
      simp only [List.getElem_drop, List.getElem_range, gaussBarcodesRound] at h3
      split at h3
      · rename_i b hb; exact ⟨b, hb, h3⟩
      · cases h3
    have hspec : ∀ d (hd : d < out.length), ∃ bj, colBars[start + d]? = some bj ∧ RedL p out[d] ∧
        BarSolution p A rowBars colBars start (start + d) bj.1 (zv p out[d]) := by
      intro d hd
      obtain ⟨bj, hb1, hb2⟩ := hrun d hd
      rcases gaussBarcodesCol_spec hp A rowBars colBars start (start + d) bj.1 hr with
        ⟨c, h4, -, h5, h6⟩ | ⟨h4, -⟩
      · rw [hb2] at h4; cases h4; exact ⟨bj, hb1, h5, h6⟩
      · rw [hb2] at h4; cases h4
    refine ⟨rfl, by rw [Mat.ncols, Mat.ncols, h1], ?_, ?_⟩
    · intro c hc
      obtain ⟨d, hd, rfl⟩ := List.getElem_of_mem hc
      obtain ⟨-, -, h5, -⟩ := hspec d hd
      exact h5
    · intro j hj1 hj2
      have hd : j - start < out.length := by rw [h1]; exact Nat.sub_lt_sub_right hj1 hj2
      obtain ⟨bj, h3, -, h5⟩ := hspec (j - start) hd
      rw [Nat.add_sub_cancel' hj1] at h3 h5
      refine ⟨bj, h3, ?_⟩
      have e : (fun k => (⟨start, out⟩ : Mat).z p k (j - start)) = zv p out[j - start] := by
        funext k
        simp [Mat.z, Mat.get, zv, List.getD_eq_getElem?_getD, hd]
      rw [e]; exact h5

/-- **C14.** With one bar per column, `gauss_barcodes` returns exactly when such coefficients exist
for every target column, and otherwise raises `RuntimeError` (and nothing else). -/
theorem C14_gauss_barcodes_complete (hp : p.Prime) (A : Mat) (rowBars colBars : List (α × α))
    (start : ℕ) (hr : A.Reduced p) (hc : colBars.length = A.ncols) (hs : start ≤ A.ncols) :
    ((∃ C, gaussBarcodes p A rowBars colBars start = .ok C) ↔
      ∀ j, start ≤ j → ∀ bj, colBars[j]? = some bj →
        ∃ c, BarSolution p A rowBars colBars start j bj.1 c) ∧
    ((¬ ∃ C, gaussBarcodes p A rowBars colBars start = .ok C) →
      gaussBarcodes p A rowBars colBars start = .error .runtimeError) := by
  have hbar : ∀ j < A.ncols, ∃ b, colBars[j]? = some b := by
    intro j hj; exact ⟨colBars[j]'(by omega), by simp⟩
  constructor
  · constructor
    · rintro ⟨C, h⟩ j hj1 bj hbj
      have hj2 : j < A.ncols := by
        rw [← hc]; exact (List.getElem?_eq_some_iff.mp hbj).1
      obtain ⟨-, -, -, h1⟩ := C14_gauss_barcodes_sound hp A C rowBars colBars start hr hs h
      obtain ⟨bj', h2, h3⟩ := h1 j hj1 hj2
      rw [hbj] at h2; cases h2
      exact ⟨_, h3⟩
    · intro hsol
      unfold gaussBarcodes
      obtain ⟨ys, hys⟩ := mapM_ok_of (ε := PyErr) (xs := (List.range A.cols.length).drop start)
        (f := gaussBarcodesRound p A rowBars colBars start)
        (by
          intro j hj
          obtain ⟨d, hd, rfl⟩ := List.getElem_of_mem hj
          simp only [List.length_drop, List.length_range] at hd
          simp only [List.getElem_drop, List.getElem_range, gaussBarcodesRound]
          obtain ⟨b, hb⟩ := hbar (start + d) (by simp only [Mat.ncols]; omega)
          rw [hb]
          rcases gaussBarcodesCol_spec hp A rowBars colBars start (start + d) b.1 hr with
            ⟨c, h4, -⟩ | ⟨-, h4⟩
          · exact ⟨c, h4⟩
          · exact absurd (hsol _ (by omega) b hb) h4)
      rw [hys]
      exact ⟨_, rfl⟩
  · intro hno
    unfold gaussBarcodes at hno ⊢
    simp only [bind, Except.bind] at hno ⊢
    split
    · rename_i e he
      obtain ⟨j, hj, hje⟩ := mapM_error_spec he
      obtain ⟨d, hd, rfl⟩ := List.getElem_of_mem hj
      simp only [List.length_drop, List.length_range] at hd
      simp only [List.getElem_drop, List.getElem_range, gaussBarcodesRound] at hje
      obtain ⟨b, hb⟩ := hbar (start + d) (by simp only [Mat.ncols]; omega)
      rw [hb] at hje
      rcases gaussBarcodesCol_spec hp A rowBars colBars start (start + d) b.1 hr with
            ⟨c, h4, -⟩ | ⟨h4, -⟩
      · simp only [h4] at hje; cases hje
      · simp only [h4] at hje; cases hje; rfl
    · rename_i v hv
      exact absurd ⟨_, by rw [hv]; rfl⟩ hno

/-- Two rows alive on `[0,3)` and `[0,1)`; the target born at 1 only has to match the first row. -/
example : gaussBarcodes 5 (Mat.ofRows 3 [[1, 2, 3], [4, 1, 2]]) [(0, 3), (0, 1)]
      [(0, 3), (2, 3), (1, 2)] 2 = .ok ⟨2, [[3, 0]]⟩ ∧
    gaussBarcodes 5 (Mat.ofRows 3 [[1, 2, 3], [4, 1, 2]]) [(0, 3), (0, 3)]
      [(0, 3), (2, 3), (1, 2)] 2 = .ok ⟨2, [[3, 0]]⟩ ∧
    gaussBarcodes 5 (Mat.ofRows 3 [[1, 2, 3], [4, 1, 1]]) [(0, 3), (0, 3)]
      [(0, 3), (2, 3), (1, 2)] 2 = .error .runtimeError := by
  decide

end Permaviss
