import Verif.Lemmas.IKMain
import Mathlib.Algebra.Order.Ring.Int

/-!
# C32–C34, C57: `image_kernel`
-/

namespace Permaviss

open Finset

/-! ## C32 -/

/-- **C32.** `pivot_check_reduce(M, active, col, pivots_prev, p, T)` for a prime `p`, reduced matrices,
increasing active rows and earlier columns whose active pivots are as recorded: it returns, leaves all
other columns alone, adds the same combination `a` of earlier columns to column `col` of `M` and of
`T`, and returns either `-1`, the column being zero on the active rows, or the last active row at
which the column is nonzero, which is not among the earlier pivots. -/
theorem C32_pivot_check_reduce {p : ℕ} (hp : p.Prime) (M T : Mat) (active : List ℕ) (col : ℕ)
    (pivPrev : List Int) (hM : M.WellShaped) (hMr : M.Reduced p) (hT : T.WellShaped)
    (hTr : T.Reduced p) (hact : active.Pairwise (· < ·)) (hrow : ∀ r ∈ active, r < M.nrows)
    (hcol : col < M.ncols) (hcolT : col < T.ncols) (hlen : pivPrev.length ≤ col)
    (hprev : ∀ (i r : ℕ), pivPrev[i]? = some (r : Int) → r ∈ active →
      M.zcol p i r ≠ 0 ∧ ∀ s ∈ active, r < s → M.zcol p i s = 0) :
    ∃ (M' T' : Mat) (q : Int) (a : ℕ → ZMod p),
      pivotCheckReduce p M active col pivPrev (some T) = .ok (M', some T', q) ∧
      M'.Reduced p ∧ T'.Reduced p ∧ M'.WellShaped ∧ T'.WellShaped ∧
      (∀ j, j ≠ col → M'.cols.getD j [] = M.cols.getD j [] ∧ T'.cols.getD j [] = T.cols.getD j []) ∧
      M'.zcol p col = M.zcol p col + ∑ i ∈ range pivPrev.length, a i • M.zcol p i ∧
      T'.zcol p col = T.zcol p col + ∑ i ∈ range pivPrev.length, a i • T.zcol p i ∧
      ((q = -1 ∧ ∀ r ∈ active, M'.zcol p col r = 0) ∨
        ∃ r ∈ active, q = (r : Int) ∧ M'.zcol p col r ≠ 0 ∧
          (∀ s ∈ active, r < s → M'.zcol p col s = 0) ∧ (r : Int) ∉ pivPrev) := by
  have hMok : MatOK p M.nrows M.ncols M := ⟨rfl, rfl, hM, hMr⟩
  have hTok : MatOK p T.nrows T.ncols T := ⟨rfl, rfl, hT, hTr⟩
  obtain ⟨M', T', q, a, h1, h2, -, h3⟩ := pivotCheckReduce_spec hp hact hrow hcol hcolT hlen hMok
    (T := some T) (fun T0 e => by cases e; exact ⟨_, hTok⟩)
    (fun i r h h' => ⟨h', (hprev i r h h').1, fun j hj hj' => (hprev i r h h').2 j hj' hj⟩)
  obtain ⟨T0, rfl, h4, h5, h6⟩ := h3 T _ rfl hTok
  refine ⟨M', T0, q, a, h1, h2.ok.red, h4.red, fun c hc => (h2.ok.len c hc).trans h2.ok.rows.symm,
    fun c hc => (h4.len c hc).trans h4.rows.symm, fun j hj => ⟨h2.other j hj, h5 j hj⟩, h2.eq, h6, ?_⟩
  rcases h2.res with h7 | ⟨r, h7, h8, h9⟩
  · exact Or.inl h7
  · exact Or.inr ⟨r, h8.1, h7, h8.2.1, fun s hs hrs => h8.2.2 s hrs hs, h9⟩

/-- Column 2 is reduced twice and becomes zero on the active rows 0 and 2. -/
example : pivotCheckReduce 5 ⟨3, [[1, 0, 2], [3, 1, 0], [4, 4, 2]]⟩ [0, 2] 2 [2, 0]
    (some ⟨3, [[1, 0, 0], [0, 1, 0], [0, 0, 1]]⟩) =
      .ok (⟨3, [[1, 0, 2], [3, 1, 0], [0, 3, 0]]⟩,
        some ⟨3, [[1, 0, 0], [0, 1, 0], [4, 4, 1]]⟩, -1) := by decide

example : ∃ (M : Mat) (pivPrev : List Int), M.WellShaped ∧ M.Reduced 5 ∧ pivPrev = [2, 0] ∧
    ∀ (i r : ℕ), pivPrev[i]? = some (r : Int) → r ∈ [0, 2] →
      M.zcol 5 i r ≠ 0 ∧ ∀ s ∈ [0, 2], r < s → M.zcol 5 i s = 0 := by
  refine ⟨⟨3, [[1, 0, 2], [3, 1, 0], [4, 4, 2]]⟩, _, by unfold Mat.WellShaped; decide,
    by unfold Mat.Reduced; decide, rfl, ?_⟩
  intro i r h1 h2
  have : i = 0 ∨ i = 1 := by
    have := (List.getElem?_eq_some_iff.1 h1).1
    simp at this; omega
  rcases this with rfl | rfl
  · simp at h1
    have : r = 2 := by omega
    subst this; decide
  · simp at h1
    have : r = 0 := by omega
    subst this; decide

variable {α : Type} [LinearOrder α] [Zero α]

/-! ## C33 -/

/-- **C33.** `image_kernel(A, B, F, p)` succeeds, and the kernel it returns is, at every radius, a
basis of the kernel of the morphism; its generators have reduced coordinates and exist from their
birth on. -/
theorem C33_kernel {rnd : α → α} {p : ℕ} {A B : Basis α} {F : Mat} (h : IKInput rnd p A B F) :
    ∃ im ker pre, imageKernel rnd p A B F 0 = .ok ⟨im, some ker, pre⟩ ∧
      BasisIn p A.barcode ker ∧ IsBasisOf p A.barcode ker (kerAt p A.barcode B.barcode F) := by
  obtain ⟨im, ker, pre, h1, h2, -, h3, -⟩ := imageKernel_abs h
  exact ⟨im, ker, pre, h1, h2, h3⟩

/-! ## C34 -/

/-- **C34, part.** Without further hypotheses: at every radius the image generators which are alive
and nonzero there form a basis of the image, and a generator which died is zero.  The generators have reduced coordinates and exist from their
birth on.  Missing: that alive
generators are nonzero, which fails (`C34_violated`). -/
theorem C34_image_partial {rnd : α → α} {p : ℕ} {A B : Basis α} {F : Mat} (h : IKInput rnd p A B F) :
    ∃ im ker pre, imageKernel rnd p A B F 0 = .ok ⟨im, some ker, pre⟩ ∧
      BasisIn p B.barcode im ∧
      (∀ t, LinearIndependent (ZMod p)
        (fun i : {i // AliveBar im.barcode i t ∧ barRestr p B.barcode t (im.coords.zcol p i) ≠ 0} =>
          barRestr p B.barcode t (im.coords.zcol p i)) ∧
        Submodule.span (ZMod p) (Set.range fun i : {i // AliveBar im.barcode i t ∧
          barRestr p B.barcode t (im.coords.zcol p i) ≠ 0} =>
            barRestr p B.barcode t (im.coords.zcol p i)) = imAt p A.barcode B.barcode F t) ∧
      ∀ t i b, im.barcode[i]? = some b → b.2 ≤ t →
        barRestr p B.barcode t (im.coords.zcol p i) = 0 := by
  obtain ⟨im, ker, pre, h1, -, h4, -, h2, h3, -⟩ := imageKernel_abs h
  exact ⟨im, ker, pre, h1, h4, h2, h3⟩

/-- **C34, zero case.** The image of a morphism which is zero at every radius has no bars. -/
theorem C34_image_zero_partial {rnd : α → α} {p : ℕ} {A B : Basis α} {F : Mat}
    (h : IKInput rnd p A B F) (h0 : ∀ t, imAt p A.barcode B.barcode F t = ⊥) :
    ∃ im ker pre, imageKernel rnd p A B F 0 = .ok ⟨im, some ker, pre⟩ ∧ im.barcode = [] := by
  obtain ⟨im, ker, pre, h1, -, -, -, -, -, h2, -⟩ := imageKernel_abs h
  exact ⟨im, ker, pre, h1, h2 h0⟩

/-- **C34, monotone case.** When bars of the domain born later die no earlier, the image returned is at
every radius a basis of the image of the morphism. -/
theorem C34_image_monotone_partial {rnd : α → α} {p : ℕ} {A B : Basis α} {F : Mat}
    (h : IKInput rnd p A B F) (hm : MonotoneDeaths A.barcode) :
    ∃ im ker pre, imageKernel rnd p A B F 0 = .ok ⟨im, some ker, pre⟩ ∧
      IsBasisOf p B.barcode im (imAt p A.barcode B.barcode F) := by
  obtain ⟨im, ker, pre, h1, -, -, -, -, -, -, -, h2⟩ := imageKernel_abs h
  exact ⟨im, ker, pre, h1, (h2 hm).1⟩

/-! ## C57 -/

/-- **C57, monotone case.** The columns of `PreIm` are mapped by `F` to the columns of `Im`. -/
theorem C57_preimage_monotone_partial {rnd : α → α} {p : ℕ} {A B : Basis α} {F : Mat}
    (h : IKInput rnd p A B F) (hm : MonotoneDeaths A.barcode) :
    ∃ im ker pre, imageKernel rnd p A B F 0 = .ok ⟨im, some ker, pre⟩ ∧
      pre.ncols = im.barcode.length ∧
      ∀ i, i < im.barcode.length → F.mulVecL p (pre.zcol p i) = im.coords.zcol p i := by
  obtain ⟨im, ker, pre, h1, -, -, -, -, -, -, -, h2⟩ := imageKernel_abs h
  exact ⟨im, ker, pre, h1, (h2 hm).2⟩

/-! ## Witnesses -/

/-- A basis without coordinates. -/
def barsOnly (bars : List (ℤ × ℤ)) : Basis ℤ :=
  ⟨bars, false, bars.length, none, ⟨0, []⟩, false, none, none⟩

/-- A domain with monotone deaths, unsorted, with a kernel and an image. -/
def ikExA : Basis ℤ := barsOnly [(2, 5), (0, 4), (1, 4)]
def ikExB : Basis ℤ := barsOnly [(0, 3), (-1, 4)]
def ikExF : Mat := ⟨2, [[1, 2], [1, 0], [2, 3]]⟩

theorem exIsMor {A B : List (ℤ × ℤ)} {F : Mat} {p : ℕ} (hr : F.nrows = B.length)
    (hc : F.ncols = A.length) (hs : F.WellShaped) (hred : F.Reduced p)
    (h : ∀ i < A.length, ∀ r < B.length, F.get r i ≠ 0 →
      (B.getD r (0, 0)).1 ≤ (A.getD i (0, 0)).1 ∧ (B.getD r (0, 0)).2 ≤ (A.getD i (0, 0)).2) :
    IsMorphism p A B F := by
  have key : ∀ r i a b, A[i]? = some a → B[r]? = some b → F.z p r i ≠ 0 → b.1 ≤ a.1 ∧ b.2 ≤ a.2 := by
    intro r i a b ha hb hne
    have hi := (List.getElem?_eq_some_iff.1 ha).1
    have hr' := (List.getElem?_eq_some_iff.1 hb).1
    have := h i hi r hr' (fun e => hne (by unfold Mat.z; rw [e]; simp))
    simpa [List.getD_eq_getElem?_getD, ha, hb] using this
  exact ⟨hr, hc, hs, hred, fun r i a b ha hb hne => (key r i a b ha hb hne).1,
    fun r i a b ha hb hne => (key r i a b ha hb hne).2⟩

/-- The inputs `ikExA`, `ikExB`, `ikExF` satisfy the hypotheses of C33, C34 and C57. -/
example : IKInput id 5 ikExA ikExB ikExF ∧ MonotoneDeaths ikExA.barcode := by
  refine ⟨⟨by decide, rfl, rfl, rfl, rfl, by decide, by decide, by decide, rfl,
    exIsMor rfl rfl (by unfold Mat.WellShaped; decide) (by unfold Mat.Reduced; decide) (by decide),
    by decide, fun _ a _ b _ h => h⟩, ?_⟩
  unfold MonotoneDeaths; decide

example : imageKernel id 5 ikExA ikExB ikExF 0 = .ok ⟨
    ⟨[(0, 3), (1, 4)], false, 2, some 2, ⟨2, [[1, 0], [0, 3]]⟩, true, some [true, true, false], none⟩,
    some ⟨[(2, 5), (3, 4)], false, 2, some 3, ⟨3, [[1, 2, 1], [0, 1, 0]]⟩, true, none, none⟩,
    ⟨3, [[0, 1, 0], [0, 3, 1]]⟩⟩ := by decide

theorem exInput {A B : List (ℤ × ℤ)} {F : Mat} (hA : ∀ b ∈ A, b.1 < b.2) (hB : ∀ b ∈ B, b.1 < b.2)
    (hne : A ≠ []) (h : IsMorphism 5 A B F) : IKInput id 5 (barsOnly A) (barsOnly B) F :=
  ⟨by decide, rfl, rfl, rfl, rfl, hA, hB, hne, rfl, h, fun h => (by cases h),
    fun _ a _ b _ h => h⟩

/-- **C34 fails in general**: on a valid input the returned image has a bar which outlives its
generator, so it is not a basis of the image.  A = {[0,4), [0,3)}, B = {[0,2), [0,1)},
F = (1 1; 0 1), p = 5: the first image bar is reported as [0,3) although everything in B is dead
from radius 2 on. -/
theorem C34_violated : ∃ (A B : Basis ℤ) (F : Mat), IKInput id 5 A B F ∧
    ∃ im ker pre, imageKernel id 5 A B F 0 = .ok ⟨im, some ker, pre⟩ ∧
      im.barcode = [(0, 3), (0, 1)] ∧
      ¬ IsBasisOf 5 B.barcode im (imAt 5 A.barcode B.barcode F) := by
  refine ⟨barsOnly [(0, 4), (0, 3)], barsOnly [(0, 2), (0, 1)], ⟨2, [[1, 0], [1, 1]]⟩,
    exInput (by decide) (by decide) (by decide)
      (exIsMor rfl rfl (by unfold Mat.WellShaped; decide) (by unfold Mat.Reduced; decide) (by decide)),
    ⟨[(0, 3), (0, 1)], false, 2, some 2, ⟨2, [[1, 0], [0, 1]]⟩, true, some [true, true], none⟩,
    ⟨[(1, 4), (2, 3)], false, 2, some 2, ⟨2, [[4, 1], [0, 1]]⟩, true, none, none⟩,
    ⟨2, [[1, 0], [4, 1]]⟩, by decide, rfl, ?_⟩
  intro h
  have := Fact.mk (by decide : Nat.Prime 5)
  have hal : AliveBar [((0 : ℤ), (3 : ℤ)), (0, 1)] 0 2 := ⟨(0, 3), rfl, by decide, by decide⟩
  refine (h.indep 2).ne_zero ⟨0, hal⟩ ?_
  unfold barRestr
  rw [restr_eq_zero]
  rintro i ⟨b, hb, -, hb2⟩
  have := List.mem_of_getElem? hb
  simp only [barsOnly, List.mem_cons, List.not_mem_nil, or_false] at this
  rcases this with rfl | rfl <;> exact absurd hb2 (by decide)

/-- **C57 fails in general**: on a valid input a column of `PreIm` is not mapped to its column of
`Im`.  A = {[0,4), [2,6), [2,5)}, B = {[0,5), [0,4)}, F = (0 1 1; 1 1 0), p = 5: the second column of
`PreIm` is (4, 4, 0), mapped to (4, 3), while the second column of `Im` is (4, 4). -/
theorem C57_violated : ∃ (A B : Basis ℤ) (F : Mat), IKInput id 5 A B F ∧
    ∃ im ker pre, imageKernel id 5 A B F 0 = .ok ⟨im, some ker, pre⟩ ∧
      ∃ i < im.barcode.length, F.mulVecL 5 (pre.zcol 5 i) ≠ im.coords.zcol 5 i := by
  refine ⟨barsOnly [(0, 4), (2, 6), (2, 5)], barsOnly [(0, 5), (0, 4)],
    ⟨2, [[0, 1], [1, 1], [1, 0]]⟩, exInput (by decide) (by decide) (by decide)
      (exIsMor rfl rfl (by unfold Mat.WellShaped; decide) (by unfold Mat.Reduced; decide) (by decide)),
    ⟨[(0, 4), (2, 5)], false, 2, some 2, ⟨2, [[0, 1], [4, 4]]⟩, true, some [true, true, false], none⟩,
    ⟨[(2, 6)], false, 1, some 3, ⟨3, [[1, 4, 1]]⟩, true, none, none⟩,
    ⟨3, [[1, 0, 0], [4, 4, 0]]⟩, by decide, 1, by decide, ?_⟩
  intro h
  have := congrFun h 1
  revert this
  decide

end Permaviss
