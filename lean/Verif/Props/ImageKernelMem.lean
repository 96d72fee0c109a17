import Verif.Lemmas.ImageKernelMem
import Verif.Props.ImageKernel
import Verif.Props.InPlace

/-!
# C98: `image_kernel` changes none of the arrays of the caller
-/

namespace Permaviss

variable {α : Type} [LinearOrder α]

/-- **C98.** `image_kernel(A, B, F, p, start_index)` on an array `F`, which is copied only if one of the bases is not
ordered.  In all cases, also if the function raises, the arrays that existed before the call are unchanged, among
them `F` and all its views; and the result, or the exception, is the one of the function on the matrix that `F` holds:
no write to one of the arrays of the function shows in another one.  The bases are any with as many bars as their
dimension says, ordered or not, broken or not, and the modulus and the start index are any. -/
theorem C98_image_kernel [Zero α] (rnd : α → α) (p : ℕ) (A B : Basis α) (F : Ref) (start : ℕ) (m : Memory)
    (hF : F.addr < m.length) (hA : A.barcode.length = A.dim) (hB : B.barcode.length = B.dim) :
    m.Unchanged (imageKernelMem rnd p A B F start m).2 ∧
    (imageKernelMem rnd p A B F start m).1 = imageKernel rnd p A B (m.mat F) start :=
  ⟨(imageKernelMem_sim rnd p A B start hF hA hB).keep.1,
    ((imageKernelMem_sim rnd p A B start hF hA hB).weaken fun _ _ _ h => h.1).value_eq⟩

/-- **C98, bases.** Bases that the constructor and `sort` return have as many bars as their dimension says. -/
theorem C98_bases (rnd : α → α) {bars : List (α × α)} {flat sw br : Bool} {pd : Option ℕ} {cs : Mat}
    {bd : Option Mat} {B : Basis α} (h : Basis.init bars flat pd cs sw br bd = .ok B) :
    B.barcode.length = B.dim ∧ ∀ B' order, B.sort rnd = .ok (B', order) → B'.barcode.length = B'.dim := by
  obtain ⟨-, h2, -, -⟩ := init_facts (p := 2) h
  refine ⟨h2.symm, fun B' order h' => ?_⟩
  obtain ⟨-, k2, k3, -, -⟩ := sort_facts (p := 2) h'
  rw [k3, k2, h2]

/-- **C98, two calls.** A second call with the same `F` on the memory that the first one leaves gives what it gives on
the memory before the first one. -/
theorem C98_two_calls [Zero α] (rnd : α → α) (p p' : ℕ) (A B A' B' : Basis α) (F : Ref) (start start' : ℕ)
    (m : Memory) (hF : F.addr < m.length) (hA : A.barcode.length = A.dim) (hB : B.barcode.length = B.dim)
    (hA' : A'.barcode.length = A'.dim) (hB' : B'.barcode.length = B'.dim) :
    (imageKernelMem rnd p' A' B' F start' (imageKernelMem rnd p A B F start m).2).1 =
      (imageKernelMem rnd p' A' B' F start' m).1 := by
  obtain ⟨h1, hl⟩ := (imageKernelMem_sim rnd p A B start hF hA hB).keep
  rw [(C98_image_kernel rnd p' A' B' F start' _ (hF.trans_le hl) hA' hB').2,
    (C98_image_kernel rnd p' A' B' F start' m hF hA' hB').2, Memory.mat_congr (h1 F hF)]

/-- **C98, `pivot_check_reduce`.** The recursion writes to the arrays `M` and `T` of the caller and to no other one,
also if it raises; the shapes of `M` and `T` stay the same; if it returns, then `M` and `T` hold the matrices of the
function, which differ from the old ones in column `col` only. -/
theorem C98_pivot_check_reduce (p : ℕ) (active : List ℕ) (col : ℕ) (pivPrev : List Int) (M T : Ref) (m : Memory)
    (hcol : pivPrev.length ≤ col) (hM : M.addr < m.length) (hT : T.addr < m.length) (hMT : T.addr ≠ M.addr)
    (hcM : col < (m.at_ M).ncols) (hcT : col < (m.at_ T).ncols) :
    let x := pivotCheckReduceMem p M active col pivPrev (some T) m
    let y := pivotCheckReduce p (m.mat M) active col pivPrev (some (m.mat T))
    x.1 = y.map (fun o => o.2.2) ∧
    (∀ r : Ref, r.addr ≠ M.addr → r.addr ≠ T.addr → x.2.at_ r = m.at_ r) ∧
    (x.2.at_ M).nrows = (m.at_ M).nrows ∧ (x.2.at_ M).ncols = (m.at_ M).ncols ∧
    (x.2.at_ T).nrows = (m.at_ T).nrows ∧ (x.2.at_ T).ncols = (m.at_ T).ncols ∧
    ∀ o, y = .ok o → x.2.mat M = o.1 ∧ some (x.2.mat T) = o.2.1 ∧
      ∀ j, j ≠ col → (x.2.mat M).col j = (m.mat M).col j ∧ (x.2.mat T).col j = (m.mat T).col j := by
  have hp := pivotCheckReduceMem_ok p active hcol (T := some T) (fun t ht => by cases ht; exact hMT) m hM hcM
    (fun t ht => by cases ht; exact ⟨hT, hcT⟩)
  refine ⟨hp.val, fun r h1 h2 => hp.other r h1 (fun t ht => by cases ht; exact h2), hp.nrows, hp.ncols,
    hp.nrowsT T rfl, hp.ncolsT T rfl, fun o ho => ?_⟩
  obtain ⟨k1, k2⟩ := hp.mats o ho
  refine ⟨k1, k2, fun j hj => ?_⟩
  obtain ⟨c1, c2⟩ := pcrLoop_cols _ _ _ _ ho
  refine ⟨by rw [k1]; exact c1 j hj, c2 _ _ rfl k2.symm j hj⟩

/-- The hypotheses hold for the bases and the matrix of the example of C18, whose first basis is not ordered: the call
returns, with an image and a kernel. -/
example : ikExA.barcode.length = ikExA.dim ∧ ikExB.barcode.length = ikExB.dim ∧
    Memory.mat [Buf.ofMat ikExF] ⟨0, false⟩ = ikExF ∧
    (imageKernelMem id 5 ikExA ikExB ⟨0, false⟩ 0 [Buf.ofMat ikExF]).1.isOk := by decide +kernel

/-- Two ordered bases, so `F` is the array of the caller during the whole run. -/
def memExA : Basis Int :=
  { dim := 2, barcode := [(0, 3), (1, 2)], flat := false, prevDim := none, coords := ⟨0, []⟩
    brokenDiff := none, sorted := true, wellDefined := none }

/-- See `memExA`. -/
def memExB : Basis Int :=
  { dim := 2, barcode := [(0, 2), (0, 1)], flat := false, prevDim := none, coords := ⟨0, []⟩
    brokenDiff := none, sorted := true, wellDefined := none }

/-- Both columns of `F` are `(1, 1)`.  The second generator is mapped to what the first one is mapped to: the loop
writes to its copy of `F`, and the kernel has a generator. -/
example : memExA.barcode.length = memExA.dim ∧ memExB.barcode.length = memExB.dim ∧
    (imageKernelMem id 5 memExA memExB ⟨0, false⟩ 0 [⟨2, 2, fun _ _ => 1⟩]).1.isOk ∧
    (imageKernelMem id 5 memExA memExB ⟨0, false⟩ 0 [⟨2, 2, fun _ _ => 1⟩]).2.mat ⟨1, false⟩ ≠ ⟨2, [[1, 1], [1, 1]]⟩ ∧
    (imageKernelMem id 5 memExA memExB ⟨0, false⟩ 0 [⟨2, 2, fun _ _ => 1⟩]).2.mat ⟨0, false⟩ =
      ⟨2, [[1, 1], [1, 1]]⟩ := by decide +kernel

/-- A broken basis: `update_broken`, which writes to its argument (C90), is given the copy of `F`. -/
example : memExA.barcode.length = memExA.dim ∧ exBrokenMem.barcode.length = exBrokenMem.dim ∧
    (imageKernelMem id 5 memExA exBrokenMem ⟨0, false⟩ 0 [⟨2, 2, fun _ _ => 1⟩]).1.isOk ∧
    (imageKernelMem id 5 memExA exBrokenMem ⟨0, false⟩ 0 [⟨2, 2, fun _ _ => 1⟩]).2.mat ⟨0, false⟩ =
      ⟨2, [[1, 1], [1, 1]]⟩ := by decide +kernel

/-- Modulus 4, and pivots without inverse: the call raises in the middle of the loop. -/
example : (imageKernelMem id 4 memExA memExB ⟨0, false⟩ 0 [⟨2, 2, fun _ _ => 2⟩]).1.isOk = false ∧
    Memory.Unchanged [⟨2, 2, fun _ _ => 2⟩] (imageKernelMem id 4 memExA memExB ⟨0, false⟩ 0 [⟨2, 2, fun _ _ => 2⟩]).2 :=
  ⟨by decide +kernel, (C98_image_kernel id 4 memExA memExB ⟨0, false⟩ 0 [⟨2, 2, fun _ _ => 2⟩] (by decide) rfl rfl).1⟩

/-- `F` may be a view, here the transpose of the array. -/
example : (imageKernelMem id 5 memExA memExB ⟨0, true⟩ 0 [exArr]).1 =
    imageKernel id 5 memExA memExB (Memory.mat [exArr] ⟨0, true⟩) 0 :=
  (C98_image_kernel id 5 memExA memExB ⟨0, true⟩ 0 [exArr] (by decide) rfl rfl).2

/-- `pivot_check_reduce` on the second column of a 2 × 2 matrix with the identity as `T`. -/
example : (pivotCheckReduceMem 5 ⟨0, false⟩ [0, 1] 1 [1] (some ⟨1, false⟩) [⟨2, 2, fun _ _ => 1⟩, identityBuf 2]).1 =
      .ok (-1) ∧
    (pivotCheckReduceMem 5 ⟨0, false⟩ [0, 1] 1 [1] (some ⟨1, false⟩) [⟨2, 2, fun _ _ => 1⟩, identityBuf 2]).2.mat
      ⟨1, false⟩ = ⟨2, [[1, 0], [4, 1]]⟩ := by decide +kernel

end Permaviss
