import Verif.Lemmas.MemoryPH

/-!
# C89, C90: what happens to the arrays passed to a function

`Memory.Unchanged m m'` says that every array that existed before the call has the same contents after it, so
callers may go on using the arrays they passed, and every other array that shares their memory.
-/

namespace Permaviss

/-- **C89, `gauss_col`.** In all cases, also if the function raises, the arrays that existed before the call are
unchanged.  If it returns, the two arrays are new, different from each other, and hold the result of the
elimination. -/
theorem C89_gauss_col (p : ℕ) (a : Ref) (m : Memory) :
    m.Unchanged (gaussColMem p a m).2 ∧
    match gaussCol p (m.mat a) with
    | .error e => (gaussColMem p a m).1 = .error e
    | .ok (R, T) => ∃ r t, (gaussColMem p a m).1 = .ok (r, t) ∧ m.length ≤ r.addr ∧ m.length ≤ t.addr ∧
        r.addr ≠ t.addr ∧ (gaussColMem p a m).2.mat r = R ∧ (gaussColMem p a m).2.mat t = T := by
  cases h : gaussCol p (m.mat a) with
  | error e =>
    obtain ⟨new, he⟩ := gaussColMem_err h
    rw [he]
    exact ⟨Memory.unchanged_append m new, rfl⟩
  | ok RT =>
    obtain ⟨R, T⟩ := RT
    obtain ⟨r, t, bR, bT, he, h1, h2, h3, h4⟩ := gaussColMem_ok h
    rw [he]
    exact ⟨Memory.unchanged_append m _, r, t, rfl, by omega, by omega, by omega, h3, h4⟩

/-- **C89, `gauss_col_rad`.** The same for the elimination with radii, for as many radii as columns. -/
theorem C89_gauss_col_rad {α : Type} [LinearOrder α] (p : ℕ) (a : Ref) (rads : List α) (start : ℕ) (m : Memory)
    (hlen : rads.length = (m.at_ a).ncols) :
    m.Unchanged (gaussColRadMem p a rads start m).2 ∧
    match gaussColRad p (m.mat a) rads start with
    | .error e => (gaussColRadMem p a rads start m).1 = .error e
    | .ok (R, T) => ∃ r t, (gaussColRadMem p a rads start m).1 = .ok (r, t) ∧ m.length ≤ r.addr ∧
        m.length ≤ t.addr ∧ r.addr ≠ t.addr ∧ (gaussColRadMem p a rads start m).2.mat r = R ∧
        (gaussColRadMem p a rads start m).2.mat t = T := by
  have hn : (m.mat a).ncols = (m.at_ a).ncols := Buf.length_rows _
  obtain ⟨bA, bR, bT, he, hc⟩ := gaussColRadMem_eq p a rads start m (hlen.trans hn.symm)
  rw [he]
  refine ⟨Memory.unchanged_append m _, ?_⟩
  cases h : gaussColRad p (m.mat a) rads start with
  | error e => rfl
  | ok RT =>
    obtain ⟨R, T⟩ := RT
    obtain ⟨c1, c2⟩ := hc R T h
    refine ⟨_, _, rfl, by show m.length ≤ m.length + 1; omega, by show m.length ≤ m.length + 2; omega,
      by show m.length + 1 ≠ m.length + 2; omega, ?_, ?_⟩
    · have e : (m ++ [bA, bR, bT]).at_ ⟨m.length + 1, true⟩ = bR.tr :=
        (Memory.at_T _ ⟨m.length + 1, false⟩).trans (congrArg Buf.tr (Memory.at_one m bA bR [bT]))
      rw [← c1]
      unfold Memory.mat; dsimp only; rw [e]; rfl
    · have e0 : (m ++ [bA, bR, bT]).at_ ⟨m.length + 2, false⟩ = bT := by
        unfold Memory.at_; simp [List.getD_eq_getElem?_getD]
      have e : (m ++ [bA, bR, bT]).at_ ⟨m.length + 2, true⟩ = bT.tr :=
        (Memory.at_T _ ⟨m.length + 2, false⟩).trans (congrArg Buf.tr e0)
      rw [← c2]
      unfold Memory.mat; dsimp only; rw [e]; rfl

/-- **C89, `persistent_homology`.** The differentials, which may share memory with each other, are unchanged, also
if the function raises, and the result is that of the function on the matrices they hold. -/
theorem C89_persistent_homology {α : Type} [LinearOrder α] [Zero α] (rnd : α → α) (p D0 : ℕ) (ds : List Ref)
    (R : List (List α)) (maxRad : α) (m : Memory) (hd : ∀ d ∈ ds, d.addr < m.length) :
    m.Unchanged (persistentHomologyMem rnd p D0 ds R maxRad m).2 ∧
    (persistentHomologyMem rnd p D0 ds R maxRad m).1 = persistentHomology rnd p D0 (ds.map m.mat) R maxRad := by
  obtain ⟨new, he⟩ := persistentHomologyMem_eq rnd p D0 ds R maxRad m hd
  rw [he]
  exact ⟨Memory.unchanged_append m new, rfl⟩

/-- **C90, part.** `update_broken(A, rad, p)` changes no array but `A`.  The generators that die at `rad` are the
only rows of `A` that may change, and they become zero; so nothing is changed if no generator dies at `rad`, or if
those rows are zero already.  The result is that of the function on the matrix in `A`.  Missing: that `A` is
unchanged, see `C90_violated`. -/
theorem C90_update_broken_partial {α : Type} [LinearOrder α] (p : ℕ) (B : Basis α) (a : Ref) (rad : α) (m : Memory)
    (ha : a.addr < m.length) (hn : (m.at_ a).nrows = B.barcode.length) :
    (updateBrokenMem p B a rad m).1.map (fun r => (updateBrokenMem p B a rad m).2.mat r) =
      B.updateBroken p (m.mat a) rad ∧
    (∀ r : Ref, r.addr < m.length → r.addr ≠ a.addr → (updateBrokenMem p B a rad m).2.at_ r = m.at_ r) ∧
    ((∀ (i : ℕ) b, B.barcode[i]? = some b → b.2 = rad → ∀ j, (m.at_ a).entry i j = 0) →
      m.Unchanged (updateBrokenMem p B a rad m).2) := by
  obtain ⟨h1, h2, h3⟩ := updateBrokenMem_eq p B a rad m ha hn
  refine ⟨h1, h2, fun h0 r hr => ?_⟩
  by_cases hra : r.addr = a.addr
  · have key : (updateBrokenMem p B a rad m).2.at_ a = m.at_ a := by
      cases hd : B.death rad with
      | error e => simp [updateBrokenMem, hd]
      | ok dying =>
        cases hB : B.brokenDiff with
        | none =>
          unfold updateBrokenMem
          rw [hd]
          dsimp only
          by_cases hdy : dying = []
          · rw [if_pos hdy]
          · rw [if_neg hdy, hB]
        | some BD =>
          rw [h3 dying hd (by rw [hB]; rfl)]
          have he : (fun i j => if i ∈ dying then 0 else (m.at_ a).entry i j) = (m.at_ a).entry := by
            funext i j
            by_cases hi : i ∈ dying
            · rw [if_pos hi]
              unfold Basis.death at hd
              split at hd
              · cases hd
              · cases hd
                unfold barIndices at hi
                obtain ⟨hi1, hi2⟩ := List.mem_filter.1 hi
                have hi1' := List.mem_range.1 hi1
                refine (h0 i (B.barcode[i]) (List.getElem?_eq_getElem hi1') ?_ j).symm
                simpa [List.getElem?_eq_getElem hi1'] using hi2
            · rw [if_neg hi]
          dsimp only
          rw [he]
    by_cases hf : r.flip = a.flip
    · have : r = a := by cases r; cases a; simp_all
      rw [this, key]
    · have : r = a.T := by
        cases r; cases a
        simp only [Ref.T, Ref.mk.injEq] at *
        exact ⟨hra, by revert hf; rename_i x y u v; cases v <;> cases y <;> simp⟩
      rw [this, Memory.at_T, Memory.at_T, key]
  · exact h2 r hr hra

/-! ## Examples -/

/-- An array `[[1, 2], [2, 2]]`, and a memory that holds it. -/
def exArr : Buf := ⟨2, 2, fun i j => if i = 0 ∧ j = 0 then 1 else 2⟩

/-- A basis with the bars `[0, 2)`, `[0, 1)` where the second generator becomes the first one at `1`. -/
def exBrokenMem : Basis Int :=
  { dim := 2, barcode := [(0, 2), (0, 1)], flat := false, prevDim := none, coords := ⟨2, [[1, 0], [0, 1]]⟩
    brokenDiff := some ⟨2, [[0, 0], [1, 0]]⟩, sorted := true, wellDefined := none }

/-- **C90 is violated.** `update_broken` on the array `[[1, 2], [2, 2]]`: the second row of the array of the caller
is set to zero. -/
theorem C90_violated : ∃ (p : ℕ) (B : Basis Int) (a : Ref) (rad : Int) (m : Memory), a.addr < m.length ∧
    (m.at_ a).nrows = B.barcode.length ∧ (updateBrokenMem p B a rad m).1.isOk ∧
    ¬ m.Unchanged (updateBrokenMem p B a rad m).2 := by
  refine ⟨5, exBrokenMem, ⟨0, false⟩, 1, [exArr], by decide, by decide, by decide +kernel, fun h => ?_⟩
  have := congrArg (fun b : Buf => b.entry 1 0) (h ⟨0, false⟩ (by decide))
  revert this
  decide +kernel

/-- `C90_update_broken_partial` applies to an array whose second row is zero. -/
example : Memory.Unchanged [exArr.setRow 1 [0, 0]]
    (updateBrokenMem 5 exBrokenMem ⟨0, false⟩ 1 [exArr.setRow 1 [0, 0]]).2 := by
  refine (C90_update_broken_partial 5 exBrokenMem ⟨0, false⟩ 1 _ (by decide) (by decide)).2.2 ?_
  intro i b hb hb2 j
  match i with
  | 0 => cases hb; cases hb2
  | 1 => show (exArr.setRow 1 [0, 0]).entry 1 j = 0
         match j with
         | 0 => rfl
         | 1 => rfl
         | n + 2 => rfl
  | n + 2 => cases hb

/-- The elimination of `[[1, 2], [2, 2]]` mod 5 returns and changes columns of its copy. -/
example : (gaussColMem 5 ⟨0, false⟩ [exArr]).1.isOk ∧
    (gaussColMem 5 ⟨0, false⟩ [exArr]).2.mat ⟨1, true⟩ = ⟨2, [[1, 2], [1, 0]]⟩ ∧
    Memory.mat [exArr] ⟨0, false⟩ = ⟨2, [[1, 2], [2, 2]]⟩ := by decide +kernel

/-- With modulus 4 there is no inverse: `gauss_col` raises, and the array is unchanged. -/
example : (gaussColMem 4 ⟨0, false⟩ [exArr]).1.isOk = false ∧
    Memory.Unchanged [exArr] (gaussColMem 4 ⟨0, false⟩ [exArr]).2 :=
  ⟨by decide +kernel, (C89_gauss_col 4 ⟨0, false⟩ [exArr]).1⟩

/-- A case with radii: the second column of `[[1, 2], [2, 9]]` is reduced to zero mod 5. -/
example : [0, (1 : Int)].length = (Memory.at_ [exArr.setRow 1 [2, 9]] ⟨0, false⟩).ncols ∧
    (gaussColRadMem 5 ⟨0, false⟩ [0, (1 : Int)] 1 [exArr.setRow 1 [2, 9]]).1.isOk ∧
    (gaussColRadMem 5 ⟨0, false⟩ [0, (1 : Int)] 1 [exArr.setRow 1 [2, 9]]).2.mat ⟨2, true⟩ =
      ⟨2, [[1, 2], [0, 0]]⟩ := by
  decide +kernel

/-- An edge with its two end points: `persistent_homology` returns. -/
example : (persistentHomologyMem (id : Int → Int) 5 2 [⟨0, false⟩] [[0, 0], [1]] 3
    [⟨2, 1, fun i _ => if i = 0 then 4 else 1⟩]).1.isOk := by decide +kernel

end Permaviss
