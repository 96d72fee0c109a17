import Verif.Lemmas.Barcode
import Mathlib.Algebra.BigOperators.Group.List.Basic
import Mathlib.Algebra.Ring.Int.Defs

/-!
# C28–C31: barcode bases
-/

namespace Permaviss

open Finset

variable {α : Type} [LinearOrder α]

/-! ## C28 -/

/-- **C28.** When the constructor succeeds it keeps, in order, exactly the bars with birth < death
together with their coordinate columns, and `dim` is their number. -/
theorem C28_init_keeps_well_defined (bars : List (α × α)) (flat : Bool) (prevDim : Option Nat)
    (coords : Mat) (swd broken : Bool) (bd : Option Mat) (B : Basis α)
    (h : Basis.init bars flat prevDim coords swd broken bd = .ok B) :
    B.barcode = bars.filter (fun b => decide (b.1 < b.2)) ∧ B.dim = B.barcode.length ∧
    (prevDim.isSome → coords.ncols ≠ 0 → B.coords.nrows = coords.nrows ∧
      B.coords.ncols = B.dim ∧
      B.barcode.zip B.coords.cols = (bars.zip coords.cols).filter fun x => decide (x.1.1 < x.1.2)) ∧
    (prevDim = none ∨ coords.ncols = 0 → B.coords = coords) ∧
    (broken = true → ∃ M, bd = some M ∧ B.brokenDiff = some M ∧ M.nrows = B.dim ∧ M.ncols = B.dim) ∧
    (broken = false → B.brokenDiff = none) ∧
    (swd = true → B.wellDefined = some (bars.map fun b => decide (b.1 < b.2))) ∧
    B.sorted = false := by
  unfold Basis.init at h
  split at h
  · cases h
  · split at h
    · cases h
    · rename_i cs hcs
      simp only at h
      split at h
      · cases h
      · -- the coordinates
        have hc : (prevDim.isSome → coords.ncols ≠ 0 → cs.nrows = coords.nrows ∧
            cs.ncols = (bars.filter fun b => decide (b.1 < b.2)).length ∧
            (bars.filter fun b => decide (b.1 < b.2)).zip cs.cols =
              (bars.zip coords.cols).filter fun x => decide (x.1.1 < x.1.2)) ∧
            (prevDim = none ∨ coords.ncols = 0 → cs = coords) := by
          unfold initCoords at hcs
          cases prevDim with
          | none => simp only [Except.ok.injEq] at hcs; simp [hcs]
          | some m =>
            simp only at hcs
            split at hcs
            · rename_i h0
              simp only [Except.ok.injEq] at hcs
              exact ⟨fun _ h => absurd h0 h, fun _ => hcs.symm⟩
            · rename_i h0
              split at hcs
              · cases hcs
              · split at hcs
                · cases hcs
                · rename_i hlen
                  push Not at hlen
                  simp only [Except.ok.injEq] at hcs
                  subst hcs
                  refine ⟨fun _ _ => ⟨rfl, ?_, ?_⟩, ?_⟩
                  · exact length_maskBy _ _ _ hlen
                  · exact zip_maskBy _ _ _ hlen
                  · rintro (h | h)
                    · cases h
                    · exact absurd h h0
        split at h
        · rename_i hb
          split at h
          · split at h
            · rename_i M _ hM
              simp only [Except.ok.injEq] at h
              subst h
              refine ⟨rfl, rfl, hc.1, hc.2, fun _ => ⟨M, rfl, rfl, hM.1, hM.2⟩, ?_, ?_, rfl⟩
              · intro h; rw [h] at hb; cases hb
              · intro h; simp [h, barMask]
            · cases h
          · cases h
        · rename_i hb
          simp only [Except.ok.injEq] at h
          subst h
          refine ⟨rfl, rfl, hc.1, hc.2, fun h => absurd h hb, fun _ => rfl, ?_, rfl⟩
          intro h; simp [h, barMask]

/-- **C28.** The constructor raises `ValueError` exactly when a broken basis lacks its differential,
when coordinates do not have `prev_basis.dim` rows or one column per bar, or when the differential of
a broken basis is not of size `dim × dim`. -/
theorem C28_init_value_error_iff (bars : List (α × α)) (flat : Bool) (prevDim : Option Nat)
    (coords : Mat) (broken : Bool) (bd : Option Mat) :
    Basis.init bars flat prevDim coords false broken bd = .error .valueError ↔
      (broken = true ∧ bd = none) ∨
      (∃ m, prevDim = some m ∧ coords.ncols ≠ 0 ∧ (coords.nrows ≠ m ∨ coords.ncols ≠ bars.length)) ∨
      (broken = true ∧ ∃ M, bd = some M ∧
        ¬ (M.nrows = (bars.filter fun b => decide (b.1 < b.2)).length ∧
           M.ncols = (bars.filter fun b => decide (b.1 < b.2)).length)) := by
  unfold Basis.init initCoords
  cases broken with
  | false =>
    cases prevDim with
    | none => simp
    | some m =>
      simp only [Bool.false_and, Bool.false_eq_true, if_false, false_and, false_or, or_false,
        Option.some.injEq, exists_eq_left']
      by_cases h0 : coords.ncols = 0
      · simp [h0]
      · by_cases h1 : coords.nrows = m
        · by_cases h2 : bars.length = coords.ncols
          · simp [h0, h1, h2]
          · simp [h0, h1, h2, Ne.symm h2]
        · simp [h0, h1]
  | true =>
    cases bd with
    | none => simp
    | some M =>
      cases prevDim with
      | none =>
        simp only [Option.isNone_some, Bool.and_false, Bool.false_eq_true, if_false, Bool.false_and,
          if_true]
        split_ifs with h
        · simp; exact h
        · simp; intro h1 h2; exact h ⟨h1, h2⟩
      | some m =>
        simp only [Option.isNone_some, Bool.and_false, Bool.false_eq_true, if_false, Bool.false_and,
          if_true]
        by_cases h0 : coords.ncols = 0
        · simp only [h0, if_true]
          split_ifs with h
          · simp; exact h
          · simp; intro h1 h2; exact h ⟨h1, h2⟩
        · by_cases h1 : coords.nrows = m
          · by_cases h2 : bars.length = coords.ncols
            · simp only [h0, h1, h2, if_false, ne_eq, not_true]
              split_ifs with h
              · simp; exact h
              · simp; intro h1 h2; exact h ⟨h1, h2⟩
            · simp [h0, h1, h2, Ne.symm h2]
          · simp [h0, h1]

/-- **C28.** Asking for `store_well_defined` on an empty list of bars raises: the unchanged code has
not assigned the variable. -/
theorem C28_init_store_well_defined_empty (flat : Bool) :
    Basis.init ([] : List (α × α)) flat none ⟨0, []⟩ true false none = .error .unboundLocalError := rfl

/-- Four bars, one of them empty, with coordinates in a basis of dimension 3. -/
def exBars : List (Int × Int) := [(0, 2), (0, 1), (2, 2), (2, 3)]
def exCoords : Mat := Mat.ofRows 4 [[1, 0, 5, 0], [1, 1, 6, 0], [0, 2, 7, 1]]

example : Basis.init exBars false (some 3) exCoords true false none = .ok
    { barcode := [(0, 2), (0, 1), (2, 3)], flat := false, dim := 3, prevDim := some 3
      coords := Mat.ofRows 3 [[1, 0, 0], [1, 1, 0], [0, 2, 1]], sorted := false
      wellDefined := some [true, true, false, true], brokenDiff := none } := by decide

/-! ## C29 -/

/-- The matrix whose rows and columns are listed in the given order. -/
def permuted (order : List Nat) (M N : Mat) : Prop :=
  N.nrows = order.length ∧ N.ncols = order.length ∧
  ∀ i j, i < order.length → j < order.length → N.get i j = M.get (order.getD i 0) (order.getD j 0)

/-- **C29.** `sort()` permutes bars, coordinates and broken differentials by one and the same
permutation `order`; the result is ordered by rounded birth ascending, then rounded death descending;
ties keep their order. -/
theorem C29_sort (rnd : α → α) (B B' : Basis α) (order : List Nat)
    (hdim : B.dim = B.barcode.length)
    (hco : B.prevDim.isSome → B.coords.ncols = B.dim)
    (hbd : ∀ M, B.brokenDiff = some M → M.nrows = B.dim ∧ M.ncols = B.dim ∧ M.WellShaped)
    (h : B.sort rnd = .ok (B', order)) :
    order.Perm (List.range B.dim) ∧ B'.dim = B.dim ∧ B'.sorted = true ∧
    B'.barcode.length = B.barcode.length ∧
    (∀ (k i : Nat), order[k]? = some i → B'.barcode[k]? = B.barcode[i]?) ∧
    (B.prevDim.isSome → B'.coords.nrows = B.coords.nrows ∧ B'.coords.ncols = B.coords.ncols ∧
      ∀ (k i : Nat), order[k]? = some i → B'.coords.cols[k]? = B.coords.cols[i]?) ∧
    (B.prevDim = none → B'.coords = B.coords) ∧
    (∀ M, B.brokenDiff = some M → ∃ N, B'.brokenDiff = some N ∧ permuted order M N) ∧
    B'.barcode.Pairwise (fun a b => rnd a.1 < rnd b.1 ∨ (rnd a.1 = rnd b.1 ∧ rnd b.2 ≤ rnd a.2)) ∧
    order.Pairwise (fun i j => ∀ a b, B.barcode[i]? = some a → B.barcode[j]? = some b →
      rnd a.1 = rnd b.1 → rnd a.2 = rnd b.2 → i < j) := by
  unfold Basis.sort at h
  split at h
  · cases h
  · simp only [Except.ok.injEq, Prod.mk.injEq] at h
    obtain ⟨rfl, rfl⟩ := h
    have hp := sortOrder_perm rnd B.barcode
    have hlt : ∀ i ∈ sortOrder rnd B.barcode, i < B.barcode.length := fun i hi =>
      List.mem_range.1 (hp.mem_iff.1 hi)
    have hlen : (sortOrder rnd B.barcode).length = B.barcode.length := by
      rw [hp.length_eq, List.length_range]
    have hst := sortOrder_stable rnd B.barcode
    refine ⟨by rw [hdim]; exact hp, rfl, rfl, ?_, ?_, ?_, ?_, ?_, ?_, ?_⟩
    · exact (gather_perm hp).length_eq
    · intro k i hk
      simp only
      rw [gather_getElem? hlt, hk]; rfl
    · intro hs
      simp only [hs, if_true]
      have hc := hco hs
      have hlt' : ∀ i ∈ sortOrder rnd B.barcode, i < B.coords.cols.length := fun i hi => by
        have := hlt i hi
        unfold Mat.ncols at hc; omega
      refine ⟨trivial, ?_, ?_⟩
      · unfold Mat.ncols at hc ⊢
        rw [length_gather hlt', hlen, hc, hdim]
      · intro k i hk
        rw [gather_getElem? hlt', hk]; rfl
    · intro hs; simp [hs]
    · intro M hM
      obtain ⟨h1, h2, h3⟩ := hbd M hM
      have hltM : ∀ i ∈ sortOrder rnd B.barcode, i < M.cols.length := fun i hi => by
        have := hlt i hi
        unfold Mat.ncols at h2; omega
      refine ⟨_, by rw [hM]; rfl, rfl, ?_, ?_⟩
      · simp [Mat.ncols, length_gather hltM]
      · intro i j hi hj
        simp only [Mat.get]
        have e1 : ((gather M.cols (sortOrder rnd B.barcode)).map fun c =>
            gather c (sortOrder rnd B.barcode)).getD j [] =
            gather (M.cols.getD ((sortOrder rnd B.barcode).getD j 0) []) (sortOrder rnd B.barcode) := by
          rw [gather_eq_map [] hltM]
          simp [List.getD_eq_getElem?_getD, hj]
        rw [e1]
        have hjM : (sortOrder rnd B.barcode).getD j 0 < M.cols.length := by
          rw [List_getD_eq_getElem _ _ hj]; exact hltM _ (List.getElem_mem hj)
        have hcol : (M.cols.getD ((sortOrder rnd B.barcode).getD j 0) []).length = B.dim := by
          rw [List_getD_eq_getElem _ _ hjM, h3 _ (List.getElem_mem hjM), h1]
        rw [gather_eq_map 0 (fun k hk => by rw [hcol, hdim]; exact hlt k hk)]
        rw [List.getD_eq_getElem?_getD (l := List.map _ _), List.getElem?_map,
          List.getD_eq_getElem?_getD (l := sortOrder rnd B.barcode) (i := i),
          List.getElem?_eq_getElem hi]
        rfl
    · simp only
      rw [List.pairwise_iff_getElem]
      intro i j hi hj hij
      have hlg := length_gather hlt
      rw [hlg] at hi hj
      have := List.pairwise_iff_getElem.1 hst i j hi hj hij
      refine (this _ _ ?_ ?_).1
      · have hg := gather_getElem? hlt i
        rw [List.getElem?_eq_getElem hi, List.getElem?_eq_getElem (by rw [hlg]; exact hi)] at hg
        exact hg.symm
      · have hg := gather_getElem? hlt j
        rw [List.getElem?_eq_getElem hj, List.getElem?_eq_getElem (by rw [hlg]; exact hj)] at hg
        exact hg.symm
    · refine hst.imp fun {i j} h a b ha hb h1 h2 => ?_
      exact (h a b ha hb).2 (Or.inr ⟨h1.symm, h2.le⟩)

/-- **C29.** `sort()` succeeds on every basis built from a two dimensional array of bars. -/
theorem C29_sort_total (rnd : α → α) (B : Basis α) (h : B.flat = false) :
    ∃ B' order, B.sort rnd = .ok (B', order) := by
  unfold Basis.sort; rw [h]; exact ⟨_, _, rfl⟩

/-- **C29.** On `barcode_basis([])` the unchanged code raises `IndexError`. -/
theorem C29_sort_empty_raises (rnd : α → α) (B : Basis α)
    (h : Basis.init [] true none ⟨0, []⟩ false false none = .ok B) : B.sort rnd = .error .indexError := by
  have h' := Except.ok.inj h
  have : B.flat = true := by rw [← h']; rfl
  unfold Basis.sort; rw [this]; rfl

/-- The basis of the docstring of `sort`, with a broken differential. -/
def exBasis : Basis Int :=
  { barcode := [(1, 2), (0, 4), (-1, 3), (1, 4)], flat := false, dim := 4, prevDim := none
    coords := ⟨0, []⟩, sorted := false, wellDefined := none
    brokenDiff := some (Mat.ofRows 4 [[0, 0, 0, 0], [1, 0, 0, 0], [0, 0, 0, 0], [2, 0, 0, 0]]) }

example : (exBasis.sort id).map Prod.snd = .ok [2, 1, 3, 0] ∧
    (exBasis.sort id).map (fun x => x.1.barcode) = .ok [(-1, 3), (0, 4), (1, 4), (1, 2)] ∧
    (exBasis.sort id).map (fun x => x.1.brokenDiff) =
      .ok (some (Mat.ofRows 4 [[0, 0, 0, 0], [0, 0, 0, 1], [0, 0, 0, 2], [0, 0, 0, 0]])) := by decide

/-! ## C30 -/

/-- **C30.** `active(t)` lists in increasing order exactly the indices of the bars with
birth ≤ t < death. -/
theorem C30_active (B : Basis α) (h : B.flat = false) (t : α) :
    ∃ l, B.active t = .ok l ∧ l.Pairwise (· < ·) ∧
      ∀ i, i ∈ l ↔ ∃ b, B.barcode[i]? = some b ∧ b.1 ≤ t ∧ t < b.2 := by
  refine ⟨_, by unfold Basis.active; rw [h]; rfl, barIndices_sorted _ _, fun i => ?_⟩
  rw [mem_barIndices]; simp

/-- **C30.** `birth(t)` lists the indices of the bars born at `t`. -/
theorem C30_birth (B : Basis α) (h : B.flat = false) (t : α) :
    ∃ l, B.birth t = .ok l ∧ l.Pairwise (· < ·) ∧
      ∀ i, i ∈ l ↔ ∃ b, B.barcode[i]? = some b ∧ b.1 = t := by
  refine ⟨_, by unfold Basis.birth; rw [h]; rfl, barIndices_sorted _ _, fun i => ?_⟩
  rw [mem_barIndices]; simp

/-- **C30.** `death(t)` lists the indices of the bars dying at `t`. -/
theorem C30_death (B : Basis α) (h : B.flat = false) (t : α) :
    ∃ l, B.death t = .ok l ∧ l.Pairwise (· < ·) ∧
      ∀ i, i ∈ l ↔ ∃ b, B.barcode[i]? = some b ∧ b.2 = t := by
  refine ⟨_, by unfold Basis.death; rw [h]; rfl, barIndices_sorted _ _, fun i => ?_⟩
  rw [mem_barIndices]; simp

/-- **C30.** `changes_list` lists all endpoints of bars, strictly increasing. -/
theorem C30_changes_list (B : Basis α) :
    B.changesList.Pairwise (· < ·) ∧
      ∀ x, x ∈ B.changesList ↔ ∃ b ∈ B.barcode, x = b.1 ∨ x = b.2 := by
  refine ⟨npUnique_strict _, fun x => ?_⟩
  unfold Basis.changesList
  rw [mem_npUnique]
  simp

/-- **C30.** Nothing changes between consecutive changes: if no endpoint lies in `(s, t]` then the
same bars are active at `s` and at `t`. -/
theorem C30_active_constant (B : Basis α) (s t : α) (hst : s ≤ t)
    (h : ∀ x ∈ B.changesList, ¬ (s < x ∧ x ≤ t)) : B.active s = B.active t := by
  unfold Basis.active
  split
  · rfl
  · congr 1
    unfold barIndices
    apply List.filter_congr
    intro i _
    cases hb : B.barcode[i]? with
    | none => rfl
    | some b =>
      have hm := List.mem_of_getElem? hb
      have h1 := h b.1 ((C30_changes_list B).2 b.1 |>.2 ⟨b, hm, Or.inl rfl⟩)
      have h2 := h b.2 ((C30_changes_list B).2 b.2 |>.2 ⟨b, hm, Or.inr rfl⟩)
      push Not at h1 h2
      have e1 : b.1 ≤ s ↔ b.1 ≤ t := ⟨fun h => h.trans hst, fun h => by
        by_contra hc
        exact absurd h (not_le.2 (h1 (not_le.1 hc)))⟩
      have e2 : s < b.2 ↔ t < b.2 := ⟨fun h => h2 h, fun h => lt_of_le_of_lt hst h⟩
      simp [e1, e2]

example : exBasis.active 1 = .ok [0, 1, 2, 3] ∧ exBasis.active 2 = .ok [1, 2, 3] ∧
    exBasis.birth 1 = .ok [0, 3] ∧ exBasis.death 4 = .ok [1, 3] ∧
    exBasis.changesList = [-1, 0, 1, 2, 3, 4] := by decide

/-! ## C31 -/

/-- The vector `c` with every generator in `dying` replaced by its column of `BD`. -/
noncomputable def replaced (p : ℕ) (BD : Mat) (dying : List Nat) (c : ℕ → ZMod p) : ℕ → ZMod p := fun i =>
  (if i ∈ dying then 0 else c i) + (dying.map fun k => BD.z p i k * c k).sum

/-- **C31.** `update_broken(A, rad, p)` replaces, in every column, each generator dying at `rad` by its
broken differential mod `p`; entries are reduced mod `p`. -/
theorem C31_update_broken (p : ℕ) (hp : 0 < p) (B : Basis α) (A A' BD : Mat) (rad : α) (dying : List Nat)
    (hd : B.death rad = .ok dying) (hBD : B.brokenDiff = some BD) (hsq : BD.nrows = B.dim ∧ BD.WellShaped)
    (hA : A.WellShaped) (hrows : A.nrows = B.dim) (hne : dying ≠ [])
    (h : B.updateBroken p A rad = .ok A') :
    A'.nrows = A.nrows ∧ A'.ncols = A.ncols ∧ A'.WellShaped ∧ A'.Reduced p ∧
    ∀ j < A.ncols, ∀ i < A.nrows,
      A'.z p i j = replaced p BD dying (fun k => A.z p k j) i := by
  unfold Basis.updateBroken at h
  rw [hd] at h
  simp only [hne, if_false, hBD, Except.ok.injEq] at h
  subst h
  refine ⟨rfl, by simp [Mat.ncols], ?_, ?_, ?_⟩
  · intro c hc
    obtain ⟨c', hc', rfl⟩ := List.mem_map.1 hc
    simp [updateBrokenCol, hA c' hc']
  · intro c hc x hx
    obtain ⟨c', hc', rfl⟩ := List.mem_map.1 hc
    obtain ⟨i, -, rfl⟩ := List.mem_map.1 hx
    exact ⟨Int.emod_nonneg _ (by omega), Int.emod_lt_of_pos _ (by omega)⟩
  · intro j hj i hi
    have hj' : j < A.cols.length := hj
    have hcl : (A.cols.getD j []).length = A.nrows := by
      rw [List_getD_eq_getElem _ _ hj']; exact hA _ (List.getElem_mem hj')
    have hg : (⟨A.nrows, A.cols.map (updateBrokenCol p BD dying)⟩ : Mat).get i j =
        ((if i ∈ dying then 0 else (A.cols.getD j []).getD i 0) +
          (dying.map fun k => BD.get i k * (A.cols.getD j []).getD k 0).sum) % (p : Int) := by
      unfold Mat.get
      rw [List.getD_eq_getElem?_getD (l := List.map _ _), List.getElem?_map,
        List.getElem?_eq_getElem hj']
      have : (A.cols.getD j []) = A.cols[j] := List_getD_eq_getElem _ _ hj'
      rw [this] at hcl ⊢
      simp [updateBrokenCol, hcl, hi, List.getD_eq_getElem?_getD]
      rfl
    have hs : ∀ l : List Nat, (((l.map fun k => BD.get i k * (A.cols.getD j []).getD k 0).sum : Int) :
        ZMod p) = (l.map fun k => BD.z p i k * A.z p k j).sum := by
      intro l
      induction l with
      | nil => simp
      | cons a l ih =>
        rw [List.map_cons, List.sum_cons, List.map_cons, List.sum_cons, ← ih]
        push_cast
        rfl
    simp only [Mat.z, hg, replaced, ZMod.intCast_mod]
    rw [Int.cast_add, hs]
    congr 1
    split <;> simp [Mat.get]

/-- **C31.** Nothing dies at `rad`: the matrix is returned unchanged. -/
theorem C31_update_broken_nothing_dies (p : ℕ) (B : Basis α) (A : Mat) (rad : α)
    (hd : B.death rad = .ok []) : B.updateBroken p A rad = .ok A := by
  unfold Basis.updateBroken; rw [hd]; simp

/-- **C31.** If the broken differentials of the generators dying at `rad` only involve generators
which do not die at `rad`, the updated matrix is zero on all dying rows. -/
theorem C31_update_broken_clears (p : ℕ) (hp : 0 < p) (B : Basis α) (A A' BD : Mat) (rad : α)
    (dying : List Nat) (hd : B.death rad = .ok dying) (hBD : B.brokenDiff = some BD)
    (hsq : BD.nrows = B.dim ∧ BD.WellShaped) (hA : A.WellShaped) (hrows : A.nrows = B.dim)
    (hfree : ∀ i ∈ dying, ∀ k ∈ dying, BD.z p i k = 0)
    (h : B.updateBroken p A rad = .ok A') :
    ∀ i ∈ dying, ∀ j < A.ncols, i < A.nrows → A'.z p i j = 0 := by
  intro i hi j hj hir
  have hne : dying ≠ [] := by rintro rfl; simp at hi
  obtain ⟨-, -, -, -, hv⟩ := C31_update_broken p hp B A A' BD rad dying hd hBD hsq hA hrows hne h
  rw [hv j hj i hir]
  unfold replaced
  rw [if_pos hi, zero_add]
  apply List.sum_eq_zero
  intro x hx
  obtain ⟨k, hk, rfl⟩ := List.mem_map.1 hx
  rw [hfree i hi k hk, zero_mul]

/-- The docstring's `base3`. -/
def exBroken : Basis Int :=
  { barcode := [(0, 2), (0, 1), (1, 3)], flat := false, dim := 3, prevDim := none
    coords := ⟨0, []⟩, sorted := false, wellDefined := none
    brokenDiff := some (Mat.ofRows 3 [[0, 0, 0], [0, 0, 0], [0, 1, 0]]) }

example : exBroken.death 1 = .ok [1] ∧
    exBroken.updateBroken 5 (Mat.ofRows 3 [[1, 1, 1], [0, 2, -1], [0, 1, 1]]) 1 =
      .ok (Mat.ofRows 3 [[1, 1, 1], [0, 0, 0], [0, 3, 0]]) := by decide

end Permaviss
