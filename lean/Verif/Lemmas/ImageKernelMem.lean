import Verif.Model.ImageKernelMem
import Verif.Lemmas.MemoryPH
import Verif.Lemmas.Barcode
import Verif.Lemmas.MachineIK

/-!
# `image_kernel` in memory
-/

namespace Permaviss

namespace Memory

theorem at_setCol_self {m : Memory} {r : Ref} (h : r.addr < m.length) (j : ℕ) (v : List Int) :
    (m.setCol r j v).at_ r = ((m.at_ r).tr.setRow j v).tr := by
  have e : (m.setCol r j v).at_ r = ((m.setRow r.T j v).at_ r.T).tr := by
    rw [at_T, Buf.tr_tr]; rfl
  rw [e, at_setRow_self (r := r.T) h, at_T]

theorem nrows_setCol {m : Memory} {r : Ref} (h : r.addr < m.length) (j : ℕ) (v : List Int) :
    ((m.setCol r j v).at_ r).nrows = (m.at_ r).nrows := by
  rw [at_setCol_self h]; rfl

theorem ncols_setCol {m : Memory} {r : Ref} (h : r.addr < m.length) (j : ℕ) (v : List Int) :
    ((m.setCol r j v).at_ r).ncols = (m.at_ r).ncols := by
  rw [at_setCol_self h]; rfl

theorem at_setCol_ne {m : Memory} {r s : Ref} (h : s.addr ≠ r.addr) (j : ℕ) (v : List Int) :
    (m.setCol r j v).at_ s = m.at_ s := at_setRow_ne (r := r.T) h j v

theorem length_setCol (m : Memory) (r : Ref) (j : ℕ) (v : List Int) : (m.setCol r j v).length = m.length :=
  length_setRow m r.T j v

theorem mat_congr {m m' : Memory} {r : Ref} (h : m'.at_ r = m.at_ r) : m'.mat r = m.mat r := by
  unfold mat; rw [h]

theorem ncols_mat (m : Memory) (r : Ref) : (m.mat r).cols.length = (m.at_ r).ncols := Buf.length_rows _

theorem length_col {m : Memory} {r : Ref} {j : ℕ} (h : j < (m.at_ r).ncols) :
    ((m.mat r).col j).length = (m.at_ r).nrows := by
  unfold Mat.col
  have h' : j < (m.at_ r).tr.rows.length := by rw [Buf.length_rows]; exact h
  change ((m.at_ r).tr.rows.getD j []).length = _
  rw [← Buf.row_eq _ h', Buf.length_row]
  rfl

theorem mat_setCol {m : Memory} {r : Ref} (h : r.addr < m.length) {j : ℕ} {v : List Int}
    (hv : j < (m.at_ r).ncols → v.length = (m.at_ r).nrows) : (m.setCol r j v).mat r = (m.mat r).setCol j v := by
  unfold mat Mat.setCol
  rw [at_setCol_self h]
  dsimp only
  rw [Buf.tr_tr]
  congr 1
  by_cases hj : j < (m.at_ r).ncols
  · exact Buf.rows_setRow _ j (hv hj)
  · have hlen : (m.at_ r).tr.rows.length ≤ j := by rw [Buf.length_rows]; exact Nat.le_of_not_lt hj
    rw [List.set_eq_of_length_le hlen]
    unfold Buf.rows
    refine List.map_congr_left fun i hi => ?_
    unfold Buf.row Buf.setRow
    refine List.map_congr_left fun k _ => ?_
    have : i ≠ j := by
      have := List.mem_range.1 hi
      have h2 : i < (m.at_ r).ncols := this
      omega
    dsimp only
    rw [if_neg this]

theorem unchanged_setCol {m0 m : Memory} {r : Ref} (h : m0.length ≤ r.addr) (hm : m0.Unchanged m) (j : ℕ)
    (v : List Int) : m0.Unchanged (m.setCol r j v) := fun s hs => by
  rw [at_setCol_ne (by omega), hm s hs]

theorem Unchanged.trans {m0 m1 m2 : Memory} (h : m0.Unchanged m1) (hl : m0.length ≤ m1.length)
    (h' : m1.Unchanged m2) : m0.Unchanged m2 := fun s hs => (h' s (hs.trans_le hl)).trans (h s hs)

/-- The arrays are unchanged and none is removed. -/
def Keeps (m m' : Memory) : Prop := m.Unchanged m' ∧ m.length ≤ m'.length

theorem Keeps.trans {m0 m1 m2 : Memory} (h : m0.Keeps m1) (h' : m1.Keeps m2) : m0.Keeps m2 :=
  ⟨h.1.trans h.2 h'.1, h.2.trans h'.2⟩

theorem keeps_append (m new : Memory) : m.Keeps (m ++ new) := ⟨unchanged_append m new, by simp⟩

theorem mat_ofMat {M : Mat} (h : M.WellShaped) (m : Memory) : (m ++ [Buf.ofMat M]).mat ⟨m.length, false⟩ = M := by
  unfold mat
  rw [at_zero]
  unfold Buf.ofMat
  cases M with
  | mk n cols =>
  congr 1
  unfold Buf.rows Buf.tr Buf.row Mat.ncols Mat.get
  dsimp only
  refine List.ext_getElem (by simp) fun j h1 h2 => ?_
  rw [List.getElem_map, List.getElem_range]
  have hl : cols[j].length = n := h _ (List.getElem_mem h2)
  refine List.ext_getElem (by simp [hl]) fun i h3 h4 => ?_
  rw [List.getElem_map, List.getElem_range, List.getD_eq_getElem _ _ h2, List.getD_eq_getElem _ _ h4]

end Memory

theorem length_addPrev {a b : List Int} {n : ℕ} (ha : a.length = n) (hb : b.length = n) (inv : Int) (p : ℕ) :
    (addArraysModC (scale inv a) b p).length = n :=
  length_addArraysModC ((len_scale inv a).trans ha) hb p

/-- What `pivot_check_reduce` leaves in memory. -/
structure PcrOK (M : Ref) (T : Option Ref) (m : Memory) (x : Except PyErr Int × Memory)
    (y : Except PyErr (Mat × Option Mat × Int)) : Prop where
  val : x.1 = y.map fun o => o.2.2
  len : x.2.length = m.length
  other : ∀ r : Ref, r.addr ≠ M.addr → (∀ t ∈ T, r.addr ≠ t.addr) → x.2.at_ r = m.at_ r
  nrows : (x.2.at_ M).nrows = (m.at_ M).nrows
  ncols : (x.2.at_ M).ncols = (m.at_ M).ncols
  nrowsT : ∀ t ∈ T, (x.2.at_ t).nrows = (m.at_ t).nrows
  ncolsT : ∀ t ∈ T, (x.2.at_ t).ncols = (m.at_ t).ncols
  mats : ∀ o, y = .ok o → x.2.mat M = o.1 ∧ T.map x.2.mat = o.2.1

theorem pcrLoopMem_ok (p : ℕ) (active : List ℕ) {col : ℕ} {pivPrev : List Int} (hcol : pivPrev.length ≤ col)
    {M : Ref} {T : Option Ref} (hMT : ∀ t ∈ T, t.addr ≠ M.addr) (fuel : ℕ) : ∀ m : Memory, M.addr < m.length →
    col < (m.at_ M).ncols → (∀ t ∈ T, t.addr < m.length ∧ col < (m.at_ t).ncols) →
    PcrOK M T m (pcrLoopMem p active col pivPrev M T fuel m)
      (pcrLoop p active col pivPrev fuel (m.mat M) (T.map m.mat)) := by
  induction fuel with
  | zero =>
    intro m _ _ _
    exact ⟨rfl, rfl, fun _ _ _ => rfl, rfl, rfl, fun _ _ => rfl, fun _ _ => rfl, fun o h => by cases h⟩
  | succ fuel ih =>
    intro m hM hc hT
    have same : ∀ (v : Int), PcrOK M T m (.ok v, m) (.ok (m.mat M, T.map m.mat, v)) := fun v =>
      ⟨rfl, rfl, fun _ _ _ => rfl, rfl, rfl, fun _ _ => rfl, fun _ _ => rfl, fun o h => by cases h; exact ⟨rfl, rfl⟩⟩
    unfold pcrLoopMem pcrLoop
    cases h1 : indexPivot (active.map fun r => ((m.mat M).col col).getD r 0 % (p : Int)) with
    | none => exact same _
    | some k =>
    dsimp only
    cases h2 : pivPrev.findIdx? (· == (active.getD k 0 : Int)) with
    | none => exact same _
    | some prev =>
    dsimp only
    have hprev : prev < col := by
      obtain ⟨hlt, -⟩ := List.findIdx?_eq_some_iff_getElem.1 h2
      omega
    cases h3 : invModP (((m.mat M).col prev).getD (active.getD k 0) 0) p with
    | error e =>
      exact ⟨rfl, rfl, fun _ _ _ => rfl, rfl, rfl, fun _ _ => rfl, fun _ _ => rfl, fun o h => by cases h⟩
    | ok inv =>
    dsimp only
    set m1 := addPrevColMem p inv M prev col m with hm1
    have e1 : m1.mat M = addPrevCol p inv (m.mat M) prev col :=
      Memory.mat_setCol hM fun _ => length_addPrev (Memory.length_col (by omega)) (Memory.length_col hc) inv p
    have l1 : m1.length = m.length := Memory.length_setCol _ _ _ _
    have n1 : (m1.at_ M).nrows = (m.at_ M).nrows := Memory.nrows_setCol hM _ _
    have c1 : (m1.at_ M).ncols = (m.at_ M).ncols := Memory.ncols_setCol hM _ _
    have o1 : ∀ r : Ref, r.addr ≠ M.addr → m1.at_ r = m.at_ r := fun r hr => Memory.at_setCol_ne hr _ _
    cases T with
    | none =>
      have i := ih m1 (by omega) (by omega) (fun t ht => by cases ht)
      rw [e1] at i
      exact ⟨i.val, i.len.trans l1, fun r h h' => (i.other r h h').trans (o1 r h), i.nrows.trans n1,
        i.ncols.trans c1, fun t ht => absurd ht (by simp), fun t ht => absurd ht (by simp), i.mats⟩
    | some T =>
      obtain ⟨hT1, hT2⟩ := hT T rfl
      have hne := hMT T rfl
      have eT : m1.mat T = m.mat T := Memory.mat_congr (o1 T hne)
      dsimp only [Option.map_some]
      by_cases hz : anyMat (some (m1.mat T)) = true
      · rw [if_pos hz, if_pos (by rw [← eT]; exact hz)]
        set m2 := addPrevColMem p inv T prev col m1 with hm2
        have hc' : col < (m1.at_ T).ncols := by rw [o1 T hne]; exact hT2
        have e2 : m2.mat T = addPrevCol p inv (m.mat T) prev col := by
          rw [← eT]
          exact Memory.mat_setCol (by omega) fun _ =>
            length_addPrev (Memory.length_col (by omega)) (Memory.length_col hc') inv p
        have e2' : m2.mat M = addPrevCol p inv (m.mat M) prev col :=
          (Memory.mat_congr (Memory.at_setCol_ne hne.symm _ _)).trans e1
        have l2 : m2.length = m.length := (Memory.length_setCol _ _ _ _).trans l1
        have aM : m2.at_ M = m1.at_ M := Memory.at_setCol_ne hne.symm _ _
        have nT : (m2.at_ T).nrows = (m.at_ T).nrows := by
          rw [← o1 T hne]; exact Memory.nrows_setCol (by omega) _ _
        have cT : (m2.at_ T).ncols = (m.at_ T).ncols := by
          rw [← o1 T hne]; exact Memory.ncols_setCol (by omega) _ _
        have i := ih m2 (by omega) (by rw [aM, c1]; exact hc) (fun t ht => by
          cases ht; exact ⟨by omega, by rw [cT]; exact hT2⟩)
        rw [e2', Option.map_some, e2] at i
        refine ⟨i.val, i.len.trans l2, fun r h h' => (i.other r h h').trans ?_, i.nrows.trans ?_, i.ncols.trans ?_,
          fun t ht => ?_, fun t ht => ?_, i.mats⟩
        · exact (Memory.at_setCol_ne (h' T rfl) _ _).trans (o1 r h)
        · rw [aM]; exact n1
        · rw [aM]; exact c1
        · cases ht; exact (i.nrowsT T rfl).trans nT
        · cases ht; exact (i.ncolsT T rfl).trans cT
      · rw [if_neg hz, if_neg (by rw [← eT]; exact hz)]
        have i := ih m1 (by omega) (by omega) (fun t ht => by
          cases ht; exact ⟨by omega, by rw [o1 T hne]; exact hT2⟩)
        rw [e1, Option.map_some, eT] at i
        refine ⟨i.val, i.len.trans l1, fun r h h' => (i.other r h h').trans (o1 r h), i.nrows.trans n1,
          i.ncols.trans c1, fun t ht => ?_, fun t ht => ?_, i.mats⟩
        · cases ht; rw [i.nrowsT T rfl, o1 T hne]
        · cases ht; rw [i.ncolsT T rfl, o1 T hne]

theorem pivotCheckReduceMem_ok (p : ℕ) (active : List ℕ) {col : ℕ} {pivPrev : List Int} (hcol : pivPrev.length ≤ col)
    {M : Ref} {T : Option Ref} (hMT : ∀ t ∈ T, t.addr ≠ M.addr) (m : Memory) (hM : M.addr < m.length)
    (hc : col < (m.at_ M).ncols) (hT : ∀ t ∈ T, t.addr < m.length ∧ col < (m.at_ t).ncols) :
    PcrOK M T m (pivotCheckReduceMem p M active col pivPrev T m)
      (pivotCheckReduce p (m.mat M) active col pivPrev (T.map m.mat)) :=
  pcrLoopMem_ok p active hcol hMT _ m hM hc hT

theorem col_addPrevCol (p : ℕ) (inv : Int) (M : Mat) (prev : ℕ) {col j : ℕ} (h : j ≠ col) :
    (addPrevCol p inv M prev col).col j = M.col j := by
  unfold addPrevCol Mat.setCol Mat.col
  simp [List.getD_eq_getElem?_getD, List.getElem?_set_ne (Ne.symm h)]

theorem pcrLoop_cols {p : ℕ} {active : List ℕ} {col : ℕ} {pivPrev : List Int} (fuel : ℕ) : ∀ (M : Mat) (T : Option Mat)
    (o : Mat × Option Mat × Int), pcrLoop p active col pivPrev fuel M T = .ok o →
    (∀ j, j ≠ col → o.1.col j = M.col j) ∧
    ∀ S S', T = some S → o.2.1 = some S' → ∀ j, j ≠ col → S'.col j = S.col j := by
  induction fuel with
  | zero => intro M T o h; cases h
  | succ fuel ih =>
    intro M T o h
    unfold pcrLoop at h
    split at h
    · cases h
      exact ⟨fun _ _ => rfl, fun S S' h1 h2 j _ => by rw [h1] at h2; cases h2; rfl⟩
    · split at h
      · cases h
        exact ⟨fun _ _ => rfl, fun S S' h1 h2 j _ => by rw [h1] at h2; cases h2; rfl⟩
      · split at h
        · cases h
        · obtain ⟨i1, i2⟩ := ih _ _ _ h
          refine ⟨fun j hj => (i1 j hj).trans (col_addPrevCol _ _ _ _ hj), fun S S' h1 h2 j hj => ?_⟩
          subst h1
          split_ifs at i2 with h3
          · exact (i2 _ _ rfl h2 j hj).trans (col_addPrevCol _ _ _ _ hj)
          · exact i2 _ _ rfl h2 j hj

/-- A run in memory does what the function does, and leaves the arrays of `m1` as they are. -/
structure Sim {X Y : Type} (m1 : Memory) (x : Except PyErr X × Memory) (y : Except PyErr Y)
    (R : X → Memory → Y → Prop) : Prop where
  keep : m1.Keeps x.2
  err : ∀ e, y = .error e → x.1 = .error e
  ok : ∀ b, y = .ok b → ∃ a, x.1 = .ok a ∧ R a x.2 b

section Sim

variable {X Y X' Y' : Type} {m1 : Memory} {x : Except PyErr X × Memory} {y : Except PyErr Y}
  {R : X → Memory → Y → Prop} {R' : X' → Memory → Y' → Prop}

theorem Sim.pure {m : Memory} {a : X} {b : Y} (h : m1.Keeps m) (hR : R a m b) :
    Sim m1 (.ok a, m) (.ok b) R :=
  ⟨h, fun e he => (by cases he), fun b' hb => by cases hb; exact ⟨a, rfl, hR⟩⟩

theorem Sim.throw {m : Memory} {e : PyErr} (h : m1.Keeps m) :
    Sim m1 ((.error e, m) : Except PyErr X × Memory) (.error e : Except PyErr Y) R :=
  ⟨h, fun e' he => by cases he; rfl, fun b' hb => by cases hb⟩

theorem Sim.value {m : Memory} (h : m1.Keeps m) (v : Except PyErr X) :
    Sim m1 (v, m) v fun a m' b => a = b ∧ m = m' ∧ v = .ok b :=
  ⟨h, fun _ he => he, fun b hb => ⟨b, hb, rfl, rfl, hb⟩⟩

theorem Sim.mono {m0 : Memory} (h : m0.Keeps m1) (S : Sim m1 x y R) :
    Sim m0 x y R :=
  ⟨h.trans S.keep, S.err, S.ok⟩

theorem Sim.weaken {Q : X → Memory → Y → Prop} (S : Sim m1 x y R) (h : ∀ a m b, R a m b → Q a m b) : Sim m1 x y Q :=
  ⟨S.keep, S.err, fun b hb => by obtain ⟨a, ha, hR⟩ := S.ok b hb; exact ⟨a, ha, h _ _ _ hR⟩⟩

theorem Sim.value_eq {x : Except PyErr X × Memory} {y : Except PyErr X} (S : Sim m1 x y fun a _ b => a = b) :
    x.1 = y := by
  cases hy : y with
  | error e => exact S.err e hy
  | ok b =>
    obtain ⟨a, ha, rfl⟩ := S.ok b hy
    exact ha

theorem Sim.then_err {f : X → Memory → Except PyErr X' × Memory} (h : Sim m1 x y R) {e : PyErr}
    (hy : y = .error e) : Sim m1 (thenDo x f) (.error e : Except PyErr Y') R' := by
  unfold thenDo
  rw [h.err e hy]
  exact Sim.throw h.keep

theorem Sim.then_ok {f : X → Memory → Except PyErr X' × Memory} {z : Except PyErr Y'} (h : Sim m1 x y R) {b : Y}
    (hy : y = .ok b) (k : ∀ a m, m1.Keeps m → R a m b → Sim m1 (f a m) z R') : Sim m1 (thenDo x f) z R' := by
  obtain ⟨a, ha, hR⟩ := h.ok b hy
  unfold thenDo
  rw [ha]
  exact k a x.2 h.keep hR

theorem Sim.bind {f : X → Memory → Except PyErr X' × Memory} {g : Y → Except PyErr Y'} (h : Sim m1 x y R)
    (k : ∀ a m b, m1.Keeps m → R a m b → Sim m1 (f a m) (g b) R') : Sim m1 (thenDo x f) (y >>= g) R' := by
  cases hy : y with
  | error e => exact h.then_err hy
  | ok b => exact h.then_ok hy fun a m hm hR => k a m b hm hR

theorem foldMem_sim {f : X → ℕ → Memory → Except PyErr X × Memory} {g : Y → ℕ → Except PyErr Y} (l : List ℕ)
    (hf : ∀ s m t, ∀ c ∈ l, m1.Keeps m → R s m t → Sim m1 (f s c m) (g t c) R) :
    ∀ (s : X) (m : Memory) (t : Y), m1.Keeps m → R s m t → Sim m1 (foldMem f l s m) (l.foldlM g t) R := by
  induction l with
  | nil => intro s m t hm hR; exact Sim.pure hm hR
  | cons c l ih =>
    intro s m t hm hR
    rw [List.foldlM_cons, foldMem]
    exact (hf s m t c List.mem_cons_self hm hR).bind fun a m' b hm' hR' =>
      ih (fun s m t d hd => hf s m t d (List.mem_cons_of_mem _ hd)) a m' b hm' hR'

end Sim

variable {α : Type} [LinearOrder α]

/-- The arrays of the main loop: three new ones, different from each other. -/
structure Layout (m1 : Memory) (E : IKEnvMem α) (im T ker : Ref) (m : Memory) : Prop where
  keep : m1.Unchanged m
  F_old : E.F.addr < m1.length
  im_new : m1.length ≤ im.addr
  im_lt : im.addr < m.length
  T_new : m1.length ≤ T.addr
  T_lt : T.addr < m.length
  ker_new : m1.length ≤ ker.addr
  ker_lt : ker.addr < m.length
  im_T : im.addr ≠ T.addr
  im_ker : im.addr ≠ ker.addr
  T_ker : T.addr ≠ ker.addr
  im_rows : (m.at_ im).nrows = (m1.at_ E.F).nrows
  im_cols : E.A.dim ≤ (m.at_ im).ncols
  T_rows : (m.at_ T).nrows = E.A.dim
  T_cols : (m.at_ T).ncols = E.A.dim
  ker_rows : (m.at_ ker).nrows = E.A.dim
  ker_cols : (m.at_ ker).ncols = E.A.dim

namespace Layout

variable {m1 m : Memory} {E : IKEnvMem α} {im T ker : Ref}

theorem matF (h : Layout m1 E im T ker m) : m.mat E.F = m1.mat E.F := Memory.mat_congr (h.keep _ h.F_old)

theorem keeps (h : Layout m1 E im T ker m) : m1.Keeps m := ⟨h.keep, h.im_new.trans h.im_lt.le⟩

theorem setIm (h : Layout m1 E im T ker m) (j : ℕ) (v : List Int) : Layout m1 E im T ker (m.setCol im j v) where
  keep := Memory.unchanged_setCol h.im_new h.keep j v
  F_old := h.F_old
  im_new := h.im_new
  im_lt := by rw [Memory.length_setCol]; exact h.im_lt
  T_new := h.T_new
  T_lt := by rw [Memory.length_setCol]; exact h.T_lt
  ker_new := h.ker_new
  ker_lt := by rw [Memory.length_setCol]; exact h.ker_lt
  im_T := h.im_T
  im_ker := h.im_ker
  T_ker := h.T_ker
  im_rows := by rw [Memory.nrows_setCol h.im_lt]; exact h.im_rows
  im_cols := by rw [Memory.ncols_setCol h.im_lt]; exact h.im_cols
  T_rows := by rw [Memory.at_setCol_ne h.im_T.symm]; exact h.T_rows
  T_cols := by rw [Memory.at_setCol_ne h.im_T.symm]; exact h.T_cols
  ker_rows := by rw [Memory.at_setCol_ne h.im_ker.symm]; exact h.ker_rows
  ker_cols := by rw [Memory.at_setCol_ne h.im_ker.symm]; exact h.ker_cols

theorem setT (h : Layout m1 E im T ker m) (j : ℕ) (v : List Int) : Layout m1 E im T ker (m.setCol T j v) where
  keep := Memory.unchanged_setCol h.T_new h.keep j v
  F_old := h.F_old
  im_new := h.im_new
  im_lt := by rw [Memory.length_setCol]; exact h.im_lt
  T_new := h.T_new
  T_lt := by rw [Memory.length_setCol]; exact h.T_lt
  ker_new := h.ker_new
  ker_lt := by rw [Memory.length_setCol]; exact h.ker_lt
  im_T := h.im_T
  im_ker := h.im_ker
  T_ker := h.T_ker
  im_rows := by rw [Memory.at_setCol_ne h.im_T]; exact h.im_rows
  im_cols := by rw [Memory.at_setCol_ne h.im_T]; exact h.im_cols
  T_rows := by rw [Memory.nrows_setCol h.T_lt]; exact h.T_rows
  T_cols := by rw [Memory.ncols_setCol h.T_lt]; exact h.T_cols
  ker_rows := by rw [Memory.at_setCol_ne h.T_ker.symm]; exact h.ker_rows
  ker_cols := by rw [Memory.at_setCol_ne h.T_ker.symm]; exact h.ker_cols

theorem setKer (h : Layout m1 E im T ker m) (j : ℕ) (v : List Int) : Layout m1 E im T ker (m.setCol ker j v) where
  keep := Memory.unchanged_setCol h.ker_new h.keep j v
  F_old := h.F_old
  im_new := h.im_new
  im_lt := by rw [Memory.length_setCol]; exact h.im_lt
  T_new := h.T_new
  T_lt := by rw [Memory.length_setCol]; exact h.T_lt
  ker_new := h.ker_new
  ker_lt := by rw [Memory.length_setCol]; exact h.ker_lt
  im_T := h.im_T
  im_ker := h.im_ker
  T_ker := h.T_ker
  im_rows := by rw [Memory.at_setCol_ne h.im_ker]; exact h.im_rows
  im_cols := by rw [Memory.at_setCol_ne h.im_ker]; exact h.im_cols
  T_rows := by rw [Memory.at_setCol_ne h.T_ker]; exact h.T_rows
  T_cols := by rw [Memory.at_setCol_ne h.T_ker]; exact h.T_cols
  ker_rows := by rw [Memory.nrows_setCol h.ker_lt]; exact h.ker_rows
  ker_cols := by rw [Memory.ncols_setCol h.ker_lt]; exact h.ker_cols

/-- `pivot_check_reduce` on the kernel. -/
theorem pcrKer (h : Layout m1 E im T ker m) {x : Except PyErr Int × Memory}
    {y : Except PyErr (Mat × Option Mat × Int)} (hp : PcrOK ker none m x y) : Layout m1 E im T ker x.2 where
  keep := fun r hr => (hp.other r (by have := h.ker_new; omega) (fun t ht => by cases ht)).trans (h.keep r hr)
  F_old := h.F_old
  im_new := h.im_new
  im_lt := by rw [hp.len]; exact h.im_lt
  T_new := h.T_new
  T_lt := by rw [hp.len]; exact h.T_lt
  ker_new := h.ker_new
  ker_lt := by rw [hp.len]; exact h.ker_lt
  im_T := h.im_T
  im_ker := h.im_ker
  T_ker := h.T_ker
  im_rows := by rw [hp.other im h.im_ker (fun t ht => by cases ht)]; exact h.im_rows
  im_cols := by rw [hp.other im h.im_ker (fun t ht => by cases ht)]; exact h.im_cols
  T_rows := by rw [hp.other T h.T_ker (fun t ht => by cases ht)]; exact h.T_rows
  T_cols := by rw [hp.other T h.T_ker (fun t ht => by cases ht)]; exact h.T_cols
  ker_rows := by rw [hp.nrows]; exact h.ker_rows
  ker_cols := by rw [hp.ncols]; exact h.ker_cols

/-- `pivot_check_reduce` on the image. -/
theorem pcrIm (h : Layout m1 E im T ker m) {x : Except PyErr Int × Memory}
    {y : Except PyErr (Mat × Option Mat × Int)} (hp : PcrOK im (some T) m x y) : Layout m1 E im T ker x.2 where
  keep := fun r hr => (hp.other r (by have := h.im_new; omega) (fun t ht => by
    cases ht; have := h.T_new; omega)).trans (h.keep r hr)
  F_old := h.F_old
  im_new := h.im_new
  im_lt := by rw [hp.len]; exact h.im_lt
  T_new := h.T_new
  T_lt := by rw [hp.len]; exact h.T_lt
  ker_new := h.ker_new
  ker_lt := by rw [hp.len]; exact h.ker_lt
  im_T := h.im_T
  im_ker := h.im_ker
  T_ker := h.T_ker
  im_rows := by rw [hp.nrows]; exact h.im_rows
  im_cols := by rw [hp.ncols]; exact h.im_cols
  T_rows := by rw [hp.nrowsT T rfl]; exact h.T_rows
  T_cols := by rw [hp.ncolsT T rfl]; exact h.T_cols
  ker_rows := by rw [hp.other ker h.im_ker.symm (fun t ht => by cases ht; exact h.T_ker.symm)]; exact h.ker_rows
  ker_cols := by rw [hp.other ker h.im_ker.symm (fun t ht => by cases ht; exact h.T_ker.symm)]; exact h.ker_cols

end Layout

/-- The variables in memory stand for those of the model. -/
def Rep (m1 : Memory) (E : IKEnvMem α) (st : IKMem α) (m : Memory) (s : IK α) : Prop :=
  Layout m1 E st.im st.T st.ker m ∧ st.read m = s

/-- The same with a list of new pivots. -/
def RepP (m1 : Memory) (E : IKEnvMem α) (s : IKMem α × List Int) (m : Memory) (t : IK α × List Int) : Prop :=
  Rep m1 E s.1 m t.1 ∧ s.2 = t.2

theorem length_mulAt (p : ℕ) (F : Mat) (idx : List ℕ) (v : List Int) : (mulAt p F idx v).length = F.nrows := by
  simp [mulAt]

theorem length_overwriteAt (idx : List ℕ) (t v : List Int) : (overwriteAt idx t v).length = t.length := by
  simp [overwriteAt]

section steps

variable {m1 m : Memory} {E : IKEnvMem α}

theorem Layout.mulF {im T ker : Ref} (h : Layout m1 E im T ker m) (p : ℕ) (idx : List ℕ) (v : List Int) :
    (mulAt p (m1.mat E.F) idx v).length = (m.at_ im).nrows := by
  rw [length_mulAt, h.im_rows]; rfl

theorem kerHit_sim (rad : α) (aA aB : List ℕ) (c s : ℕ) {st : IKMem α} (h : Layout m1 E st.im st.T st.ker m) :
    Sim m1 (kerHitMem E rad aA aB c s st m)
      (kerHit (E.env m1) rad aA aB ((m.mat st.ker).col c) s (st.read m)) (Rep m1 E) := by
  unfold kerHitMem kerHit
  dsimp only
  rw [h.matF]
  have e1 : (E.env m1).p = E.p := rfl
  have e2 : (E.env m1).F = m1.mat E.F := rfl
  have e3 : (st.read m).pivIm = st.pivIm := rfl
  rw [e1, e2, e3]
  split_ifs with h1 h2
  · exact Sim.throw h.keeps
  · have L1 := h.setIm s (mulAt E.p (m1.mat E.F) aA ((m.mat st.ker).col c))
    set m' := m.setCol st.im s (mulAt E.p (m1.mat E.F) aA ((m.mat st.ker).col c)) with hm'
    have L2 := L1.setT s (overwriteAt aA ((m'.mat st.T).col s) ((m'.mat st.ker).col c))
    have k1 : m'.mat st.T = m.mat st.T := Memory.mat_congr (Memory.at_setCol_ne h.im_T.symm _ _)
    have k2 : m'.mat st.ker = m.mat st.ker := Memory.mat_congr (Memory.at_setCol_ne h.im_ker.symm _ _)
    refine Sim.pure L2.keeps ⟨L2, ?_⟩
    unfold IKMem.read
    dsimp only
    rw [Memory.mat_congr (Memory.at_setCol_ne h.im_T _ _), Memory.mat_congr (Memory.at_setCol_ne h.T_ker.symm _ _), k2,
      Memory.mat_setCol h.im_lt (fun _ => h.mulF _ _ _),
      Memory.mat_setCol L1.T_lt (fun hs => by rw [length_overwriteAt, Memory.length_col hs]), k1]
  · exact Sim.pure h.keeps ⟨h, rfl⟩

theorem pcrKer_sim {im T ker : Ref} (h : Layout m1 E im T ker m) (aA : List ℕ) {c : ℕ} (hc : c < E.A.dim)
    (piv : List Int) :
    Sim m1 (pivotCheckReduceMem E.p ker aA c (piv.take c) none m)
      (pivotCheckReduce E.p (m.mat ker) aA c (piv.take c) none)
      fun q m' o => q = o.2.2 ∧ Layout m1 E im T ker m' ∧ m'.mat ker = o.1 ∧ m'.mat im = m.mat im ∧
        m'.mat T = m.mat T := by
  have hp := pivotCheckReduceMem_ok E.p aA (col := c) (pivPrev := piv.take c) (List.length_take_le _ _) (M := ker)
    (T := none) (fun t ht => absurd ht (by simp)) m h.ker_lt (by rw [h.ker_cols]; exact hc)
    (fun t ht => absurd ht (by simp))
  rw [Option.map_none] at hp
  have L := h.pcrKer hp
  refine ⟨L.keeps, fun e he => ?_, fun b hb => ?_⟩
  · rw [hp.val, he]; rfl
  · refine ⟨b.2.2, ?_, rfl, L, (hp.mats b hb).1, ?_, ?_⟩
    · rw [hp.val, hb]; rfl
    · exact Memory.mat_congr (hp.other im h.im_ker (fun t ht => absurd ht (by simp)))
    · exact Memory.mat_congr (hp.other T h.T_ker (fun t ht => absurd ht (by simp)))

theorem pcrIm_sim {im T ker : Ref} (h : Layout m1 E im T ker m) (aB : List ℕ) {c : ℕ} (hc : c < E.A.dim)
    (piv : List Int) :
    Sim m1 (pivotCheckReduceMem E.p im aB c (piv.take c) (some T) m)
      (pivotCheckReduce E.p (m.mat im) aB c (piv.take c) (some (m.mat T)))
      fun q m' o => q = o.2.2 ∧ Layout m1 E im T ker m' ∧ m'.mat im = o.1 ∧ some (m'.mat T) = o.2.1 ∧
        m'.mat ker = m.mat ker := by
  have hp := pivotCheckReduceMem_ok E.p aB (col := c) (pivPrev := piv.take c) (List.length_take_le _ _) (M := im)
    (T := some T) (fun t ht => by cases ht; exact h.im_T.symm) m h.im_lt (by have := h.im_cols; omega)
    (fun t ht => by cases ht; exact ⟨h.T_lt, by rw [h.T_cols]; exact hc⟩)
  rw [Option.map_some] at hp
  have L := h.pcrIm hp
  refine ⟨L.keeps, fun e he => ?_, fun b hb => ?_⟩
  · rw [hp.val, he]; rfl
  · refine ⟨b.2.2, ?_, rfl, L, (hp.mats b hb).1, (hp.mats b hb).2, ?_⟩
    · rw [hp.val, hb]; rfl
    · exact Memory.mat_congr (hp.other ker h.im_ker.symm (fun t ht => by cases ht; exact h.T_ker.symm))

theorem kerStep_sim (rad : α) (aA aB dA : List ℕ) (old : List Int) {c : ℕ} (hc : c < E.A.dim)
    {s : IKMem α × List Int} {t : IK α × List Int} (h : RepP m1 E s m t) :
    Sim m1 (kerStepMem E rad aA aB dA old s c m) (kerStep (E.env m1) rad aA aB dA old t c) (RepP m1 E) := by
  obtain ⟨st, np⟩ := s
  obtain ⟨tt, np'⟩ := t
  obtain ⟨⟨L, rfl⟩, rfl⟩ := h
  dsimp only at L
  unfold kerStepMem kerStep
  dsimp only
  split_ifs with h1
  · have S := pcrKer_sim L aA hc st.pivKer
    have e1 : (E.env m1).p = E.p := rfl
    have e2 : (st.read m).ker = m.mat st.ker := rfl
    have e3 : (st.read m).pivKer = st.pivKer := rfl
    rw [e1, e2, e3]
    cases hy : pivotCheckReduce E.p (m.mat st.ker) aA c (st.pivKer.take c) none with
    | error e => exact S.then_err hy
    | ok o =>
      refine S.then_ok hy fun q m' hm' hR => ?_
      obtain ⟨K, T', q'⟩ := o
      obtain ⟨rfl, L', rfl, k1, k2⟩ := hR
      dsimp only
      by_cases hq : q ≠ -1
      · rw [if_pos hq, if_pos hq]
        have S2 := kerHit_sim (E := E) (m1 := m1) (m := m') rad aA aB c q.toNat
          (st := { st with pivKer := st.pivKer.set c q }) L'
        have e4 : ({ st with pivKer := st.pivKer.set c q } : IKMem α).read m' =
            { st.read m with ker := m'.mat st.ker, pivKer := st.pivKer.set c q } := by
          unfold IKMem.read
          dsimp only
          rw [k1, k2]
        rw [e4] at S2
        dsimp only at S2
        cases hz : kerHit (E.env m1) rad aA aB ((m'.mat st.ker).col c) q.toNat
            { st.read m with ker := m'.mat st.ker, pivKer := st.pivKer.set c q } with
        | error e => exact S2.then_err hz
        | ok o => exact S2.then_ok hz fun a m'' hm'' hR => Sim.pure hm'' ⟨hR, rfl⟩
      · rw [if_neg hq, if_neg hq]
        refine Sim.pure hm' ⟨⟨L', ?_⟩, rfl⟩
        unfold IKMem.read
        dsimp only
        rw [k1, k2]
  · exact Sim.pure L.keeps ⟨⟨L, rfl⟩, rfl⟩

theorem kerPhase_sim (rad : α) (aA aB dA : List ℕ) {st : IKMem α} {t : IK α} (h : Rep m1 E st m t) :
    Sim m1 (kerPhaseMem E rad aA aB dA st m) (kerPhase (E.env m1) rad aA aB dA t) (Rep m1 E) := by
  unfold kerPhaseMem kerPhase
  have hp : t.pivKer = st.pivKer := by rw [← h.2]; rfl
  rw [hp]
  have S := foldMem_sim (m1 := m1) (R := RepP m1 E) (f := kerStepMem E rad aA aB dA st.pivKer)
    (g := kerStep (E.env m1) rad aA aB dA st.pivKer) (List.range E.A.dim)
    (fun s m t c hc _ hR => kerStep_sim rad aA aB dA st.pivKer (List.mem_range.1 hc) hR) (st, []) m (t, []) h.1.keeps
    ⟨h, rfl⟩
  have e1 : (E.env m1).A = E.A := rfl
  rw [e1]
  cases hz : (List.range E.A.dim).foldlM (kerStep (E.env m1) rad aA aB dA st.pivKer) (t, []) with
  | error e => exact S.then_err hz
  | ok o => exact S.then_ok hz fun a m' hm hR => Sim.pure hm hR.1

theorem kerBirth_sim (rad : α) {c : ℕ} (hc : c < E.A.dim) {st : IKMem α} (h : Layout m1 E st.im st.T st.ker m) :
    Sim m1 (kerBirthMem E rad c st m) (kerBirth (E.env m1) rad c (st.read m)) (Rep m1 E) := by
  unfold kerBirthMem kerBirth
  have e1 : (E.env m1).A = E.A := rfl
  have e2 : (st.read m).kdim = st.kdim := rfl
  rw [e1, e2]
  split_ifs with h1
  · have L := h.setKer st.kdim ((m.mat st.T).col c)
    refine Sim.pure L.keeps ⟨L, ?_⟩
    unfold IKMem.read
    dsimp only
    rw [Memory.mat_congr (Memory.at_setCol_ne h.im_ker _ _), Memory.mat_congr (Memory.at_setCol_ne h.T_ker _ _),
      Memory.mat_setCol h.ker_lt (fun _ => by
        rw [Memory.length_col (by rw [h.T_cols]; exact hc), h.T_rows, h.ker_rows])]
  · exact Sim.throw h.keeps

theorem stripPrev_rep (c : ℕ) {st : IKMem α} (h : Layout m1 E st.im st.T st.ker m) :
    Layout m1 E st.im st.T st.ker (stripPrevMem E c st m) ∧
      (c < E.A.dim → st.read (stripPrevMem E c st m) = stripPrev (E.env m1) c (st.read m)) := by
  unfold stripPrevMem
  have L1 := h.setT c (overwriteAt (List.range E.start) ((m.mat st.T).col c) [])
  have k0 : (m.setCol st.T c (overwriteAt (List.range E.start) ((m.mat st.T).col c) [])).mat st.T =
      (m.mat st.T).setCol c (overwriteAt (List.range E.start) ((m.mat st.T).col c) []) :=
    Memory.mat_setCol h.T_lt (fun hs => by rw [length_overwriteAt, Memory.length_col hs])
  have k1 : (m.setCol st.T c (overwriteAt (List.range E.start) ((m.mat st.T).col c) [])).mat st.im = m.mat st.im :=
    Memory.mat_congr (Memory.at_setCol_ne h.im_T _ _)
  have k2 : (m.setCol st.T c (overwriteAt (List.range E.start) ((m.mat st.T).col c) [])).mat st.ker = m.mat st.ker :=
    Memory.mat_congr (Memory.at_setCol_ne h.T_ker.symm _ _)
  generalize m.setCol st.T c (overwriteAt (List.range E.start) ((m.mat st.T).col c) []) = m' at L1 k0 k1 k2
  dsimp only
  rw [L1.matF]
  refine ⟨L1.setIm _ _, fun hc => ?_⟩
  unfold IKMem.read stripPrev
  dsimp only
  rw [Memory.mat_congr (Memory.at_setCol_ne L1.im_T.symm _ _), Memory.mat_congr (Memory.at_setCol_ne L1.im_ker.symm _ _),
    Memory.mat_setCol L1.im_lt (fun _ => L1.mulF _ _ _), k0, k1, k2]
  have hcol : ((m.mat st.T).setCol c (overwriteAt (List.range E.start) ((m.mat st.T).col c) [])).col c =
      overwriteAt (List.range E.start) ((m.mat st.T).col c) [] := by
    unfold Mat.setCol Mat.col
    have : c < (m.mat st.T).cols.length := by rw [Memory.ncols_mat, h.T_cols]; exact hc
    simp [List.getD_eq_getElem?_getD, this]
  rw [hcol]
  rfl

theorem imDie_sim (rad : α) (dA : List ℕ) {c : ℕ} (hc : c < E.A.dim) {st : IKMem α}
    (h : Layout m1 E st.im st.T st.ker m) :
    Sim m1 (imDieMem E rad dA c st m) (imDie (E.env m1) rad dA c (st.read m)) (Rep m1 E) := by
  unfold imDieMem imDie
  have e1 : (E.env m1).full = E.full := rfl
  have e2 : (E.env m1).start = E.start := rfl
  rw [e1, e2]
  split_ifs with h1 h2 h3
  · exact Sim.pure h.keeps ⟨h, rfl⟩
  · exact kerBirth_sim rad hc (st := { st with imDeath := st.imDeath.set c rad }) h
  · obtain ⟨L, r⟩ := stripPrev_rep c (st := { st with imDeath := st.imDeath.set c rad }) h
    exact Sim.pure L.keeps ⟨L, r hc⟩
  · exact Sim.pure h.keeps ⟨h, rfl⟩

theorem imStep_sim (rad : α) (aB dA bA dB : List ℕ) (old : List Int) {c : ℕ} (hc : c < E.A.dim)
    {s : IKMem α × List Int} {t : IK α × List Int} (h : RepP m1 E s m t) :
    Sim m1 (imStepMem E rad aB dA bA dB old s c m) (imStep (E.env m1) rad aB dA bA dB old t c) (RepP m1 E) := by
  obtain ⟨st, np⟩ := s
  obtain ⟨tt, np'⟩ := t
  obtain ⟨⟨L, rfl⟩, rfl⟩ := h
  dsimp only at L
  unfold imStepMem imStep
  dsimp only
  have e1 : (E.env m1).p = E.p := rfl
  have e2 : (st.read m).im = m.mat st.im := rfl
  have e3 : (st.read m).pivIm = st.pivIm := rfl
  have e4 : (st.read m).T = m.mat st.T := rfl
  rw [e1, e2, e3, e4]
  split_ifs with h1
  · have S := pcrIm_sim L aB hc st.pivIm
    cases hy : pivotCheckReduce E.p (m.mat st.im) aB c (st.pivIm.take c) (some (m.mat st.T)) with
    | error e => exact S.then_err hy
    | ok o =>
      refine S.then_ok hy fun q m' hm' hR => ?_
      obtain ⟨K, T', q'⟩ := o
      obtain ⟨rfl, L', rfl, rfl, k1⟩ := hR
      dsimp only [Option.getD_some]
      have e5 : ({ st with pivIm := st.pivIm.set c q } : IKMem α).read m' =
          { st.read m with im := m'.mat st.im, T := m'.mat st.T, pivIm := st.pivIm.set c q } := by
        unfold IKMem.read
        dsimp only
        rw [k1]
      by_cases hq : q ≠ -1
      · rw [if_pos hq, if_pos hq]
        exact Sim.pure hm' ⟨⟨L', e5⟩, rfl⟩
      · rw [if_neg hq, if_neg hq]
        have S2 := imDie_sim (E := E) (m1 := m1) (m := m') rad dA hc
          (st := { st with pivIm := st.pivIm.set c q }) L'
        rw [e5] at S2
        cases hz : imDie (E.env m1) rad dA c
            { st.read m with im := m'.mat st.im, T := m'.mat st.T, pivIm := st.pivIm.set c q } with
        | error e => exact S2.then_err hz
        | ok o => exact S2.then_ok hz fun a m'' hm'' hR => Sim.pure hm'' ⟨hR, rfl⟩
  · exact Sim.pure L.keeps ⟨⟨L, rfl⟩, rfl⟩

theorem imPhase_sim (rad : α) (aB dA bA dB : List ℕ) {st : IKMem α} {t : IK α} (h : Rep m1 E st m t) :
    Sim m1 (imPhaseMem E rad aB dA bA dB st m) (imPhase (E.env m1) rad aB dA bA dB t) (Rep m1 E) := by
  unfold imPhaseMem imPhase
  have hp : t.pivIm = st.pivIm := by rw [← h.2]; rfl
  rw [hp]
  have S := foldMem_sim (m1 := m1) (R := RepP m1 E) (f := imStepMem E rad aB dA bA dB st.pivIm)
    (g := imStep (E.env m1) rad aB dA bA dB st.pivIm) (List.range E.A.dim)
    (fun s m t c hc _ hR => imStep_sim rad aB dA bA dB st.pivIm (List.mem_range.1 hc) hR) (st, []) m (t, []) h.1.keeps
    ⟨h, rfl⟩
  have e1 : (E.env m1).A = E.A := rfl
  rw [e1]
  cases hz : (List.range E.A.dim).foldlM (imStep (E.env m1) rad aB dA bA dB st.pivIm) (t, []) with
  | error e => exact S.then_err hz
  | ok o => exact S.then_ok hz fun a m' hm hR => Sim.pure hm hR.1

theorem foldl_relKillMem (start : ℕ) (rad : α) (l : List ℕ) : ∀ st : IKMem α,
    (l.foldl (relKillMem start rad) st).im = st.im ∧ (l.foldl (relKillMem start rad) st).T = st.T ∧
    (l.foldl (relKillMem start rad) st).ker = st.ker ∧
    (l.foldl (relKillMem start rad) st).read m = l.foldl (relKill start rad) (st.read m) := by
  induction l with
  | nil => exact fun st => ⟨rfl, rfl, rfl, rfl⟩
  | cons c l ih =>
    intro st
    rw [List.foldl_cons, List.foldl_cons]
    obtain ⟨i1, i2, i3, i4⟩ := ih (relKillMem start rad st c)
    have k : (relKillMem start rad st c).im = st.im ∧ (relKillMem start rad st c).T = st.T ∧
        (relKillMem start rad st c).ker = st.ker ∧
        (relKillMem start rad st c).read m = relKill start rad (st.read m) c := by
      unfold relKillMem relKill
      have e3 : (st.read m).pivIm = st.pivIm := rfl
      rw [e3]
      split_ifs <;> exact ⟨rfl, rfl, rfl, rfl⟩
    obtain ⟨k1, k2, k3, k4⟩ := k
    exact ⟨i1.trans k1, i2.trans k2, i3.trans k3, by rw [i4, k4]⟩

theorem updateBrokenMem_shape (p : ℕ) (B : Basis α) (a : Ref) (rad : α) (m : Memory) (ha : a.addr < m.length) {r : Ref}
    (h : (updateBrokenMem p B a rad m).1 = .ok r) :
    (r = a ∧ (updateBrokenMem p B a rad m).2 = m) ∨
    (r = ⟨m.length, false⟩ ∧ (updateBrokenMem p B a rad m).2.length = m.length + 1 ∧
      ((updateBrokenMem p B a rad m).2.at_ r).nrows = (m.at_ a).nrows ∧
      ((updateBrokenMem p B a rad m).2.at_ r).ncols = (m.at_ a).ncols) := by
  unfold updateBrokenMem at h ⊢
  cases hd : B.death rad with
  | error e => rw [hd] at h; cases h
  | ok dying =>
    rw [hd] at h
    dsimp only at h ⊢
    by_cases h0 : dying = []
    · rw [if_pos h0] at h ⊢
      cases h
      exact Or.inl ⟨rfl, rfl⟩
    · rw [if_neg h0] at h ⊢
      cases hB : B.brokenDiff with
      | none => rw [hB] at h; cases h
      | some BD =>
        rw [hB] at h
        dsimp only [Memory.alloc] at h ⊢
        have hz : (dying.foldl (fun m i => m.setRow a i (List.replicate (m.at_ a).ncols 0)) m) =
            m.zeroRows a dying := rfl
        rw [hz] at h ⊢
        obtain ⟨z1, z2, z3⟩ := Memory.zeroRows_spec a dying m ha
        have hr := (Except.ok.inj h).symm
        rw [z1] at hr
        subst hr
        refine Or.inr ⟨rfl, by simp [z1], ?_⟩
        rw [show (⟨m.length, false⟩ : Ref) = ⟨(m.zeroRows a dying).length, false⟩ by rw [z1], Memory.at_zero, z2]
        exact ⟨rfl, rfl⟩

theorem length_updateBrokenMem (p : ℕ) (B : Basis α) (a : Ref) (rad : α) (m : Memory) (ha : a.addr < m.length) :
    m.length ≤ (updateBrokenMem p B a rad m).2.length := by
  cases h : (updateBrokenMem p B a rad m).1 with
  | ok r =>
    rcases updateBrokenMem_shape p B a rad m ha h with ⟨-, h2⟩ | ⟨-, h2, -⟩
    · rw [h2]
    · omega
  | error e =>
    unfold updateBrokenMem at h ⊢
    split
    · exact le_rfl
    · rename_i h1
      rw [h1] at h
      dsimp only at h
      split_ifs at h ⊢ with h0
      split
      · exact le_rfl
      · rename_i h2
        rw [h2] at h
        cases h

theorem relPhase_sim (hn : (m1.at_ E.F).nrows = E.B.barcode.length) (rad : α) (dA : List ℕ) {st : IKMem α} {t : IK α}
    (h : Rep m1 E st m t) : Sim m1 (relPhaseMem E rad dA st m) (relPhase (E.env m1) rad dA t) (Rep m1 E) := by
  obtain ⟨L, rfl⟩ := h
  unfold relPhaseMem relPhase
  have e1 : (E.env m1).B = E.B := rfl
  have e2 : (E.env m1).start = E.start := rfl
  have e3 : (E.env m1).p = E.p := rfl
  rw [e1, e2, e3]
  obtain ⟨k1, k2, k3, k4⟩ := foldl_relKillMem (m := m) E.start rad dA st
  rw [← k4]
  rw [← k1, ← k2, ← k3] at L
  generalize dA.foldl (relKillMem E.start rad) st = st at *
  dsimp only
  split_ifs with h1
  · have e4 : (st.read m).im = m.mat st.im := rfl
    rw [e4]
    obtain ⟨u1, u2, -⟩ := updateBrokenMem_eq E.p E.B st.im rad m L.im_lt (L.im_rows.trans hn)
    have hlen := L.keeps.2.trans (length_updateBrokenMem E.p E.B st.im rad m L.im_lt)
    have hsh := fun r => updateBrokenMem_shape E.p E.B st.im rad m L.im_lt (r := r)
    generalize updateBrokenMem E.p E.B st.im rad m = x at *
    obtain ⟨v, m'⟩ := x
    dsimp only at u1 u2 hsh hlen
    have hkeep : m1.Unchanged m' := by
      intro r hr
      rw [u2 r ?_ ?_, L.keep r hr]
      · have := L.im_new; have := L.im_lt; omega
      · have := L.im_new; omega
    cases v with
    | error e =>
      rw [← u1]
      exact Sim.throw ⟨hkeep, hlen⟩
    | ok r =>
      rw [← u1]
      refine Sim.pure ⟨hkeep, hlen⟩ ?_
      rcases hsh r rfl with ⟨rfl, rfl⟩ | ⟨rfl, hl, hr, hc⟩
      · exact ⟨L, rfl⟩
      · have aT : m'.at_ st.T = m.at_ st.T := u2 _ L.T_lt L.im_T.symm
        have aK : m'.at_ st.ker = m.at_ st.ker := u2 _ L.ker_lt L.im_ker.symm
        refine ⟨?_, ?_⟩
        · exact {
            keep := hkeep
            F_old := L.F_old
            im_new := by have := L.im_new; have := L.im_lt; dsimp only; omega
            im_lt := by dsimp only; omega
            T_new := L.T_new
            T_lt := by have := L.T_lt; dsimp only; omega
            ker_new := L.ker_new
            ker_lt := by have := L.ker_lt; dsimp only; omega
            im_T := by have := L.T_lt; dsimp only; omega
            im_ker := by have := L.ker_lt; dsimp only; omega
            T_ker := L.T_ker
            im_rows := hr.trans L.im_rows
            im_cols := by rw [hc]; exact L.im_cols
            T_rows := by rw [aT]; exact L.T_rows
            T_cols := by rw [aT]; exact L.T_cols
            ker_rows := by rw [aK]; exact L.ker_rows
            ker_cols := by rw [aK]; exact L.ker_cols }
        · unfold IKMem.read
          dsimp only
          rw [Memory.mat_congr aT, Memory.mat_congr aK]
  · exact Sim.pure L.keeps ⟨L, rfl⟩

theorem ikRadius_sim (hn : (m1.at_ E.F).nrows = E.B.barcode.length) (rad : α) {st : IKMem α} {t : IK α}
    (h : Rep m1 E st m t) : Sim m1 (ikRadiusMem E st rad m) (ikRadius (E.env m1) t rad) (Rep m1 E) := by
  unfold ikRadiusMem ikRadius
  refine (Sim.value h.1.keeps (E.A.active rad)).bind fun aA _ _ _ hR => ?_
  obtain ⟨rfl, rfl, -⟩ := hR
  refine (Sim.value h.1.keeps (E.B.active rad)).bind fun aB _ _ _ hR => ?_
  obtain ⟨rfl, rfl, -⟩ := hR
  refine (Sim.value h.1.keeps (E.A.death rad)).bind fun dA _ _ _ hR => ?_
  obtain ⟨rfl, rfl, -⟩ := hR
  refine (Sim.value h.1.keeps (E.A.birth rad)).bind fun bA _ _ _ hR => ?_
  obtain ⟨rfl, rfl, -⟩ := hR
  refine (Sim.value h.1.keeps (E.B.death rad)).bind fun dB _ _ _ hR => ?_
  obtain ⟨rfl, rfl, -⟩ := hR
  have e1 : (E.env m1).full = E.full := rfl
  rw [e1]
  split_ifs with h1
  · exact (kerPhase_sim rad aA aB dA h).bind fun st m' t _ hR => imPhase_sim rad aB dA bA dB hR
  · exact (relPhase_sim hn rad dA h).bind fun st m' t _ hR => imPhase_sim rad aB dA bA dB hR

theorem ikLoop_sim (hn : (m1.at_ E.F).nrows = E.B.barcode.length) (l : List α) : ∀ (st : IKMem α) (m : Memory)
    (t : IK α), Rep m1 E st m t → Sim m1 (ikLoopMem E l st m) (ikLoop (E.env m1) l t) (Rep m1 E) := by
  induction l with
  | nil => exact fun st m t h => Sim.pure h.1.keeps h
  | cons rad l ih =>
    intro st m t h
    unfold ikLoopMem ikLoop
    have S := ikRadius_sim hn rad h
    cases hz : ikRadius (E.env m1) t rad with
    | error e => exact S.then_err hz
    | ok o => exact S.then_ok hz fun a m' hm hR => ih a m' o hR

theorem ikInit_rep [Zero α] (hF : E.F.addr < m.length) (hA : E.A.dim ≤ (m.at_ E.F).ncols) :
    Rep m E (ikInitMem E m).1 (ikInitMem E m).2 (E.env m).init := by
  have e : (ikInitMem E m).2 = m ++ [m.at_ E.F, identityBuf E.A.dim, ⟨E.A.dim, E.A.dim, fun _ _ => 0⟩] := by
    simp [ikInitMem, Memory.copy, Memory.alloc]
  have i1 : (ikInitMem E m).1.im = ⟨m.length, false⟩ := rfl
  have i2 : (ikInitMem E m).1.T = ⟨m.length + 1, false⟩ := by simp [ikInitMem, Memory.copy, Memory.alloc]
  have i3 : (ikInitMem E m).1.ker = ⟨m.length + 2, false⟩ := by simp [ikInitMem, Memory.copy, Memory.alloc]
  have a1 : (ikInitMem E m).2.at_ ⟨m.length, false⟩ = m.at_ E.F := by rw [e, Memory.at_zero]
  have a2 : (ikInitMem E m).2.at_ ⟨m.length + 1, false⟩ = identityBuf E.A.dim := by rw [e, Memory.at_one]
  have a3 : (ikInitMem E m).2.at_ ⟨m.length + 2, false⟩ = ⟨E.A.dim, E.A.dim, fun _ _ => 0⟩ := by
    rw [e]
    unfold Memory.at_
    simp [List.getD_eq_getElem?_getD]
  have hl : (ikInitMem E m).2.length = m.length + 3 := by rw [e]; simp
  refine ⟨?_, ?_⟩
  · rw [i1, i2, i3]
    exact {
      keep := by rw [e]; exact Memory.unchanged_append _ _
      F_old := hF
      im_new := le_rfl
      im_lt := by rw [hl]; dsimp only; omega
      T_new := by dsimp only; omega
      T_lt := by rw [hl]; dsimp only; omega
      ker_new := by dsimp only; omega
      ker_lt := by rw [hl]; dsimp only; omega
      im_T := by dsimp only; omega
      im_ker := by dsimp only; omega
      T_ker := by dsimp only; omega
      im_rows := by rw [a1]
      im_cols := by rw [a1]; exact hA
      T_rows := by rw [a2]; rfl
      T_cols := by rw [a2]; rfl
      ker_rows := by rw [a3]
      ker_cols := by rw [a3] }
  · unfold IKMem.read IKEnv.init
    rw [i1, i2, i3]
    unfold Memory.mat
    rw [a1, a2, a3]
    have t1 : (identityBuf E.A.dim).tr.rows = identityCols E.A.dim := by
      rw [← identityBuf_rows]
      congr 1
      unfold identityBuf Buf.tr
      congr 1
      funext i j
      simp [eq_comm]
    rw [t1]
    have t2 : (Buf.tr ⟨E.A.dim, E.A.dim, fun _ _ => 0⟩).rows = List.replicate E.A.dim (List.replicate E.A.dim 0) := by
      unfold Buf.tr Buf.rows Buf.row
      simp [List.map_const']
    rw [t2]
    rfl

end steps

section sorts

variable {m : Memory} {F : Ref}

theorem Memory.wellShaped_mat (m : Memory) (r : Ref) : (m.mat r).WellShaped := by
  intro c hc
  unfold Memory.mat Buf.rows at hc
  obtain ⟨j, -, rfl⟩ := List.mem_map.1 hc
  exact Buf.length_row _ _

theorem sortRange_sim (rnd : α → α) (B : Basis α) (hF : F.addr < m.length) (hB : B.barcode.length = B.dim)
    (hn : B.dim = (m.at_ F).nrows) :
    Sim m (sortRangeMem rnd B F m) (sortRange rnd B (m.mat F)) fun a m' b =>
      a.1 = b.1 ∧ a.2.2 = b.2.2 ∧ m'.mat a.2.1 = b.2.1 ∧ a.2.1.addr < m'.length ∧ m.length ≤ m'.length ∧
        m.Keeps m' ∧ (m'.at_ a.2.1).nrows = a.1.barcode.length ∧ (m'.at_ a.2.1).ncols = (m.at_ F).ncols ∧
        ∀ i ∈ a.2.2, i < (m'.at_ a.2.1).nrows := by
  have hu : m.Keeps m := ⟨fun _ _ => rfl, le_rfl⟩
  unfold sortRangeMem sortRange
  split_ifs with h1
  · exact Sim.pure hu ⟨rfl, rfl, rfl, hF, le_rfl, hu, by rw [hB]; exact hn.symm, rfl, fun i hi => by
      rw [← hn]; exact List.mem_range.1 hi⟩
  · refine (Sim.value hu _).bind fun B1 _ _ _ hR => ?_
    obtain ⟨rfl, rfl, i1⟩ := hR
    refine (Sim.value hu _).bind fun x _ _ _ hR => ?_
    obtain ⟨rfl, rfl, i2⟩ := hR
    obtain ⟨B2, order⟩ := x
    obtain ⟨-, b2, b3, -⟩ := init_facts (p := 2) i1
    obtain ⟨-, -, c3, -, -⟩ := sort_facts (p := 2) i2
    have hord : order.Perm (List.range B1.barcode.length) := by
      unfold Basis.sort at i2
      split at i2
      · cases i2
      · obtain ⟨-, rfl⟩ := Prod.mk.inj (Except.ok.inj i2)
        exact sortOrder_perm rnd B1.barcode
    have hlt : ∀ i ∈ order, i < (m.mat F).nrows := by
      intro i hi
      have := List.mem_range.1 (hord.mem_iff.1 hi)
      have e : (m.mat F).nrows = (m.at_ F).nrows := rfl
      omega
    have hws : ((m.mat F).gatherRows order).WellShaped := by
      intro c hc
      obtain ⟨d, hd, rfl⟩ := List.mem_map.1 hc
      have := Memory.wellShaped_mat m F d hd
      exact length_gather (by rw [this]; exact hlt)
    dsimp only [Memory.alloc]
    have hu' := Memory.keeps_append m [Buf.ofMat ((m.mat F).gatherRows order)]
    refine Sim.pure hu' ⟨rfl, rfl, Memory.mat_ofMat hws m, by simp, by simp, hu', ?_, ?_, ?_⟩
    · dsimp only
      rw [Memory.at_zero]
      change order.length = _
      rw [c3, hord.length_eq, List.length_range]
    · dsimp only
      rw [Memory.at_zero]
      change ((m.mat F).cols.map _).length = _
      rw [List.length_map, Memory.ncols_mat]
    · dsimp only
      rw [Memory.at_zero]
      intro i hi
      unfold argsortPerm at hi
      obtain ⟨k, hk, rfl⟩ := List.mem_map.1 hi
      change order.idxOf k < order.length
      refine List.idxOf_lt_length_iff.2 (hord.mem_iff.2 ?_)
      rw [List.mem_range] at hk ⊢
      rwa [hord.length_eq, List.length_range] at hk

theorem length_gather_range {β : Type} (l : List β) (n : ℕ) : (gather l (List.range n)).length = min n l.length := by
  induction n with
  | zero => simp [gather]
  | succ n ih =>
    unfold gather at ih ⊢
    rw [List.range_succ, List.filterMap_append, List.length_append, ih]
    by_cases h : n < l.length
    · simp [h]; omega
    · simp [h]; omega

theorem sortDomain_sim (rnd : α → α) (A : Basis α) (start : ℕ) (hF : F.addr < m.length)
    (hA : A.barcode.length = A.dim) (hn : A.dim = (m.at_ F).ncols) :
    Sim m (sortDomainMem rnd A F start m) (sortDomain rnd A (m.mat F) start) fun a m' b =>
      a.1 = b.1 ∧ a.2.2 = b.2.2 ∧ m'.mat a.2.1 = b.2.1 ∧ a.2.1.addr < m'.length ∧ m.length ≤ m'.length ∧
        m.Keeps m' ∧ (m'.at_ a.2.1).nrows = (m.at_ F).nrows ∧ a.1.dim ≤ (m'.at_ a.2.1).ncols := by
  have hu : m.Keeps m := ⟨fun _ _ => rfl, le_rfl⟩
  unfold sortDomainMem sortDomain
  split_ifs with h1
  · exact Sim.pure hu ⟨rfl, rfl, rfl, hF, le_rfl, hu, rfl, hn.le⟩
  · refine (Sim.value hu _).bind fun A1 _ _ _ hR => ?_
    obtain ⟨rfl, rfl, i1⟩ := hR
    refine (Sim.value hu _).bind fun x _ _ _ hR => ?_
    obtain ⟨rfl, rfl, i2⟩ := hR
    obtain ⟨A2, order⟩ := x
    refine (Sim.value hu _).bind fun A3 _ _ _ hR => ?_
    obtain ⟨rfl, rfl, i3⟩ := hR
    obtain ⟨-, b2, b3, -⟩ := init_facts (p := 2) i1
    obtain ⟨-, -, c3, -, -⟩ := sort_facts (p := 2) i2
    obtain ⟨-, -, d3, -⟩ := init_facts (p := 2) i3
    have hord : order.Perm (List.range A1.barcode.length) := by
      unfold Basis.sort at i2
      split at i2
      · cases i2
      · obtain ⟨-, rfl⟩ := Prod.mk.inj (Except.ok.inj i2)
        exact sortOrder_perm rnd A1.barcode
    dsimp only at d3
    rw [List.length_append, List.length_take] at d3
    rw [List.length_drop] at b3
    have hol : order.length = A1.barcode.length := by rw [hord.length_eq, List.length_range]
    have hg : A3.dim ≤ (gather (m.mat F).cols (List.range start ++ order.map (· + start))).length := by
      have happ : gather (m.mat F).cols (List.range start ++ order.map (· + start)) =
          gather (m.mat F).cols (List.range start) ++ gather (m.mat F).cols (order.map (· + start)) := by
        unfold gather
        rw [List.filterMap_append]
      have h2 : (gather (m.mat F).cols (order.map (· + start))).length = order.length := by
        rw [length_gather, List.length_map]
        intro i hi
        obtain ⟨k, hk, rfl⟩ := List.mem_map.1 hi
        have := List.mem_range.1 (hord.mem_iff.1 hk)
        rw [Memory.ncols_mat]
        omega
      rw [happ, List.length_append, length_gather_range, h2, Memory.ncols_mat]
      omega
    have hws : ((m.mat F).gatherCols (List.range start ++ order.map (· + start))).WellShaped := fun c hc =>
      Memory.wellShaped_mat m F c (mem_of_gather hc)
    dsimp only [Memory.alloc]
    have hu' := Memory.keeps_append m
      [Buf.ofMat ((m.mat F).gatherCols (List.range start ++ order.map (· + start)))]
    refine Sim.pure hu' ⟨rfl, rfl, Memory.mat_ofMat hws m, by simp, by simp, hu', ?_, ?_⟩
    · dsimp only
      rw [Memory.at_zero]
      rfl
    · dsimp only
      rw [Memory.at_zero]
      exact hg

end sorts

theorem init_shaped {bars : List (α × α)} {flat : Bool} {pd : Option ℕ} {cs : Mat} {sw br : Bool} {bd : Option Mat}
    {B : Basis α} (h : Basis.init bars flat pd cs sw br bd = .ok B) (hr : cs.WellShaped) : B.coords.WellShaped := by
  unfold Basis.init at h
  split at h
  · cases h
  cases hc : initCoords bars pd cs with
  | error e => rw [hc] at h; cases h
  | ok cs' =>
    have hcs : cs'.WellShaped := by
      unfold initCoords at hc
      split at hc
      · obtain rfl := Except.ok.inj hc; exact hr
      · split at hc
        · obtain rfl := Except.ok.inj hc; exact hr
        · split at hc
          · cases hc
          · split at hc
            · cases hc
            · obtain rfl := Except.ok.inj hc
              exact fun c hc => hr c (maskBy_subset _ _ hc)
    rw [hc] at h
    dsimp only at h
    split at h
    · cases h
    split at h
    · cases bd with
      | none => cases h
      | some BD =>
        dsimp only at h
        split at h
        · obtain rfl := Except.ok.inj h
          exact hcs
        · cases h
    · obtain rfl := Except.ok.inj h
      exact hcs

theorem sort_shaped {rnd : α → α} {B B' : Basis α} {order : List ℕ} (h : B.sort rnd = .ok (B', order))
    (hr : B.coords.WellShaped) : B'.coords.WellShaped := by
  unfold Basis.sort at h
  split at h
  · cases h
  · obtain ⟨rfl, rfl⟩ := Prod.mk.inj (Except.ok.inj h)
    dsimp only
    split
    · exact fun c hc => hr c (mem_of_gather hc)
    · exact hr

/-- The coordinates in a result of `image_kernel` are rectangular. -/
def IKOut.Shaped (o : IKOut α) : Prop :=
  o.im.coords.WellShaped ∧ ∀ k, o.ker = some k → k.coords.WellShaped

theorem shaped_gatherRows {M : Mat} (h : M.WellShaped) {idx : List ℕ} (hi : ∀ i ∈ idx, i < M.nrows) {l : List (List Int)}
    (hl : ∀ c ∈ l, c ∈ (M.gatherRows idx).cols) : Mat.WellShaped ⟨idx.length, l⟩ := by
  intro c hc
  obtain ⟨d, hd, rfl⟩ := List.mem_map.1 (hl c hc)
  exact length_gather (by rw [h d hd]; exact hi)

theorem ikFinish_shaped {rnd : α → α} {E : IKEnv α} {dA dB : ℕ} {retA retB : List ℕ} {st : IK α} {o : IKOut α}
    (h : ikFinish rnd E dA dB retA retB st = .ok o) (h1 : st.im.WellShaped) (h2 : ∀ i ∈ retB, i < st.im.nrows)
    (h3 : st.ker.WellShaped) (h4 : st.ker.nrows = E.A.dim) : o.Shaped := by
  unfold ikFinish at h
  dsimp only at h
  rw [bind_ok] at h
  obtain ⟨im0, hi0, h⟩ := h
  have s0 := init_shaped hi0 (shaped_gatherRows h1 h2 fun c hc => List.mem_of_mem_drop hc)
  split at h
  · rename_i hall
    rw [bind_ok] at h
    obtain ⟨⟨im1, order⟩, hi1, h⟩ := h
    have s1 := sort_shaped hi1 s0
    split at h
    · rw [bind_ok] at h
      obtain ⟨ker0, hk0, h⟩ := h
      rw [bind_ok] at h
      obtain ⟨⟨ker1, o1⟩, hk1, h⟩ := h
      obtain rfl := Except.ok.inj h
      refine ⟨s1, fun k hk => ?_⟩
      obtain rfl := Option.some.inj hk
      refine sort_shaped hk1 (init_shaped hk0 (shaped_gatherRows h3 (fun i hi => ?_) fun c hc => List.mem_of_mem_take hc))
      have := List.all_eq_true.1 hall i hi
      rw [decide_eq_true_eq] at this
      omega
    · obtain rfl := Except.ok.inj h
      exact ⟨s1, fun k hk => by cases hk⟩
  · cases h

/-- **`image_kernel` in memory.** -/
theorem imageKernelMem_sim [Zero α] (rnd : α → α) (p : ℕ) (A B : Basis α) {F : Ref} (start : ℕ) {m : Memory}
    (hF : F.addr < m.length) (hA : A.barcode.length = A.dim) (hB : B.barcode.length = B.dim) :
    Sim m (imageKernelMem rnd p A B F start m) (imageKernel rnd p A B (m.mat F) start) fun a _ b =>
      a = b ∧ b.Shaped := by
  have hu : m.Keeps m := ⟨fun _ _ => rfl, le_rfl⟩
  unfold imageKernelMem imageKernel
  have e1 : (m.mat F).nrows = (m.at_ F).nrows := rfl
  have e2 : (m.mat F).ncols = (m.at_ F).ncols := Memory.ncols_mat m F
  rw [e1, e2]
  split_ifs with h1
  · exact Sim.throw hu
  · obtain ⟨h1, h2⟩ := not_or.1 h1
    rw [not_not] at h1 h2
    refine (sortRange_sim rnd B hF hB h1).bind fun x m' y hm' hR => ?_
    obtain ⟨B', F1, retB⟩ := x
    obtain ⟨B'', M1, retB'⟩ := y
    obtain ⟨rfl, rfl, rfl, f1, l1, u1, n1, c1, r1⟩ := hR
    dsimp only at f1 n1 c1 r1 ⊢
    refine ((sortDomain_sim rnd A start f1 hA (by rw [c1]; exact h2)).mono u1).bind fun x m2 y hm2 hR => ?_
    obtain ⟨A', F2, retA⟩ := x
    obtain ⟨A'', M2, retA'⟩ := y
    obtain ⟨rfl, rfl, rfl, f2, l2, u2, n2, c2⟩ := hR
    dsimp only at f2 n2 c2 ⊢
    split_ifs with h3
    · exact Sim.throw hm2
    · set E : IKEnvMem α := ⟨p, A', B', F2, start⟩ with hE
      have R0 := ikInit_rep (E := E) (m := m2) f2 c2
      have S := ikLoop_sim (E := E) (m1 := m2) (n2.trans n1) (E.env m2).radii _ _ _ R0
      refine (S.mono hm2).bind fun st m3 t hm3 hR => ?_
      obtain ⟨L, rfl⟩ := hR
      have ee : E.env m3 = E.env m2 := by
        unfold IKEnvMem.env
        rw [L.matF]
      rw [ee]
      have V := Sim.value hm3 (ikFinish rnd (E.env m2) A.dim B.dim retA retB (st.read m3))
      refine ⟨V.keep, V.err, fun b hb => ⟨b, hb, rfl, ikFinish_shaped hb (Memory.wellShaped_mat _ _) (fun i hi => ?_)
        (Memory.wellShaped_mat _ _) L.ker_rows⟩⟩
      have := r1 i hi
      rw [← n2] at this
      exact lt_of_lt_of_eq this L.im_rows.symm

end Permaviss
