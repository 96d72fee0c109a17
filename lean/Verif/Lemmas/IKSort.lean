import Verif.Lemmas.IKFinal
import Verif.Lemmas.Barcode

/-!
# `image_kernel`: sorting the bases before the loop and undoing it afterwards
-/

namespace Permaviss

open Finset

variable {α : Type} [LinearOrder α]

/-- `order` lists the values of `σ` on `0 … n-1`, and `ret` those of its inverse. -/
structure IsOrder (n : ℕ) (order ret : List ℕ) (σ : Equiv.Perm ℕ) : Prop where
  get : ∀ i, i < n → order[i]? = some (σ i)
  len : order.length = n
  rget : ∀ i, i < n → ret[i]? = some (σ.symm i)
  rlen : ret.length = n
  lt : ∀ i, σ i < n ↔ i < n

theorem IsOrder.symm_lt {n : ℕ} {order ret : List ℕ} {σ : Equiv.Perm ℕ} (h : IsOrder n order ret σ)
    (i : ℕ) : σ.symm i < n ↔ i < n := by
  have := h.lt (σ.symm i)
  rw [Equiv.apply_symm_apply] at this
  exact this.symm

theorem isOrder_range (n : ℕ) : IsOrder n (List.range n) (List.range n) (Equiv.refl ℕ) where
  get := fun i hi => by simp [hi]
  len := by simp
  rget := fun i hi => by simp [hi]
  rlen := by simp
  lt := fun i => by simp

theorem exists_isOrder {n : ℕ} {order : List ℕ} (h : order.Perm (List.range n)) :
    ∃ σ, IsOrder n order (argsortPerm order) σ := by
  have hlen : order.length = n := by simpa using h.length_eq
  have hnd : order.Nodup := h.nodup_iff.2 List.nodup_range
  have hmem : ∀ i, i ∈ order ↔ i < n := fun i => by rw [h.mem_iff, List.mem_range]
  have hlt : ∀ i, i < n → order.getD i i < n := by
    intro i hi
    rw [← hmem, List_getD_eq_getElem _ _ (by omega)]
    exact List.getElem_mem _
  have hge : ∀ i, n ≤ i → order.getD i i = i := by
    intro i hi
    rw [List.getD_eq_getElem?_getD, List.getElem?_eq_none (by omega)]; rfl
  have hidx : ∀ i, i < n → order.idxOf i < n := by
    intro i hi
    rw [← hlen]; exact List.idxOf_lt_length_of_mem ((hmem i).2 hi)
  let σ : Equiv.Perm ℕ :=
    { toFun := fun i => order.getD i i
      invFun := fun i => if i < n then order.idxOf i else i
      left_inv := by
        intro i
        dsimp only
        by_cases hi : i < n
        · rw [if_pos (hlt i hi), List_getD_eq_getElem _ _ (by omega)]
          exact hnd.idxOf_getElem i _
        · rw [hge i (by omega), if_neg hi]
      right_inv := by
        intro i
        dsimp only
        by_cases hi : i < n
        · rw [if_pos hi, List_getD_eq_getElem _ _ (by rw [hlen]; exact hidx i hi)]
          exact List.getElem_idxOf _
        · rw [if_neg hi, hge i (by omega)] }
  refine ⟨σ, ⟨?_, hlen, ?_, by simp [argsortPerm, hlen], ?_⟩⟩
  · intro i hi
    change order[i]? = some (order.getD i i)
    rw [List_getD_eq_getElem _ _ (by omega), List.getElem?_eq_getElem]
  · intro i hi
    change _ = some (if i < n then order.idxOf i else i)
    rw [if_pos hi]
    simp [argsortPerm, hlen, hi]
  · intro i
    change order.getD i i < n ↔ _
    constructor
    · intro h1
      by_contra h2
      rw [hge i (by omega)] at h1
      omega
    · exact hlt i

section
variable {n : ℕ} {order ret : List ℕ} {σ : Equiv.Perm ℕ} (h : IsOrder n order ret σ)
include h

theorem IsOrder.mem_lt : ∀ i ∈ order, i < n := by
  intro i hi
  obtain ⟨k, hk, rfl⟩ := List.getElem_of_mem hi
  have hk' : k < n := h.len ▸ hk
  have := h.get k hk'
  rw [List.getElem?_eq_getElem hk, Option.some.injEq] at this
  rw [this, h.lt]; exact hk'

theorem IsOrder.rmem_lt : ∀ i ∈ ret, i < n := by
  intro i hi
  obtain ⟨k, hk, rfl⟩ := List.getElem_of_mem hi
  have hk' : k < n := h.rlen ▸ hk
  have := h.rget k hk'
  rw [List.getElem?_eq_getElem hk, Option.some.injEq] at this
  rw [this, h.symm_lt]; exact hk'

theorem IsOrder.gather_get {β : Type} {l : List β} (hl : l.length = n) (i : ℕ) :
    (gather l order)[i]? = l[σ i]? := by
  rw [gather_getElem? (fun i hi => hl ▸ h.mem_lt i hi)]
  by_cases hi : i < n
  · rw [h.get i hi]; rfl
  · rw [List.getElem?_eq_none (by rw [h.len]; omega), List.getElem?_eq_none]
    · rfl
    · have := (h.lt i).not.2 hi
      omega

theorem IsOrder.gather_rget {β : Type} {l : List β} (hl : l.length = n) (i : ℕ) :
    (gather l ret)[i]? = l[σ.symm i]? := by
  rw [gather_getElem? (fun i hi => hl ▸ h.rmem_lt i hi)]
  by_cases hi : i < n
  · rw [h.rget i hi]; rfl
  · rw [List.getElem?_eq_none (by rw [h.rlen]; omega), List.getElem?_eq_none]
    · rfl
    · have := (h.symm_lt i).not.2 hi
      omega

theorem IsOrder.gather_len {β : Type} {l : List β} (hl : l.length = n) :
    (gather l order).length = n := by
  rw [length_gather (fun i hi => hl ▸ h.mem_lt i hi), h.len]

theorem IsOrder.gather_rlen {β : Type} {l : List β} (hl : l.length = n) :
    (gather l ret).length = n := by
  rw [length_gather (fun i hi => hl ▸ h.rmem_lt i hi), h.rlen]

theorem IsOrder.zv_gather {p : ℕ} {c : List Int} (hl : c.length = n) :
    zv p (gather c order) = fun i => zv p c (σ i) := by
  funext i
  simp only [zv, List.getD_eq_getElem?_getD, h.gather_get hl]

theorem IsOrder.zv_rgather {p : ℕ} {c : List Int} (hl : c.length = n) :
    zv p (gather c ret) = fun i => zv p c (σ.symm i) := by
  funext i
  simp only [zv, List.getD_eq_getElem?_getD, h.gather_rget hl]

end

/-- Renaming coordinates. -/
def reName {K : Type*} [Semiring K] (σ : Equiv.Perm ℕ) : (ℕ → K) ≃ₗ[K] (ℕ → K) :=
  LinearEquiv.funCongrLeft K K σ.symm

theorem reName_apply {K : Type*} [Semiring K] (σ : Equiv.Perm ℕ) (x : ℕ → K) (i : ℕ) :
    reName σ x i = x (σ.symm i) := rfl

/-- `bars'` is `bars` in another order. -/
def ReBars (σ : Equiv.Perm ℕ) (bars bars' : List (α × α)) : Prop := ∀ i, bars'[i]? = bars[σ i]?

theorem ReBars.alive {σ : Equiv.Perm ℕ} {bars bars' : List (α × α)} (h : ReBars σ bars bars')
    (i : ℕ) (t : α) : AliveBar bars' i t ↔ AliveBar bars (σ i) t := by
  unfold AliveBar; rw [h]

theorem ReBars.restr {p : ℕ} {σ : Equiv.Perm ℕ} {bars bars' : List (α × α)} (h : ReBars σ bars bars')
    (t : α) (x : ℕ → ZMod p) : barRestr p bars t (reName σ x) = reName σ (barRestr p bars' t x) := by
  funext i
  rw [reName_apply]
  unfold barRestr
  have e : AliveBar bars' (σ.symm i) t ↔ AliveBar bars i t := by
    rw [h.alive, Equiv.apply_symm_apply]
  by_cases hi : AliveBar bars i t
  · rw [restr_apply_pos hi, restr_apply_pos (e.2 hi)]; rfl
  · rw [restr_apply_neg hi, restr_apply_neg (fun h => hi (e.1 h))]

theorem mulVecL_reName {p : ℕ} {F F' : Mat} {σA σB : Equiv.Perm ℕ} {n : ℕ} (hn : F.ncols = n)
    (hn' : F'.ncols = n) (hlt : ∀ i, σA i < n ↔ i < n)
    (hz : ∀ i j, F'.z p i j = F.z p (σB i) (σA j)) (x : ℕ → ZMod p) :
    F.mulVecL p (reName σA x) = reName σB (F'.mulVecL p x) := by
  funext i
  rw [reName_apply]
  simp only [Mat.mulVecL, LinearMap.coe_mk, AddHom.coe_mk, hn, hn', hz, Equiv.apply_symm_apply]
  refine (Finset.sum_equiv σA ?_ ?_).symm
  · intro k; simp [hlt]
  · intro k _
    rw [reName_apply, Equiv.symm_apply_apply]

theorem morAt_reName {p : ℕ} {A A' B B' : List (α × α)} {F F' : Mat} {σA σB : Equiv.Perm ℕ} {n : ℕ}
    (hA : ReBars σA A A') (hB : ReBars σB B B') (hn : F.ncols = n) (hn' : F'.ncols = n)
    (hlt : ∀ i, σA i < n ↔ i < n) (hz : ∀ i j, F'.z p i j = F.z p (σB i) (σA j)) (t : α)
    (x : ℕ → ZMod p) : morAt p A B F t (reName σA x) = reName σB (morAt p A' B' F' t x) := by
  simp only [morAt, LinearMap.comp_apply]
  rw [hA.restr, mulVecL_reName hn hn' hlt hz, hB.restr]

theorem kerAt_reName {p : ℕ} {A A' B B' : List (α × α)} {F F' : Mat} {σA σB : Equiv.Perm ℕ} {n : ℕ}
    (hA : ReBars σA A A') (hB : ReBars σB B B') (hn : F.ncols = n) (hn' : F'.ncols = n)
    (hlt : ∀ i, σA i < n ↔ i < n) (hz : ∀ i j, F'.z p i j = F.z p (σB i) (σA j)) (t : α) :
    kerAt p A B F t = (kerAt p A' B' F' t).map (reName σA).toLinearMap := by
  ext x
  simp only [kerAt, barModule, Submodule.mem_inf, LinearMap.mem_range, LinearMap.mem_ker,
    Submodule.mem_map, LinearEquiv.coe_coe]
  constructor
  · rintro ⟨⟨y, rfl⟩, h2⟩
    refine ⟨(reName σA).symm (barRestr p A t y), ⟨⟨(reName σA).symm y, ?_⟩, ?_⟩, by simp⟩
    · apply (reName σA).injective
      rw [← hA.restr]; simp
    · apply (reName σB).injective
      rw [← morAt_reName hA hB hn hn' hlt hz]
      simpa using h2
  · rintro ⟨y, ⟨⟨z, rfl⟩, h2⟩, rfl⟩
    refine ⟨⟨reName σA z, hA.restr t z⟩, ?_⟩
    rw [morAt_reName hA hB hn hn' hlt hz, h2, map_zero]

theorem imAt_reName {p : ℕ} {A A' B B' : List (α × α)} {F F' : Mat} {σA σB : Equiv.Perm ℕ} {n : ℕ}
    (hA : ReBars σA A A') (hB : ReBars σB B B') (hn : F.ncols = n) (hn' : F'.ncols = n)
    (hlt : ∀ i, σA i < n ↔ i < n) (hz : ∀ i j, F'.z p i j = F.z p (σB i) (σA j)) (t : α) :
    imAt p A B F t = (imAt p A' B' F' t).map (reName σB).toLinearMap := by
  ext x
  simp only [imAt, barModule, Submodule.mem_map, LinearEquiv.coe_coe, LinearMap.mem_range]
  constructor
  · rintro ⟨_, ⟨y, rfl⟩, rfl⟩
    refine ⟨_, ⟨_, ⟨(reName σA).symm y, rfl⟩, rfl⟩, ?_⟩
    rw [← morAt_reName hA hB hn hn' hlt hz, ← hA.restr]; simp
  · rintro ⟨_, ⟨_, ⟨y, rfl⟩, rfl⟩, rfl⟩
    refine ⟨_, ⟨reName σA y, rfl⟩, ?_⟩
    rw [← morAt_reName hA hB hn hn' hlt hz, ← hA.restr]

/-! ### Building a basis: dropping empty bars, sorting -/

omit [LinearOrder α] in
theorem barIndices_cons (q : α × α → Bool) (a : α × α) (bars : List (α × α)) :
    barIndices (a :: bars) q =
      (if q a then [0] else []) ++ (barIndices bars q).map (· + 1) := by
  unfold barIndices
  rw [List.length_cons, List.range_succ_eq_map, List.filter_cons, List.filter_map]
  have e : ((fun i => (Option.map q (a :: bars)[i]?).getD false) ∘ Nat.succ) =
      fun i => (Option.map q bars[i]?).getD false := by
    funext i; simp
  rw [e]
  by_cases h : q a = true <;> simp [h]

theorem gather_append {β : Type} (l : List β) (a b : List ℕ) :
    gather l (a ++ b) = gather l a ++ gather l b := by
  simp [gather, List.filterMap_append]

theorem gather_cons_succ {β : Type} (x : β) (l : List β) (idx : List ℕ) :
    gather (x :: l) (idx.map (· + 1)) = gather l idx := by
  simp only [gather, List.filterMap_map]
  congr 1

omit [LinearOrder α] in
theorem maskBy_eq_gather {γ : Type} (q : α × α → Bool) (bars : List (α × α)) (l : List γ)
    (h : bars.length = l.length) : maskBy (bars.map q) l = gather l (barIndices bars q) := by
  induction bars generalizing l with
  | nil => simp [maskBy, barIndices, gather]
  | cons a bars ih =>
    cases l with
    | nil => simp at h
    | cons x l =>
      rw [barIndices_cons, gather_append, gather_cons_succ, ← ih l (by simpa using h), List.map_cons]
      cases hq : q a <;> simp [maskBy, gather]

omit [LinearOrder α] in
theorem filter_eq_gather (q : α × α → Bool) (bars : List (α × α)) :
    bars.filter q = gather bars (barIndices bars q) := by
  rw [← maskBy_map, maskBy_eq_gather q bars bars rfl]

theorem gather_gather {β : Type} {l : List β} {a : List ℕ} (b : List ℕ)
    (ha : ∀ i ∈ a, i < l.length) (hb : ∀ i ∈ b, i < a.length) :
    gather (gather l a) b = gather l (gather a b) := by
  have hg : ∀ i ∈ gather a b, i < l.length := by
    intro i hi
    simp only [gather, List.mem_filterMap] at hi
    obtain ⟨k, -, hk⟩ := hi
    exact ha i (List.mem_of_getElem? hk)
  apply List.ext_getElem?
  intro k
  rw [gather_getElem? (by rw [length_gather ha]; exact hb), gather_getElem? hg,
    gather_getElem? hb]
  cases h : b[k]? with
  | none => rfl
  | some i => simp [gather_getElem? ha]

/-- The positions of the bars of a basis built from `raw` and sorted. -/
structure Picks (raw : List (α × α)) (idx : List ℕ) : Prop where
  nodup : idx.Nodup
  mem : ∀ k, k ∈ idx ↔ ∃ b, raw[k]? = some b ∧ b.1 < b.2

theorem Picks.lt {raw : List (α × α)} {idx : List ℕ} (h : Picks raw idx) :
    ∀ k ∈ idx, k < raw.length := by
  intro k hk
  obtain ⟨b, hb, -⟩ := (h.mem k).1 hk
  exact (List.getElem?_eq_some_iff.1 hb).1

theorem build_sort {raw : List (α × α)} {m : ℕ} {M : Mat} {sw : Bool} (rnd : α → α)
    (hrows : M.nrows = m) (hcols : M.ncols = raw.length) (hsw : sw = true → raw ≠ []) :
    ∃ b0 b1 order idx, Basis.init raw false (some m) M sw false none = .ok b0 ∧
      b0.wellDefined = (if sw then some (barMask raw) else none) ∧
      b0.sort rnd = .ok (b1, order) ∧
      Picks raw idx ∧ b1.barcode = gather raw idx ∧ b1.coords = ⟨m, gather M.cols idx⟩ ∧
      b1.flat = false ∧ b1.dim = b1.barcode.length ∧ b1.sorted = true ∧ b1.brokenDiff = none ∧
      b1.prevDim = some m ∧
      ∀ {γ : Type} (l : List γ), l.length = raw.length →
        gather (maskBy (barMask raw) l) order = gather l idx := by
  let q : α × α → Bool := fun b => decide (b.1 < b.2)
  let a := barIndices raw q
  let order := sortOrder rnd (raw.filter q)
  have ha : ∀ i ∈ a, i < raw.length := by
    intro i hi
    obtain ⟨b, hb, -⟩ := mem_barIndices.1 hi
    exact (List.getElem?_eq_some_iff.1 hb).1
  have hlen : (raw.filter q).length = a.length := by
    rw [filter_eq_gather, length_gather ha]
  have hperm : order.Perm (List.range a.length) := by
    have := sortOrder_perm rnd (raw.filter q)
    rwa [hlen] at this
  have hlt : ∀ i ∈ order, i < a.length := fun i hi => List.mem_range.1 (hperm.mem_iff.1 hi)
  have hmask : ∀ {γ : Type} (l : List γ), l.length = raw.length →
      gather (maskBy (barMask raw) l) order = gather l (gather a order) := by
    intro γ l hl
    have : barMask raw = raw.map q := rfl
    rw [this, maskBy_eq_gather q raw l hl.symm, gather_gather _ (by rw [hl]; exact ha) hlt]
  have hcs : initCoords raw (some m) M = .ok ⟨m, maskBy (barMask raw) M.cols⟩ := by
    unfold initCoords
    simp only
    by_cases h0 : M.ncols = 0
    · rw [if_pos h0]
      have : M.cols = [] := List.length_eq_zero_iff.1 h0
      have e : maskBy (barMask raw) ([] : List (List Int)) = [] := by
        cases barMask raw with
        | nil => rfl
        | cons b l => cases b <;> rfl
      cases M
      simp_all
    · rw [if_neg h0, if_neg (by simp [hrows]), if_neg (by simp [hcols]), hrows]
  have hempty : (sw && raw.isEmpty) = false := by
    cases sw with
    | false => rfl
    | true => simp [hsw rfl]
  refine ⟨⟨raw.filter q, false, (raw.filter q).length, some m, ⟨m, maskBy (barMask raw) M.cols⟩,
      false, if sw then some (barMask raw) else none, none⟩,
    ⟨gather (raw.filter q) order, false, (raw.filter q).length, some m,
      ⟨m, gather (maskBy (barMask raw) M.cols) order⟩, true,
      if sw then some (barMask raw) else none, none⟩, order, gather a order, ?_, rfl, ?_, ⟨?_, ?_⟩,
      ?_, ?_, rfl, ?_, rfl, rfl, rfl, ?_⟩
  · unfold Basis.init
    simp [hcs, hempty, q]
  · simp [Basis.sort, order]
  · exact (gather_perm hperm).nodup_iff.2 ((barIndices_sorted raw q).imp fun h => by omega)
  · intro k
    rw [(gather_perm hperm).mem_iff, mem_barIndices]
    simp [q]
  · change gather (raw.filter q) order = _
    rw [← maskBy_map]
    exact hmask raw rfl
  · change (⟨m, _⟩ : Mat) = _
    rw [hmask M.cols hcols]
  · change (raw.filter q).length = (gather (raw.filter q) order).length
    rw [length_gather (by rw [hlen]; exact hlt), hlen]
    simpa using hperm.length_eq.symm
  · exact hmask

/-! ### Reindexing bases -/

theorem picks_basis {K V : Type*} [Semiring K] [AddCommMonoid V] [Module K V] {idx : List ℕ}
    (hnd : idx.Nodup) {S : ℕ → Prop} (hS : ∀ i, S i → i < idx.length) {W : Finset ℕ}
    (hW : ∀ (i k : ℕ), idx[i]? = some k → (S i ↔ k ∈ W)) (hWm : ∀ k ∈ W, k ∈ idx) {u v : ℕ → V}
    (huv : ∀ (i k : ℕ), idx[i]? = some k → u i = v k) :
    (LinearIndependent K (fun k : W => v k) → LinearIndependent K fun i : {i // S i} => u i) ∧
    (Set.range fun i : {i // S i} => u i) = Set.range fun k : W => v k := by
  have hget : ∀ i : {i // S i}, idx[i.1]? = some (idx[i.1]'(hS i i.2)) := fun i =>
    List.getElem?_eq_getElem _
  let g : {i // S i} → W := fun i => ⟨idx[i.1]'(hS i i.2), (hW i _ (hget i)).1 i.2⟩
  have hg : Function.Injective g := by
    intro i j h
    have h1 : idx[i.1]'(hS i i.2) = idx[j.1]'(hS j j.2) := congrArg Subtype.val h
    exact Subtype.ext ((hnd.getElem_inj_iff).1 h1)
  have hu : (fun i : {i // S i} => u i) = (fun k : W => v k) ∘ g := by
    funext i
    exact huv i _ (hget i)
  refine ⟨fun h => ?_, ?_⟩
  · rw [hu]; exact h.comp g hg
  · rw [hu]
    apply Function.Surjective.range_comp
    intro k
    obtain ⟨i, hi, e⟩ := List.getElem_of_mem (hWm k k.2)
    have hi' : idx[i]? = some k.1 := by rw [List.getElem?_eq_getElem hi, e]
    exact ⟨⟨i, (hW i k hi').2 k.2⟩, Subtype.ext e⟩

theorem Picks.alive {raw : List (α × α)} {idx : List ℕ} (h : Picks raw idx) {i : ℕ} {t : α} :
    AliveBar (gather raw idx) i t ↔ ∃ k, idx[i]? = some k ∧ AliveBar raw k t := by
  unfold AliveBar
  rw [gather_getElem? h.lt]
  cases hk : idx[i]? with
  | none => simp
  | some k => simp

theorem Picks.mem_of_alive {raw : List (α × α)} {idx : List ℕ} (h : Picks raw idx) {k : ℕ} {t : α}
    (hk : AliveBar raw k t) : k ∈ idx := by
  obtain ⟨b, h1, h2, h3⟩ := hk
  exact (h.mem k).2 ⟨b, h1, lt_of_le_of_lt h2 h3⟩

/-- A basis of raw columns gives a barcode basis after dropping empty bars and sorting. -/
theorem picks_isBasisOf {p : ℕ} {amb raw : List (α × α)} {idx : List ℕ} (h : Picks raw idx)
    {X : Basis α} {M : Mat} (hbar : X.barcode = gather raw idx)
    (hco : X.coords.cols = gather M.cols idx) (hcols : M.ncols = raw.length)
    (hlen : ∀ c ∈ M.cols, c.length = amb.length)
    {N : α → Submodule (ZMod p) (ℕ → ZMod p)}
    (H : ∀ t, ∃ W : Finset ℕ, (∀ k, k ∈ W ↔ AliveBar raw k t) ∧
      (LinearIndependent (ZMod p) fun k : W => barRestr p amb t (M.zcol p k)) ∧
      (Submodule.span (ZMod p) (Set.range fun k : W => barRestr p amb t (M.zcol p k)) = N t) ∧
      ∀ k b, raw[k]? = some b → b.1 < b.2 → b.2 ≤ t → barRestr p amb t (M.zcol p k) = 0) :
    IsBasisOf p amb X N := by
  have hML : ∀ i ∈ idx, i < M.cols.length := fun i hi => by
    have := h.lt i hi
    unfold Mat.ncols at hcols
    omega
  have hz : ∀ i k, idx[i]? = some k → X.coords.zcol p i = M.zcol p k := by
    intro i k hk
    unfold Mat.zcol
    rw [hco, List.getD_eq_getElem?_getD, gather_getElem? hML, hk, List.getD_eq_getElem?_getD]
    rfl
  have key : ∀ t, (LinearIndependent (ZMod p)
      fun i : {i // AliveBar X.barcode i t} => barRestr p amb t (X.coords.zcol p i)) ∧
      Submodule.span (ZMod p) (Set.range fun i : {i // AliveBar X.barcode i t} =>
        barRestr p amb t (X.coords.zcol p i)) = N t := fun t => by
    obtain ⟨W, h1, h2, h3, -⟩ := H t
    have := picks_basis (K := ZMod p) h.nodup (S := fun i => AliveBar X.barcode i t) (W := W)
      (u := fun i => barRestr p amb t (X.coords.zcol p i))
      (v := fun k => barRestr p amb t (M.zcol p k))
      (fun i hi => by
        rw [hbar, h.alive] at hi
        obtain ⟨k, hk, -⟩ := hi
        exact (List.getElem?_eq_some_iff.1 hk).1)
      (fun i k hk => by
        rw [hbar, h.alive, hk, h1]
        simp)
      (fun k hk => h.mem_of_alive ((h1 k).1 hk))
      (fun i k hk => by rw [hz i k hk])
    exact ⟨this.1 h2, by rw [this.2]; exact h3⟩
  refine ⟨?_, ?_, ?_, fun t => (key t).1, fun t => (key t).2, ?_⟩
  · intro b hb
    rw [hbar] at hb
    simp only [gather, List.mem_filterMap] at hb
    obtain ⟨k, hk, hk'⟩ := hb
    obtain ⟨b', h1, h2⟩ := (h.mem k).1 hk
    rw [h1, Option.some.injEq] at hk'
    exact hk' ▸ h2
  · unfold Mat.ncols
    rw [hco, hbar, length_gather hML, length_gather h.lt]
  · intro c hc
    rw [hco] at hc
    simp only [gather, List.mem_filterMap] at hc
    obtain ⟨k, hk, hk'⟩ := hc
    exact hlen c (List.mem_of_getElem? hk')
  · intro t i b hb hbt
    rw [hbar, gather_getElem? h.lt] at hb
    cases hk : idx[i]? with
    | none => rw [hk] at hb; simp at hb
    | some k =>
      rw [hk] at hb
      obtain ⟨W, -, -, -, h4⟩ := H t
      obtain ⟨b', h5, h6⟩ := (h.mem k).1 (List.mem_of_getElem? hk)
      have e : b' = b := by
        have : raw[k]? = some b := hb
        rw [h5, Option.some.injEq] at this
        exact this
      rw [hz i k hk]
      exact h4 k b hb (e ▸ h6) hbt

end Permaviss
