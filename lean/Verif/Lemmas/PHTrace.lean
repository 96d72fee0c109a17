import Verif.Model.PH
import Verif.Spec.Homology
import Verif.Lemmas.GaussMore
import Verif.Lemmas.Matching

/-!
# The run of `persistent_homology` and the matching it computes
-/

namespace Permaviss

open Finset GOK

variable {α : Type} [LinearOrder α] [Zero α] {p : ℕ}

/-! ## The main loop -/

theorem clearCols_wellShaped {D : Mat} (h : D.WellShaped) (piv : List Nat) :
    (clearCols D piv).WellShaped := by
  intro c hc
  simp only [clearCols, List.mem_map, List.mem_range] at hc
  obtain ⟨j, hj, rfl⟩ := hc
  split
  · simp [clearCols]
  · rw [List_getD_eq_getElem _ _ hj]; exact h _ (List.getElem_mem hj)

theorem clearCols_reduced (hp : 0 < p) {D : Mat} (h : D.Reduced p) (piv : List Nat) :
    (clearCols D piv).Reduced p := by
  intro c hc x hx
  simp only [clearCols, List.mem_map, List.mem_range] at hc
  obtain ⟨j, hj, rfl⟩ := hc
  split at hx
  · rw [List.eq_of_mem_replicate hx]; omega
  · rw [List_getD_eq_getElem _ _ hj] at hx; exact h _ (List.getElem_mem hj) x hx

theorem clearCols_length (D : Mat) (piv : List Nat) : (clearCols D piv).cols.length = D.ncols := by
  simp [clearCols]

theorem clearCols_getD (D : Mat) (piv : List Nat) {j : ℕ} (hj : j < D.ncols) :
    (clearCols D piv).cols.getD j [] =
      if j ∈ piv then List.replicate D.nrows 0 else D.cols.getD j [] := by
  rw [List_getD_eq_getElem _ _ (by rw [clearCols_length]; exact hj)]
  simp [clearCols]

theorem zv_replicate_zero (n : ℕ) : zv p (List.replicate n 0) = 0 := by
  funext i
  simp only [zv, List.getD_eq_getElem?_getD, List.getElem?_replicate]
  split <;> simp

theorem mem_nonPivots {n : ℕ} {piv : List Nat} {k : ℕ} : k ∈ nonPivots n piv ↔ k < n ∧ k ∉ piv := by
  simp [nonPivots]

theorem nonPivots_nodup (n : ℕ) (piv : List Nat) : (nonPivots n piv).Nodup :=
  List.Nodup.filter _ List.nodup_range

/-- The reduced matrix and the transformation of a run. -/
def imMat (m : ℕ) (rts : List (List Int × List Int)) : Mat := ⟨m, rts.map Prod.fst⟩
def trMat (m : ℕ) (rts : List (List Int × List Int)) : Mat := ⟨m, rts.map Prod.snd⟩

theorem imMat_getD (m : ℕ) (rts : List (List Int × List Int)) (k : ℕ) :
    (imMat m rts).cols.getD k [] = (rts.getD k ([], [])).1 := by
  simp only [imMat, List.getD_eq_getElem?_getD, List.getElem?_map]
  cases rts[k]? <;> rfl

theorem trMat_getD (m : ℕ) (rts : List (List Int × List Int)) (k : ℕ) :
    (trMat m rts).cols.getD k [] = (rts.getD k ([], [])).2 := by
  simp only [trMat, List.getD_eq_getElem?_getD, List.getElem?_map]
  cases rts[k]? <;> rfl

/-- The output of one round in terms of the pairs computed by the elimination. -/
def stepOut (maxRad : α) (D : Mat) (Rp Rd : List α) (piv : List Nat)
    (rts : List (List Int × List Int)) : PHStep α :=
  { pivots := (nonPivots D.ncols piv).filterMap fun k =>
      indexPivot ((imMat D.nrows rts).cols.getD k [])
    finite := (nonPivots D.ncols piv).filterMap (phFinite Rp Rd (imMat D.nrows rts))
    im := (nonPivots D.ncols piv).filterMap
      (phIm maxRad Rd (imMat D.nrows rts) (trMat D.ncols rts))
    infinite := (nonPivots D.ncols piv).filterMap
      (phInfinite maxRad Rd (imMat D.nrows rts) (trMat D.ncols rts)) }

theorem phStep_spec (hp : p.Prime) (maxRad : α) (D : Mat) (hD : D.WellShaped) (hr : D.Reduced p)
    (hne : D.nrows = 0 → D.ncols = 0) (Rp Rd : List α) (piv : List Nat) :
    ∃ rts, phStep p maxRad D Rp Rd piv = .ok (stepOut maxRad D Rp Rd piv rts) ∧
      rts.length = D.ncols ∧ GOK p D.nrows D.ncols (comb p (clearCols D piv).cols) rts := by
  by_cases h0 : D.nrows = 0
  · refine ⟨[], ?_, by rw [hne h0]; rfl, ⟨by simp, by simp, by simp, by simp, by simp, by simp⟩⟩
    have hk : nonPivots D.ncols piv = [] := by rw [hne h0]; rfl
    have hg : gaussCol p (clearCols D piv) = .ok (⟨0, []⟩, ⟨0, []⟩) := by
      unfold gaussCol
      have : (clearCols D piv).nrows = 0 := h0
      simp [this]
    unfold phStep stepOut
    simp [hg, hk]
  · obtain ⟨rts, h1, h2, h3⟩ := gaussCol_spec hp (clearCols D piv) (clearCols_wellShaped hD piv)
      (clearCols_reduced hp.pos hr piv) h0
    refine ⟨rts, ?_, by rw [h2, clearCols_length], by rw [clearCols_length] at h3; exact h3⟩
    unfold phStep
    rw [h1]
    simp only [h0, false_and, if_false, stepOut, imMat, trMat, clearCols_length]
    rfl

/-- Everything the main loop computes. -/
structure PHTrace (p : ℕ) (maxRad : α) (D : List Mat) (R : List (List α)) (P : ℕ → List Nat)
    (rts : ℕ → List (List Int × List Int)) (fin : ℕ → List (BarCol α))
    (levels : List (PHLevel α)) : Prop where
  len : levels.length = D.length
  Plast : ∀ e, D.length ≤ e → P e = []
  finlast : ∀ e, D.length ≤ e → fin e = []
  rlen : ∀ e M, D[e]? = some M → (rts e).length = M.ncols
  gok : ∀ e M, D[e]? = some M →
    GOK p M.nrows M.ncols (comb p (clearCols M (P (e + 1))).cols) (rts e)
  Peq : ∀ e M, D[e]? = some M →
    P e = (stepOut maxRad M (R.getD e []) (R.getD (e + 1) []) (P (e + 1)) (rts e)).pivots
  fineq : ∀ e M, D[e]? = some M →
    fin e = (stepOut maxRad M (R.getD e []) (R.getD (e + 1) []) (P (e + 1)) (rts e)).finite
  leveq : ∀ e M, D[e]? = some M → levels[e]? = some (PHLevel.mk
    (fin (e + 1) ++
      (stepOut maxRad M (R.getD e []) (R.getD (e + 1) []) (P (e + 1)) (rts e)).infinite)
      (stepOut maxRad M (R.getD e []) (R.getD (e + 1) []) (P (e + 1)) (rts e)).im)

theorem phLoop_trace (hp : p.Prime) (maxRad : α) (D : List Mat)
    (hD : ∀ M ∈ D, M.WellShaped ∧ M.Reduced p ∧ (M.nrows = 0 → M.ncols = 0)) :
    ∀ R : List (List α), ∃ P rts fin levels,
      phLoop p maxRad D (R.getD 0 []) R.tail = .ok (P 0, fin 0, levels) ∧
      PHTrace p maxRad D R P rts fin levels := by
  induction D with
  | nil =>
    intro R
    refine ⟨fun _ => [], fun _ => [], fun _ => [], [], rfl, ?_⟩
    constructor <;> simp
  | cons M D ih =>
    intro R
    obtain ⟨P, rts, fin, levels, h1, h2⟩ := ih (fun N hN => hD N (List.mem_cons_of_mem _ hN)) R.tail
    obtain ⟨hM1, hM2, hM3⟩ := hD M (by simp)
    obtain ⟨rt, h3, h4, h5⟩ := phStep_spec hp maxRad M hM1 hM2 hM3 (R.getD 0 []) (R.tail.getD 0 [])
      (P 0)
    have htail : ∀ e, R.tail.getD e [] = R.getD (e + 1) [] := by
      intro e; cases R <;> simp
    set o := stepOut maxRad M (R.getD 0 []) (R.tail.getD 0 []) (P 0) rt with ho
    refine ⟨fun e => Nat.casesOn e o.pivots P, fun e => Nat.casesOn e rt rts,
      fun e => Nat.casesOn e o.finite fin, ⟨fin 0 ++ o.infinite, o.im⟩ :: levels, ?_, ?_⟩
    · simp only [phLoop]
      rw [h1]
      simp only [h3]
      rfl
    · constructor
      · simp [h2.len]
      · intro e he
        cases e with
        | zero => simp at he
        | succ e => exact h2.Plast e (by simpa using he)
      · intro e he
        cases e with
        | zero => simp at he
        | succ e => exact h2.finlast e (by simpa using he)
      · intro e N hN
        cases e with
        | zero => simp only [List.getElem?_cons_zero, Option.some.injEq] at hN; subst hN; exact h4
        | succ e => exact h2.rlen e N (by simpa using hN)
      · intro e N hN
        cases e with
        | zero => simp only [List.getElem?_cons_zero, Option.some.injEq] at hN; subst hN; exact h5
        | succ e => exact h2.gok e N (by simpa using hN)
      · intro e N hN
        cases e with
        | zero =>
          simp only [List.getElem?_cons_zero, Option.some.injEq] at hN; subst hN
          rw [ho, htail]; rfl
        | succ e =>
          have := h2.Peq e N (by simpa using hN)
          simp only [htail] at this
          exact this
      · intro e N hN
        cases e with
        | zero =>
          simp only [List.getElem?_cons_zero, Option.some.injEq] at hN; subst hN
          rw [ho, htail]; rfl
        | succ e =>
          have := h2.fineq e N (by simpa using hN)
          simp only [htail] at this
          exact this
      · intro e N hN
        cases e with
        | zero =>
          simp only [List.getElem?_cons_zero, Option.some.injEq] at hN; subst hN
          simp only [List.getElem?_cons_zero]
          rw [ho, htail]; rfl
        | succ e =>
          have := h2.leveq e N (by simpa using hN)
          simp only [htail] at this
          simpa using this

/-! ## The matching -/

/-- The column whose reduction has pivot `j`. -/
def kap (n : ℕ) (piv : List Nat) (rts : List (List Int × List Int)) (j : ℕ) : ℕ :=
  ((nonPivots n piv).find? fun k => decide (indexPivot (rts.getD k ([], [])).1 = some j)).getD 0

/-- The coordinates of the basis element with key `j` in degree `e`. -/
def colOf (n : ℕ → ℕ) (P : ℕ → List Nat) (rts : ℕ → List (List Int × List Int)) (e j : ℕ) :
    List Int :=
  if j ∈ P e then ((rts e).getD (kap (n (e + 1)) (P (e + 1)) (rts e) j) ([], [])).1
  else match e with
    | 0 => unitVec (n 0) j
    | e + 1 => ((rts e).getD j ([], [])).2

theorem zv_unitVec (n j : ℕ) (h : j < n) : zv p (unitVec n j) = Pi.single j 1 := by
  funext i
  simp only [zv, unitVec, List.getD_eq_getElem?_getD]
  rcases lt_or_ge i n with h1 | h1
  · rw [List.getElem?_map, List.getElem?_range h1]
    by_cases hij : i = j
    · subst hij; simp
    · simp [hij]
  · rw [List.getElem?_eq_none (by simpa using h1)]
    have : i ≠ j := by omega
    simp [this]

section trace

variable {maxRad : α} {D : List Mat} {R : List (List α)} {P : ℕ → List Nat}
  {rts : ℕ → List (List Int × List Int)} {fin : ℕ → List (BarCol α)} {levels : List (PHLevel α)}

/-- The sizes of the chain groups. -/
def nn (R : List (List α)) (e : ℕ) : ℕ := (R.getD e []).length

theorem mem_stepOut_pivots {M : Mat} {Rp Rd : List α} {piv : List Nat}
    {rt : List (List Int × List Int)} {j : ℕ} :
    j ∈ (stepOut maxRad M Rp Rd piv rt).pivots ↔
      ∃ k, k < M.ncols ∧ k ∉ piv ∧ indexPivot (rt.getD k ([], [])).1 = some j := by
  simp only [stepOut, List.mem_filterMap, mem_nonPivots, imMat_getD, and_assoc]

variable (F : FiltComplex p D R maxRad) (H : PHTrace p maxRad D R P rts fin levels)

include F H

theorem PHTrace.mem_P {e j : ℕ} (hj : j ∈ P e) : ∃ M, D[e]? = some M := by
  rcases lt_or_ge e D.length with h | h
  · exact ⟨_, List.getElem?_eq_getElem h⟩
  · rw [H.Plast e h] at hj; simp at hj

theorem PHTrace.kap_spec {e j : ℕ} (hj : j ∈ P e) :
    kap (nn R (e + 1)) (P (e + 1)) (rts e) j < nn R (e + 1) ∧
    kap (nn R (e + 1)) (P (e + 1)) (rts e) j ∉ P (e + 1) ∧
    indexPivot ((rts e).getD (kap (nn R (e + 1)) (P (e + 1)) (rts e) j) ([], [])).1 = some j := by
  obtain ⟨M, hM⟩ := H.mem_P F hj
  have h1 := hj
  rw [H.Peq e M hM, mem_stepOut_pivots] at h1
  rw [(F.rows e M hM).2] at h1
  obtain ⟨k, hk1, hk2, hk3⟩ := h1
  unfold kap
  cases hf : (nonPivots (nn R (e + 1)) (P (e + 1))).find?
      fun k => decide (indexPivot ((rts e).getD k ([], [])).1 = some j) with
  | none =>
    rw [List.find?_eq_none] at hf
    exact absurd (decide_eq_true hk3) (hf k (mem_nonPivots.2 ⟨hk1, hk2⟩))
  | some k' =>
    have a := List.find?_some hf
    have b := mem_nonPivots.1 (List.mem_of_find?_eq_some hf)
    exact ⟨b.1, b.2, of_decide_eq_true a⟩

theorem PHTrace.P_lt {e j : ℕ} (hj : j ∈ P e) : j < nn R e := by
  obtain ⟨M, hM⟩ := H.mem_P F hj
  obtain ⟨h1, h2, h3⟩ := H.kap_spec F hj
  have := indexPivot_lt h3
  have h1 : kap (nn R (e + 1)) (P (e + 1)) (rts e) j < M.ncols := by rw [(F.rows e M hM).2]; exact h1
  have hl := ((H.gok e M hM).ok ((rts e).getD (kap (nn R (e + 1)) (P (e + 1)) (rts e) j) ([], []))
    (by
      have : kap (nn R (e + 1)) (P (e + 1)) (rts e) j < (rts e).length := by
        rw [H.rlen e M hM]; exact h1
      rw [List_getD_eq_getElem _ _ this]; exact List.getElem_mem this)).len1
  rw [hl, (F.rows e M hM).1] at this
  exact this

/-- A cleared column reduces to zero. -/
theorem PHTrace.cleared {e k : ℕ} {M : Mat} (hM : D[e]? = some M) (hp : p.Prime) (hk : k < M.ncols)
    (hP : k ∈ P (e + 1)) : rv p (rts e) k = 0 := by
  have g := H.gok e M hM
  rw [g.rv_eq_zero_iff hp (by rw [H.rlen e M hM]; exact hk), comb_single, clearCols_getD _ _ hk,
    if_pos hP, zv_replicate_zero]
  exact Submodule.zero_mem _

/-- The transformation does not involve cleared columns. -/
theorem PHTrace.tv_support {e : ℕ} {M : Mat} (hM : D[e]? = some M) (hp : p.Prime) :
    ∀ k, k < M.ncols → k ∉ P (e + 1) → ∀ j ∈ P (e + 1), tv p (rts e) k j = 0 := by
  intro k
  induction k using Nat.strong_induction_on with
  | _ k ih =>
    intro hk hkP j hj
    have hkl : k < (rts e).length := by rw [H.rlen e M hM]; exact hk
    have hm := (H.gok e M hM).tmem k hkl
    have key : ∀ x ∈ Submodule.span (ZMod p) {x | ∃ (l : ℕ) (hl : l < (rts e).length), l < k ∧
        zv p ((rts e)[l].1) ≠ 0 ∧ zv p ((rts e)[l].2) = x}, x j = 0 := by
      intro x hx
      induction hx using Submodule.span_induction with
      | mem x hx =>
        obtain ⟨l, hl, hlk, hne, rfl⟩ := hx
        have hlM : l < M.ncols := by rw [← H.rlen e M hM]; exact hl
        have := ih l hlk hlM (fun hc => by
          have := H.cleared F hM hp hlM hc
          rw [rv, List_getD_eq_getElem _ _ hl] at this
          exact hne this) j hj
        rw [tv, List_getD_eq_getElem _ _ hl] at this
        exact this
      | zero => rfl
      | add x y _ _ hx hy => rw [Pi.add_apply, hx, hy, add_zero]
      | smul r x _ hx => rw [Pi.smul_apply, hx, smul_zero]
    have h0 := key _ hm
    have hkj : j ≠ k := fun h => hkP (h ▸ hj)
    rw [Pi.sub_apply, Pi.single_eq_of_ne hkj, sub_zero] at h0
    rw [tv, List_getD_eq_getElem _ _ hkl]
    exact h0

/-- The boundary of an uncleared column of the transformation is the reduced column. -/
theorem PHTrace.bdry_tv {e : ℕ} {M : Mat} (hM : D[e]? = some M) (hp : p.Prime) {k : ℕ}
    (hk : k < M.ncols) (hkP : k ∉ P (e + 1)) :
    bdry p D (e + 1) (tv p (rts e) k) = rv p (rts e) k := by
  have hkl : k < (rts e).length := by rw [H.rlen e M hM]; exact hk
  rw [(H.gok e M hM).rv_eq hkl]
  funext i
  rw [comb_apply_entry]
  simp only [bdry, hM, Option.map_some, Option.getD_some, Mat.mulVecL, LinearMap.coe_mk,
    AddHom.coe_mk]
  have : (clearCols M (P (e + 1))).ncols = M.ncols := clearCols_length _ _
  rw [this]
  refine Finset.sum_congr rfl fun j hj => ?_
  by_cases hjP : j ∈ P (e + 1)
  · rw [H.tv_support F hM hp k hk hkP j hjP, mul_zero, mul_zero]
  · rw [← zv_getD_cols, ← zv_getD_cols, clearCols_getD _ _ (mem_range.1 hj), if_neg hjP]

omit H in
theorem FiltComplex.bdry_bdry (e : ℕ) (c : ℕ → ZMod p) : bdry p D e (bdry p D (e + 1) c) = 0 := by
  cases e with
  | zero => rfl
  | succ e =>
    simp only [bdry]
    cases hM : D[e]? with
    | none => simp
    | some M =>
      cases hN : D[e + 1]? with
      | none => simp
      | some N =>
        funext i
        simp only [Option.map_some, Option.getD_some, Mat.mulVecL, LinearMap.coe_mk, AddHom.coe_mk,
          Pi.zero_apply, Finset.mul_sum]
        rw [Finset.sum_comm]
        refine Finset.sum_eq_zero fun k _ => ?_
        have := F.dd e M N hM hN i k
        calc ∑ j ∈ range M.ncols, M.z p i j * (N.z p j k * c k)
            = (∑ j ∈ range M.ncols, M.z p i j * N.z p j k) * c k := by
              rw [Finset.sum_mul]; exact Finset.sum_congr rfl fun j _ => by ring
          _ = 0 := by rw [this, zero_mul]

omit H in
theorem FiltComplex.exists_diff {e j : ℕ} (h : j < nn R (e + 1)) : ∃ M, D[e]? = some M := by
  have : e < D.length := by
    by_contra hc
    have : R.getD (e + 1) [] = [] := by
      rw [List.getD_eq_getElem?_getD, List.getElem?_eq_none (by have := F.len; omega)]; rfl
    rw [nn, this] at h; simp at h
  exact ⟨_, List.getElem?_eq_getElem this⟩

/-- The bases computed by `persistent_homology` are compatible with the boundary. -/
theorem PHTrace.matching (hp : p.Prime) :
    haveI := Fact.mk hp
    Matching (K := ZMod p) (bdry p D) (nn R) (fun e => {j | j ∈ P e})
      (fun e j => kap (nn R (e + 1)) (P (e + 1)) (rts e) j)
      (fun e j => zv p (colOf (nn R) P rts e j)) := by
  haveI := Fact.mk hp
  have hb1 : ∀ e j, j ∈ P e → zv p (colOf (nn R) P rts e j) =
      rv p (rts e) (kap (nn R (e + 1)) (P (e + 1)) (rts e) j) := by
    intro e j hj
    simp only [colOf, if_pos hj]; rfl
  have hb2 : ∀ e j, j ∉ P (e + 1) → zv p (colOf (nn R) P rts (e + 1) j) = tv p (rts e) j := by
    intro e j hj
    simp only [colOf, if_neg hj]; rfl
  have heq : ∀ e, ∀ j ∈ P e, zv p (colOf (nn R) P rts e j) = bdry p D (e + 1)
      (zv p (colOf (nn R) P rts (e + 1) (kap (nn R (e + 1)) (P (e + 1)) (rts e) j))) := by
    intro e j hj
    obtain ⟨M, hM⟩ := H.mem_P F hj
    obtain ⟨h1, h2, h3⟩ := H.kap_spec F hj
    rw [hb1 e j hj, hb2 e _ h2, H.bdry_tv F hM hp (by rw [(F.rows e M hM).2]; exact h1) h2]
  have hlen : ∀ {e M k}, D[e]? = some M → k < nn R (e + 1) → k < (rts e).length := by
    intro e M k hM hk
    rw [H.rlen e M hM, (F.rows e M hM).2]; exact hk
  constructor
  · rfl
  · intro e j hj
    by_cases hP : j ∈ P e
    · obtain ⟨M, hM⟩ := H.mem_P F hP
      obtain ⟨h1, h2, h3⟩ := H.kap_spec F hP
      rw [hb1 e j hP]
      exact (((H.gok e M hM).rv_red (hlen hM h1)).indexPivot_some hp.pos).1 h3
    · cases e with
      | zero =>
        simp only [colOf, if_neg hP]
        rw [zv_unitVec _ _ hj]
        refine ⟨by simp, fun i hi => ?_⟩
        rw [Pi.single_eq_of_ne (by omega)]
      | succ e =>
        obtain ⟨M, hM⟩ := F.exists_diff hj
        rw [hb2 e j hP]
        exact (H.gok e M hM).tv_piv hp (hlen hM hj)
  · intro e j hj; exact H.P_lt F hj
  · intro e j hj; exact (H.kap_spec F hj).1
  · exact heq
  · intro e k hk hne
    obtain ⟨M, hM⟩ := F.exists_diff hk
    have hkP : k ∉ P (e + 1) := by
      intro hc
      apply hne
      rw [heq (e + 1) k hc]
      exact F.bdry_bdry (e + 1) _
    have hkM : k < M.ncols := by rw [(F.rows e M hM).2]; exact hk
    rw [hb2 e k hkP, H.bdry_tv F hM hp hkM hkP] at hne
    obtain ⟨j, hj⟩ := (H.gok e M hM).exists_piv hp (hlen hM hk) hne
    have hj' := (((H.gok e M hM).rv_red (hlen hM hk)).indexPivot_some hp.pos).2 hj
    have hjP : j ∈ P e := by
      rw [H.Peq e M hM, mem_stepOut_pivots]
      exact ⟨k, hkM, hkP, hj'⟩
    refine ⟨j, hjP, ?_⟩
    obtain ⟨h1, h2, h3⟩ := H.kap_spec F hjP
    exact (H.gok e M hM).piv_inj hp (hlen hM h1) (hlen hM hk)
      ((((H.gok e M hM).rv_red (hlen hM h1)).indexPivot_some hp.pos).1 h3) hj
  · exact F.bdry_bdry

omit H in
/-- The filtration. -/
theorem FiltComplex.filt (hp : p.Prime) :
    haveI := Fact.mk hp
    Filt (K := ZMod p) (bdry p D) (nn R) (fun e i (t : α) => Born R e i t) := by
  have := Fact.mk hp
  constructor
  · rintro e i t ⟨r, hr, -⟩
    exact (List.getElem?_eq_some_iff.1 hr).1
  · rintro e i j t hij ⟨r, hr, hrt⟩
    obtain ⟨hj, rfl⟩ := List.getElem?_eq_some_iff.1 hr
    refine ⟨(R.getD e [])[i]'(by omega), List.getElem?_eq_getElem _, le_trans ?_ hrt⟩
    rcases Nat.eq_or_lt_of_le hij with rfl | hij
    · exact le_rfl
    · have hmem : R.getD e [] ∈ R := by
        have : e < R.length := by
          by_contra hc
          rw [List.getD_eq_getElem?_getD, List.getElem?_eq_none (by omega)] at hj
          simp at hj
        rw [List_getD_eq_getElem _ _ this]; exact List.getElem_mem this
      exact List.pairwise_iff_getElem.1 (F.sorted _ hmem) i j _ _ hij
  · rintro e i s t hst ⟨r, hr, hrs⟩
    exact ⟨r, hr, hrs.trans hst⟩
  · intro e t c hc i hi
    simp only [bdry] at hi
    cases hM : D[e]? with
    | none => rw [hM] at hi; simp at hi
    | some M =>
      rw [hM] at hi
      simp only [Option.map_some, Option.getD_some, Mat.mulVecL, LinearMap.coe_mk,
        AddHom.coe_mk] at hi
      obtain ⟨k, -, hk⟩ := Finset.exists_ne_zero_of_sum_ne_zero hi
      exact F.face e M hM i k (fun h => hk (by simp [h])) t (hc k fun h => hk (by simp [h]))

end trace

end Permaviss
