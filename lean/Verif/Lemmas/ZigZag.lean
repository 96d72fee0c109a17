import Verif.Lemmas.Lift
import Verif.Lemmas.CechAlg

/-!
# Čech differential and lift
-/

namespace Permaviss

open Finset

attribute [-instance] instMulZeroClassOfSemiring

variable {α : Type} [LinearOrder α] [Zero α] {rnd : α → α} {E : SSEnv α} {ρ : List ℕ → α}

theorem LiftData.isCycleAt_iff {n idx deg : ℕ} {o : LocalOut α}
    {pts : List ℕ} {v : ℕ → ℕ → ZMod E.p} {im hom : Basis α}
    (L : LiftData rnd E ρ n idx deg o pts v im hom) (hdeg : deg ≤ E.rows) (z : ℕ → ZMod E.p) (r : α) :
    E.IsCycleAt ρ n idx deg z r ↔ z ∈ cyclesAt E.p o.diff o.cpx.allRads deg r := by
  have hG : E.G n idx deg = o.glob pts deg := by simp only [SSEnv.G, L.piece, L.pts_eq]
  have hborn : ∀ i, (∃ s, (E.G n idx deg)[i]? = some s ∧ ρ s ≤ r) ↔ Born o.cpx.allRads deg i r := by
    intro i
    unfold Born
    rw [L.ok.rad deg (hdeg.trans L.ok.levels), hG, List.getElem?_map]
    constructor
    · rintro ⟨s, hs, h⟩; exact ⟨ρ s, by rw [hs]; rfl, h⟩
    · rintro ⟨q, hq, h⟩
      obtain ⟨s, hs, rfl⟩ := Option.map_eq_some_iff.1 hq
      exact ⟨s, hs, h⟩
  unfold SSEnv.IsCycleAt
  constructor
  · rintro ⟨⟨o', ho', hb⟩, hs⟩
    rw [L.piece] at ho'; cases ho'
    exact ⟨fun i hi => (hborn i).1 (hs i hi), hb⟩
  · rintro ⟨h1, h2⟩
    exact ⟨⟨o, L.piece, h2⟩, fun i hi => (hborn i).2 (h1 i hi)⟩

/-- A chain decomposes along the generators born at or before `r` exactly when it is a cycle at `r`. -/
theorem LiftData.decomposes_iff (hp : E.p.Prime) {n idx deg : ℕ} {o : LocalOut α}
    {pts : List ℕ} {v : ℕ → ℕ → ZMod E.p} {im hom : Basis α}
    (L : LiftData rnd E ρ n idx deg o pts v im hom) (hdeg : deg ≤ E.rows) (z : ℕ → ZMod E.p) {r : α}
    (hr : r < E.maxR) :
    (∃ γ β, Decomposes E.p im hom z r γ β) ↔ E.IsCycleAt ρ n idx deg z r := by
  rw [L.isCycleAt_iff hdeg, cycles_iff_decomposes hp L.ok.filt L.ok.run
    (by rw [L.ok.diff_length hp.two_le]; exact hdeg.trans L.ok.levels) L.im_get L.hom_get hr]

/-! ## The Čech differential of a cycle is a cycle -/

/-- The boundary of a chain on a piece, in coordinates. -/
theorem bdry_piece (hS : SSOK rnd E ρ) {n k deg : ℕ} (hn : n < E.columns.length) (hk : k < E.spx n)
    (hdeg : deg < E.rows) {o : LocalOut α} (ho : E.piece n k = .ok o) (z : ℕ → ZMod E.p) (j : ℕ) :
    bdry E.p o.diff (deg + 1) z j = if j < (E.G n k deg).length then
      ∑ a ∈ range (E.G n k (deg + 1)).length, vertCoef E n k deg j a * z a else 0 := by
  obtain ⟨o', pts, ho', hpts, hP⟩ := hS.piece n hn k hk
  rw [ho] at ho'; cases ho'
  have hG : ∀ d, E.G n k d = o.glob pts d := fun d => by simp only [SSEnv.G, ho, hpts]
  have hlt : deg < o.diff.length := by
    rw [hP.diff_length hS.prime.two_le]; have := hP.levels; omega
  have hM : o.diff[deg]? = some o.diff[deg] := List.getElem?_eq_getElem hlt
  have hMd : o.diff.getD deg ⟨0, []⟩ = o.diff[deg] := List_getD_eq_getElem _ _ hlt
  obtain ⟨d1, d2, d3⟩ := hP.diff_entry hS.prime.two_le (deg := deg) (by have := hP.levels; omega)
  rw [hMd] at d1 d2 d3
  have hsh := (hP.filt.shape _ (List.getElem_mem hlt)).1
  have : bdry E.p o.diff (deg + 1) z j = ∑ a ∈ range o.diff[deg].ncols, o.diff[deg].z E.p j a * z a := by
    change ((o.diff[deg]?).map (Mat.mulVecL E.p)).getD 0 z j = _
    rw [hM]; rfl
  rw [this, d2, hG, hG]
  split
  · next hj =>
    refine Finset.sum_congr rfl fun a ha => ?_
    unfold vertCoef
    rw [ho]
    dsimp only
    rw [hMd]
  · next hj =>
    refine Finset.sum_eq_zero fun a ha => ?_
    have : o.diff[deg].z E.p j a = 0 := by
      unfold Mat.z
      have : o.diff[deg].get j a = 0 := by
        unfold Mat.get
        rw [getD_eq_zero_of_le]
        rw [hsh _ (getD_mem' (by have := mem_range.1 ha; unfold Mat.ncols at d2; omega)), d1]
        omega
      rw [this]; simp
    rw [this, zero_mul]

theorem cech_isCycleAt (hS : SSOK rnd E ρ) {n deg k : ℕ} {D : Mat} (hD : E.nerveDiff[n]? = some D)
    (hn : n + 1 < E.columns.length) (hk : k < E.spx n) (hdeg : deg ≤ E.rows)
    {c : ℕ → ℕ → ZMod E.p} {r : α} (hc : ∀ l < E.spx (n + 1), E.IsCycleAt ρ (n + 1) l deg (c l) r)
    {z : ℕ → ZMod E.p} (hz : ∀ j, j < (E.G n k deg).length → z j =
      ∑ l ∈ range (E.spx (n + 1)), ∑ i ∈ range (E.G (n + 1) l deg).length,
        cechCoef E D n deg k l j i * c l i) (hz0 : ∀ j, (E.G n k deg).length ≤ j → z j = 0) :
    E.IsCycleAt ρ n k deg z r := by
  obtain ⟨o, pts, ho, hpts, hP⟩ := hS.piece n (by omega) k hk
  refine ⟨⟨o, ho, ?_⟩, ?_⟩
  · cases deg with
    | zero => rfl
    | succ deg =>
      funext j
      rw [bdry_piece hS (by omega) hk (by omega) ho]
      split
      · next hj =>
        have key := cech_vert hS hD hn (by omega) hk hj c
        rw [Finset.sum_congr rfl fun a ha => by rw [hz a (mem_range.1 ha)]]
        rw [Finset.sum_eq_zero, zero_add] at key
        · exact key
        · intro l hl
          refine Finset.sum_eq_zero fun i hi => ?_
          obtain ⟨⟨o', ho', hb⟩, -⟩ := hc l (mem_range.1 hl)
          have := congrFun hb i
          rw [bdry_piece hS hn (mem_range.1 hl) (by omega) ho', if_pos (mem_range.1 hi)] at this
          rw [this]; simp
      · rfl
  · intro j hj
    have hjl : j < (E.G n k deg).length := by
      by_contra hc'; exact hj (hz0 j (by omega))
    rw [hz j hjl] at hj
    obtain ⟨l, hl, h1⟩ := Finset.exists_ne_zero_of_sum_ne_zero hj
    obtain ⟨i, hi, h2⟩ := Finset.exists_ne_zero_of_sum_ne_zero h1
    have hci : c l i ≠ 0 := fun h => h2 (by rw [h, mul_zero])
    obtain ⟨s, hs, hsr⟩ := (hc l (mem_range.1 hl)).2 i hci
    refine ⟨s, ?_, hsr⟩
    by_contra hne
    apply h2
    unfold cechCoef
    rw [if_neg, zero_mul]
    rw [hs]; exact hne

end Permaviss
