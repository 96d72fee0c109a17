import Verif.Lemmas.D1
import Verif.Lemmas.BarsPerm

/-!
# Chains on the pieces as chains of the whole complex
-/

namespace Permaviss

open Finset

attribute [-instance] instMulZeroClassOfSemiring

section

variable {α : Type} [LinearOrder α] [Zero α] {rnd : α → α} {E : SSEnv α} {ρ : List ℕ → α}

/-- A chain on a piece as a chain on simplices of the whole complex. -/
noncomputable def SSEnv.gl (E : SSEnv α) (n k deg : ℕ) :
    (ℕ → ZMod E.p) →ₗ[ZMod E.p] (List ℕ →₀ ZMod E.p) := toChain (ZMod E.p) (E.G n k deg)

theorem gl_eq (n k deg : ℕ) (c : ℕ → ZMod E.p) : E.gl n k deg c =
    ∑ i ∈ range (E.G n k deg).length, c i • Finsupp.single ((E.G n k deg).getD i []) 1 := rfl

theorem gl_single {n k deg i : ℕ} (hi : i < (E.G n k deg).length) (x : ZMod E.p) :
    E.gl n k deg (Pi.single i x) = Finsupp.single (E.G n k deg)[i] x := by
  rw [gl_eq, Finset.sum_eq_single i]
  · rw [Pi.single_eq_same, List_getD_eq_getElem _ _ hi]; simp
  · intro j _ hj
    rw [Pi.single_eq_of_ne hj, zero_smul]
  · intro h; exact absurd (mem_range.2 hi) h

/-- The sum over the simplices of a list that are equal to a given one. -/
theorem sum_single_pos {p : ℕ} {L : List (List ℕ)} (hL : L.Nodup) {v : List ℕ} (hv : v ∈ L) (x : ZMod p) :
    ∑ j ∈ range L.length, (if L.getD j [] = v then x else 0) • Finsupp.single (L.getD j []) (1 : ZMod p) =
      x • Finsupp.single v 1 := by
  obtain ⟨i, hi, rfl⟩ := List.getElem_of_mem hv
  rw [Finset.sum_eq_single i]
  · rw [List_getD_eq_getElem _ _ hi, if_pos rfl]
  · intro j hj hne
    rw [List_getD_eq_getElem _ _ (mem_range.1 hj), if_neg, zero_smul]
    intro e
    exact hne ((List.Nodup.getElem_inj_iff hL).1 e)
  · intro h; exact absurd (mem_range.2 hi) h

/-- The boundary on a piece is the simplicial boundary, up to sign. -/
theorem gl_bd (h : SSOK rnd E ρ) {n k deg : ℕ} (hn : n < E.columns.length) (hk : k < E.spx n)
    (hdeg : deg < E.rows) (c : ℕ → ZMod E.p) :
    E.gl n k deg (E.bd n k (deg + 1) c) =
      bdrySign E.p deg • simplicialBdry (ZMod E.p) (E.gl n k (deg + 1) c) := by
  obtain ⟨o, pts, ho, hpts, -⟩ := h.piece n hn k hk
  have hmem := h.mem n hn k hk pts hpts
  rw [bd_eq ho, gl_eq, gl_eq, map_sum, Finset.smul_sum]
  have e1 : ∀ j ∈ range (E.G n k deg).length,
      (bdry E.p o.diff (deg + 1) c j) • Finsupp.single ((E.G n k deg).getD j []) (1 : ZMod E.p) =
      ∑ a ∈ range (E.G n k (deg + 1)).length, c a • (vertCoef E n k deg j a •
        Finsupp.single ((E.G n k deg).getD j []) (1 : ZMod E.p)) := by
    intro j hj
    rw [bdry_piece h hn hk hdeg ho, if_pos (mem_range.1 hj), Finset.sum_smul]
    refine Finset.sum_congr rfl fun a _ => ?_
    rw [smul_smul, mul_comm]
  rw [Finset.sum_congr rfl e1, Finset.sum_comm]
  refine Finset.sum_congr rfl fun a ha => ?_
  have ha' := mem_range.1 ha
  rw [← Finset.smul_sum, map_smul, smul_comm]
  congr 1
  set s := (E.G n k (deg + 1)).getD a [] with hs
  have hsm : s ∈ E.G n k (deg + 1) := getD_mem' ha'
  have hsl : s.length = deg + 2 := ((hmem (deg + 1) (by omega) s).1 hsm).1
  have e2 : ∀ j ∈ range (E.G n k deg).length,
      vertCoef E n k deg j a • Finsupp.single ((E.G n k deg).getD j []) (1 : ZMod E.p) =
      ∑ q ∈ range s.length, (if (E.G n k deg).getD j [] = s.eraseIdx q then
        bdrySign E.p deg * (-1) ^ q else 0) • Finsupp.single ((E.G n k deg).getD j []) (1 : ZMod E.p) := by
    intro j hj
    rw [vertCoef_eq h hn hk hdeg (mem_range.1 hj) ha']
    unfold faceCoef
    rw [Finset.sum_smul]
  rw [Finset.sum_congr rfl e2, Finset.sum_comm]
  have e3 : simplicialBdry (ZMod E.p) (Finsupp.single s 1) = faceSum (ZMod E.p) s := by
    unfold simplicialBdry
    rw [Finsupp.linearCombination_single, one_smul]
  rw [e3]
  unfold faceSum
  rw [if_neg (by omega), Finset.smul_sum]
  refine Finset.sum_congr rfl fun q hq => ?_
  rw [sum_single_pos (h.G_nodup hn hk deg) (h.G_face hn hk hsm (mem_range.1 hq)), smul_smul]

/-- The Čech differential sends a simplex to itself. -/
theorem gl_cechOf (h : SSOK rnd E ρ) {n deg : ℕ} {D : Mat} (hD : E.nerveDiff[n]? = some D)
    (hn : n + 1 < E.columns.length) (hdeg : deg ≤ E.rows) {k l : ℕ} (hk : k < E.spx n)
    (hl : l < E.spx (n + 1)) (c : ℕ → ZMod E.p) :
    E.gl n k deg (E.cechOf D n deg k l c) = ((-1) ^ deg * D.z E.p k l) • E.gl (n + 1) l deg c := by
  by_cases hz : D.z E.p k l = 0
  · rw [hz, mul_zero, zero_smul]
    have : E.cechOf D n deg k l c = 0 := by
      funext j
      unfold SSEnv.cechOf
      cases (E.G n k deg)[j]? with
      | none => rfl
      | some s => dsimp only; rw [hz]; split <;> simp
    rw [this, map_zero]
  have hz' : D.get k l ≠ 0 := by
    intro h0
    apply hz
    unfold Mat.z
    rw [h0]; simp
  have hsub := h.G_sub hD hn hk hl hz' hdeg
  have hnd := h.G_nodup (n := n) (by omega) hk deg
  have hnd' := h.G_nodup hn hl deg
  ext s
  rw [Finsupp.smul_apply, smul_eq_mul]
  unfold SSEnv.gl
  by_cases hs : s ∈ E.G (n + 1) l deg
  · obtain ⟨i, hi, rfl⟩ := List.getElem_of_mem hs
    obtain ⟨j, hj, e⟩ := List.getElem_of_mem (hsub hs)
    have r1 := toChain_apply hnd' c hi
    rw [List_getD_eq_getElem _ _ hi] at r1
    have r2 := toChain_apply hnd (E.cechOf D n deg k l c) hj
    rw [List_getD_eq_getElem _ _ hj, e] at r2
    rw [r1, r2]
    unfold SSEnv.cechOf
    rw [List.getElem?_eq_getElem hj, e]
    dsimp only
    rw [if_pos hs, List.Nodup.idxOf_getElem hnd']
  · rw [toChain_not_mem c hs, mul_zero]
    by_cases hs' : s ∈ E.G n k deg
    · obtain ⟨j, hj, rfl⟩ := List.getElem_of_mem hs'
      have r2 := toChain_apply hnd (E.cechOf D n deg k l c) hj
      rw [List_getD_eq_getElem _ _ hj] at r2
      rw [r2]
      unfold SSEnv.cechOf
      rw [List.getElem?_eq_getElem hj]
      dsimp only
      rw [if_neg hs]
    · rw [toChain_not_mem _ hs']

end

end Permaviss
