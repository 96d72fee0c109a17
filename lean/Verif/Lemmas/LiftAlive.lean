import Verif.Lemmas.Lift
import Verif.Lemmas.GaussFirst

/-!
# `first_page_local_lift` does not use classes which have died
-/

namespace Permaviss

open Finset

attribute [-instance] instMulZeroClassOfSemiring

variable {p : ℕ} {α : Type} [LinearOrder α] [Zero α]

/-- A class which dies is born again as a boundary, with the same chain. -/
theorem run_dead (hp : p.Prime) {rnd : α → α} {maxRad : α} {D : List Mat} {R : List (List α)}
    (F : FiltComplex p D R maxRad) {out : PHOut α}
    (h : persistentHomology rnd p (R.getD 0 []).length D R maxRad = .ok out) {e : ℕ}
    (he : e < D.length) {im hom : Basis α} (hi : out.im[e]? = some im) (hh : out.hom[e]? = some hom)
    {k : ℕ} {b : α × α} (hb : hom.barcode[k]? = some b) (hd : b.2 ≠ maxRad) :
    ∃ k' < im.dim, ∃ c, im.barcode[k']? = some c ∧ c.1 = b.2 ∧ im.chain p k' = hom.chain p k := by
  obtain ⟨P, rts, fin, levels, H, S⟩ := run_spec hp rnd F h
  obtain ⟨hom', kh, h1, h2, h3⟩ := S.hom e he.le
  rw [hh] at h1; cases h1
  obtain ⟨im', Q, ki, i1, -, i3, i4⟩ := S.im e he
  rw [hi] at i1; cases i1
  rw [h3.bars, List.getElem?_map] at hb
  obtain ⟨j, hj, rfl⟩ := Option.map_eq_some_iff.1 hb
  have hjP : j ∈ P e := by
    by_contra hc
    exact hd (by simp only [keyBar, dR, if_neg hc])
  obtain ⟨k', hk', hjk⟩ := List.getElem_of_mem (i3.mem_iff.2 hjP)
  refine ⟨k', by rw [i4.dim]; exact hk', (keyIm maxRad R P rts e j).1.1, ?_, rfl, ?_⟩
  · rw [i4.bars, List.getElem?_map, List.getElem?_eq_getElem hk', hjk]; rfl
  · obtain ⟨hk, hkj⟩ := List.getElem?_eq_some_iff.1 hj
    unfold Basis.chain
    rw [i4.cols, h3.cols, getD_map_lt hk', getD_map_lt hk, hjk, hkj]
    rfl

section

variable {rnd : α → α} {E : SSEnv α} {ρ : List ℕ → α} {n idx deg : ℕ} {o : LocalOut α}
  {pts : List ℕ} {v : ℕ → ℕ → ZMod E.p} {im hom : Basis α}

/-- The coordinates on classes which have died at the radius of a chain are zero. -/
theorem LiftData.alive (hp : E.p.Prime) (L : LiftData rnd E ρ n idx deg o pts v im hom)
    (hdeg : deg < E.rows)
    {coord : List (List Int)} {radii : List α} (hl : radii.length = coord.length)
    (hw : ∀ r ∈ coord, r.length = (E.G n idx deg).length) {γ β : Mat}
    (h : firstPageLocalLift E n deg coord radii idx = .ok (some (γ, β))) {a : ℕ} {r : α}
    (hr : radii[a]? = some r) (hrm : r < E.maxR) {k : ℕ} {b : α × α} (hb : hom.barcode[k]? = some b)
    (hbr : b.2 ≤ r) : β.z E.p k a = 0 := by
  have hk : k < hom.dim := by
    rw [← L.hom_ok.bars]; exact (List.getElem?_eq_some_iff.1 hb).1
  have hac : a < coord.length := by rw [← hl]; exact (List.getElem?_eq_some_iff.1 hr).1
  have hne : radii ≠ [] := by rintro rfl; simp at hr
  have hall : (coord.all fun r => r.length == (E.G n idx deg).length) = true := by
    rw [List.all_eq_true]; intro r hrm; rw [hw r hrm]; simp
  rw [L.eq coord radii hne (by omega), if_pos hall] at h
  have hnc : (liftMat (E.G n idx deg).length im hom coord).ncols = im.dim + hom.dim + coord.length := by
    unfold liftMat Mat.ncols
    rw [List.length_append, List.length_append, L.im_ok.len, L.hom_ok.len]
  have hA : (liftMat (E.G n idx deg).length im hom coord).WellShaped := by
    intro c hc
    unfold liftMat at hc
    rcases List.mem_append.1 hc with hc | hc
    · rcases List.mem_append.1 hc with hc | hc
      · exact L.im_ok.width c hc
      · exact L.hom_ok.width c hc
    · exact hw c hc
  have hR : (liftRad im hom radii).length = (liftMat (E.G n idx deg).length im hom coord).ncols := by
    rw [hnc]; unfold liftRad
    rw [List.length_append, List.length_append, L.im_ok.rads, L.hom_ok.rads, hl]
  cases hT : gaussColRad E.p (liftMat (E.G n idx deg).length im hom coord) (liftRad im hom radii)
    (im.dim + hom.dim) with
  | error e => rw [hT] at h; cases h
  | ok RT =>
  obtain ⟨Red, T⟩ := RT
  rw [hT] at h
  dsimp only at h
  have hβ := (Prod.mk.inj (Option.some.inj (Except.ok.inj h))).2
  obtain ⟨t1, t2⟩ := gaussColRad_shape hp hA hR (by rw [hnc]; omega) hT
  rw [hnc] at t1 t2
  have hdl : (T.cols.drop (im.dim + hom.dim)).length = coord.length := by
    rw [List.length_drop, t1]; omega
  have hget : (T.cols.drop (im.dim + hom.dim)).getD a [] = T.cols.getD (im.dim + hom.dim + a) [] := by
    rw [List.getD_eq_getElem?_getD, List.getElem?_drop, List.getD_eq_getElem?_getD]
  have eβ : β.z E.p k a = - T.z E.p (im.dim + k) (im.dim + hom.dim + a) := by
    rw [← hβ]
    unfold Mat.z Mat.get
    rw [List.map_map, getD_map_lt (by rw [hdl]; exact hac)]
    rw [List_getD_eq_getElem _ _ (by rw [hdl]; exact hac)] at hget
    simp only [Function.comp, hget]
    rw [List.getD_eq_getElem?_getD, List.getElem?_drop, List.getElem?_take_of_lt (by omega),
      ← List.getD_eq_getElem?_getD, negMod_getD, ZMod.intCast_mod]
    push_cast; rfl
  obtain ⟨k', hk', c, hc, hcb, hch⟩ := run_dead hp L.ok.filt L.ok.run (e := deg)
    (by rw [L.ok.diff_length hp.two_le]; have := L.ok.levels; omega) L.im_get L.hom_get hb
    (ne_of_lt (hbr.trans_lt hrm))
  have hz := liftMat_z L.im_ok L.hom_ok coord
  obtain ⟨r1, r2, r3⟩ := liftRad_get L.im_ok L.hom_ok radii
  obtain ⟨j, hj, hv⟩ := L.hom_ok.key k hk
  have hp1 : IsPiv (colv E.p (liftMat (E.G n idx deg).length im hom coord) (im.dim + k)) j := by
    have : colv E.p (liftMat (E.G n idx deg).length im hom coord) (im.dim + k) = v j := by
      rw [← hv]; funext i; exact (hz i).2.1 k hk
    rw [this]; exact L.piv j hj
  have hp2 : IsPiv (colv E.p (liftMat (E.G n idx deg).length im hom coord) k') j := by
    have : colv E.p (liftMat (E.G n idx deg).length im hom coord) k' = v j := by
      rw [← hv, ← hch]; funext i; exact (hz i).1 k' hk'
    rw [this]; exact L.piv j hj
  have := gaussColRad_first hp hA hR (by rw [hnc]; omega) hT (j := im.dim + hom.dim + a) (by omega)
    (by rw [hnc]; omega) (k := im.dim + k) (by omega) (k' := k') (by omega) (by
      obtain ⟨c', hc', hr'⟩ := r1 k' hk'
      rw [hc] at hc'; obtain rfl := Option.some.inj hc'
      exact ⟨_, _, hr', by rw [r3, hr], by rw [hcb]; exact hbr⟩) hp1 hp2
  rw [eβ]
  unfold Mat.z; rw [this]; simp

end

end Permaviss
