import Verif.Lemmas.ZigZagGlobal
import Verif.Props.Cech

/-!
# `first_differential`
-/

namespace Permaviss

open Finset

attribute [-instance] instMulZeroClassOfSemiring

section

variable {α : Type} [LinearOrder α] [Zero α] {rnd : α → α} {E : SSEnv α} {ρ : List ℕ → α}

theorem cechOf_eq (h : SSOK rnd E ρ) {n deg k l : ℕ} (D : Mat) (hn : n + 1 < E.columns.length)
    (hl : l < E.spx (n + 1)) (c : ℕ → ZMod E.p) {j : ℕ} (hj : j < (E.G n k deg).length) :
    E.cechOf D n deg k l c j =
      ∑ i ∈ range (E.G (n + 1) l deg).length, cechCoef E D n deg k l j i * c i := by
  have e : ∀ i ∈ range (E.G (n + 1) l deg).length, cechCoef E D n deg k l j i * c i =
      if some (E.G n k deg)[j] = (E.G (n + 1) l deg)[i]? then D.z E.p k l * (-1) ^ deg * c i else 0 := by
    intro i _
    unfold cechCoef
    rw [List.getElem?_eq_getElem hj]
    split <;> simp
  rw [Finset.sum_congr rfl e, sum_pos (h.G_nodup (by omega) hl deg) _ _
    (D.z E.p k l * (-1) ^ deg * c ((E.G (n + 1) l deg).idxOf (E.G n k deg)[j]))]
  · unfold SSEnv.cechOf
    rw [List.getElem?_eq_getElem hj]
    dsimp only
    split
    · ring
    · rfl
  · intro hm i hi
    obtain ⟨hi', hie⟩ := List.getElem?_eq_some_iff.1 hi
    rw [← hie, List.Nodup.idxOf_getElem (h.G_nodup (by omega) hl deg)]

theorem cechOf_of_le {n deg k l : ℕ} (D : Mat) (c : ℕ → ZMod E.p) {j : ℕ}
    (hj : (E.G n k deg).length ≤ j) : E.cechOf D n deg k l c j = 0 := by
  unfold SSEnv.cechOf
  rw [List.getElem?_eq_none hj]

/-- The representatives of the first page are cycles at their births. -/
theorem SSOK.rep_cycle (h : SSOK rnd E ρ) {n deg : ℕ} (hn : n < E.columns.length)
    (hdeg : deg < E.rows) {l a : ℕ} (hl : l < E.spx n) {hom : Basis α}
    (hh : E.hom0 n l deg = .ok hom) {b : α × α} (hb : hom.barcode[a]? = some b) :
    E.IsCycleAt ρ n l deg (hom.chain E.p a) b.1 ∧ b.1 < b.2 ∧ b.2 ≤ E.maxR := by
  obtain ⟨o, pts, v, im, hom', L⟩ := h.liftData hn hl hdeg.le
  have : hom' = hom := by have := L.hom0; rw [hh] at this; exact (Except.ok.inj this).symm
  subst this
  obtain ⟨c1, c2, -⟩ := C21_representatives_are_cycles h.prime rnd L.ok.filt o.ph L.ok.run deg hom'
    L.hom_get a b hb
  have := (C26_barcodes_well_formed h.prime rnd L.ok.filt o.ph L.ok.run deg hom' L.hom_get).1 b
    (List.mem_of_getElem? hb)
  exact ⟨(L.isCycleAt_iff hdeg.le _ _).2 ⟨c2, c1⟩, this⟩

theorem isCycleAt_zero (h : SSOK rnd E ρ) {n deg l : ℕ} (hn : n < E.columns.length)
    (hl : l < E.spx n) (r : α) : E.IsCycleAt ρ n l deg 0 r := by
  obtain ⟨o, pts, ho, -⟩ := h.piece n hn l hl
  exact ⟨⟨o, ho, map_zero _⟩, fun i hi => absurd rfl hi⟩

theorem SSOK.pageOne_empty (h : SSOK rnd E ρ) {n deg : ℕ} (hn : n < E.columns.length)
    (h0 : E.spx n = 0) : E.pageOne deg n = 0 := by
  obtain ⟨c, hc, hlen, hcol⟩ := h.column n hn
  have hnil : c.outs = [] := List.length_eq_zero_iff.1 (by rw [hlen, h0])
  unfold addOutputFirst at hcol
  rw [if_pos hnil] at hcol
  have := Except.ok.inj hcol
  unfold SSEnv.pageOne
  rw [hc, ← this]
  dsimp only
  rw [List.getD_eq_getElem?_getD, List.getElem?_replicate]
  split <;> rfl

theorem SSOK.pageOne_eq (h : SSOK rnd E ρ) {n deg : ℕ} (hn : n < E.columns.length)
    (hdeg : deg < E.rows) : E.pageOne deg n = E.classStart n deg (E.spx n) := by
  by_cases h0 : E.spx n = 0
  · rw [h.pageOne_empty hn h0, h0]; rfl
  · exact (h.firstPage hn (by omega) hdeg).2.1

theorem cechOf_cycle (h : SSOK rnd E ρ) {n deg k l : ℕ} {D : Mat} (hD : E.nerveDiff[n]? = some D)
    (hn : n + 1 < E.columns.length) (hk : k < E.spx n) (hl : l < E.spx (n + 1)) (hdeg : deg ≤ E.rows)
    {c : ℕ → ZMod E.p} {r : α} (hc : E.IsCycleAt ρ (n + 1) l deg c r) :
    E.IsCycleAt ρ n k deg (E.cechOf D n deg k l c) r := by
  refine cech_isCycleAt h hD hn hk hdeg (c := fun l' => if l' = l then c else 0) (r := r) ?_ ?_ ?_
  · intro l' hl'
    split
    · next he => subst he; exact hc
    · exact isCycleAt_zero h hn hl' r
  · intro j hj
    rw [cechOf_eq h D hn hl c hj]
    symm
    rw [Finset.sum_eq_single l]
    · rw [if_pos rfl]
    · intro l' _ hne
      refine Finset.sum_eq_zero fun i _ => ?_
      rw [if_neg hne]; simp
    · intro hc'; exact absurd (mem_range.2 hl) hc'
  · intro j hj; exact cechOf_of_le D c hj

/-- The columns of `first_differential`. -/
theorem firstDifferential_spec (h : SSOK rnd E ρ) {n deg : ℕ} {D : Mat}
    (hD : E.nerveDiff[n]? = some D) (hn : n + 1 < E.columns.length) (hdeg : deg < E.rows) :
    ∃ M, firstDifferential E n deg = .ok M ∧ M.ncols = E.pageOne deg (n + 1) ∧
      (0 < M.ncols → M.nrows = E.pageOne deg n) ∧ M.WellShaped ∧ M.Reduced E.p ∧
      (∀ l < E.spx (n + 1), ∀ hom, E.hom0 (n + 1) l deg = .ok hom → ∀ (a : ℕ) (b : α × α),
        hom.barcode[a]? = some b → ∀ k < E.spx n,
        ∃ w, E.ZigZag ρ n deg k (E.cechOf D n deg k l (hom.chain E.p a)) b.1 w
          fun c => M.z E.p (E.classStart n deg k + c) (E.classStart (n + 1) deg l + a)) ∧
      ∀ (s t : ℕ) (b b' : α × α), (E.firstBars deg (n + 1))[s]? = some b →
        (E.firstBars deg n)[t]? = some b' → b'.2 ≤ b.1 → M.z E.p t s = 0 := by
  have hdim : ∀ l < E.spx (n + 1), ∀ hom, E.hom0 (n + 1) l deg = .ok hom →
      hom.barcode.length = hom.dim ∧ E.classes (n + 1) deg l = hom.dim := by
    intro l hl hom hh
    obtain ⟨o, pts, v, im, hom', L⟩ := h.liftData hn hl hdeg.le
    have : hom' = hom := by have := L.hom0; rw [hh] at this; exact (Except.ok.inj this).symm
    subst this
    exact ⟨L.hom_ok.bars, L.classes_eq⟩
  by_cases h0 : E.pageOne deg (n + 1) = 0
  · refine ⟨⟨0, []⟩, ?_, by rw [h0]; rfl, by simp [Mat.ncols], by simp [Mat.WellShaped],
      by simp [Mat.Reduced], ?_, ?_⟩
    · unfold firstDifferential; rw [if_pos h0]
    · intro l hl hom hh a b hb
      have ha := (List.getElem?_eq_some_iff.1 hb).1
      obtain ⟨d1, d2⟩ := hdim l hl hom hh
      have := classStart_mono (E := E) (n + 1) deg (Nat.succ_le_of_lt hl)
      rw [Nat.succ_eq_add_one, classStart_succ] at this
      rw [h.pageOne_eq hn hdeg] at h0
      omega
    · intro s t b b' _ _ _; simp [Mat.z, Mat.get]
  have hpos : 0 < E.spx (n + 1) := by
    rw [h.pageOne_eq hn hdeg] at h0
    by_contra hc
    exact h0 (by rw [show E.spx (n + 1) = 0 by omega]; rfl)
  obtain ⟨C, c1, c2, c3, c4⟩ := generatorChains_spec h hn hpos hdeg
  have hlen := h.firstBars_length hn hpos hdeg
  -- the generators
  have hgen : ∀ (g : ℕ) (r : α), ((E.firstBars deg (n + 1)).map Prod.fst)[g]? = some r →
      ∃ l < E.spx (n + 1), ∃ hom a b, E.hom0 (n + 1) l deg = .ok hom ∧ hom.barcode[a]? = some b ∧
        g = E.classStart (n + 1) deg l + a ∧ r = b.1 := by
    intro g r hg
    rw [List.getElem?_map] at hg
    obtain ⟨b, hb, rfl⟩ := Option.map_eq_some_iff.1 hg
    have hgl := (List.getElem?_eq_some_iff.1 hb).1
    rw [hlen] at hgl
    obtain ⟨l, hl, a, ha, rfl⟩ := class_index _ _ _ _ hgl
    obtain ⟨o, pts, v, im, hom, L⟩ := h.liftData hn hl hdeg.le
    rw [L.classes_eq] at ha
    rw [h.firstBars_get hn hdeg hl L.hom0 ha] at hb
    exact ⟨l, hl, hom, a, b, L.hom0, hb, rfl, rfl⟩
  have hcyc : ∀ (g : ℕ) (r : α), ((E.firstBars deg (n + 1)).map Prod.fst)[g]? = some r →
      ∀ k < E.spx (n + 1), E.IsCycleAt ρ (n + 1) k deg (fun j => (C.val k g j : ZMod E.p)) r := by
    intro g r hg k hk
    obtain ⟨l, hl, hom, a, b, hh, hb, rfl, rfl⟩ := hgen g r hg
    have ha : a < hom.dim := by
      rw [← (hdim l hl hom hh).1]; exact (List.getElem?_eq_some_iff.1 hb).1
    rw [c4 l hl hom hh a ha k hk]
    split
    · next he => subst he; exact (h.rep_cycle hn hdeg hl hh hb).1
    · exact isCycleAt_zero h hn hk _
  have hR : ∀ r ∈ (E.firstBars deg (n + 1)).map Prod.fst, r < E.maxR := by
    intro r hr
    obtain ⟨g, hg⟩ := List.mem_iff_getElem?.1 hr
    obtain ⟨l, hl, hom, a, b, hh, hb, -, rfl⟩ := hgen g r hg
    have := (h.rep_cycle hn hdeg hl hh hb).2
    exact this.1.trans_le this.2
  obtain ⟨C', B, lift, s1, s2, s3, s4, -, -, -, s8, s9⟩ := cechDiffAndLift_spec h hD hn hpos hdeg c2 hR
    (by rw [List.length_map, hlen]; exact c3) hcyc
  obtain ⟨C'', t1, t2, -, -, t5⟩ := cechDiff_spec h hD hn hpos hdeg.le c2
  rw [s1] at t1
  obtain rfl := Except.ok.inj t1
  refine ⟨⟨E.pageOne deg n, B⟩, ?_, ?_, fun _ => rfl, ?_, ?_, ?_, ?_⟩
  · unfold firstDifferential
    rw [if_neg h0, c1]
    simp only [bind, Except.bind, s2]
    rfl
  · change B.length = _
    rw [s3, List.length_map, hlen, h.pageOne_eq hn hdeg]
  · intro c hc
    rw [(s4 c hc).1]
    exact (h.pageOne_eq (by omega) hdeg).symm
  · exact fun c hc => (s4 c hc).2
  · intro l hl hom hh a b hb k hk
    have ha : a < hom.dim := by
      rw [← (hdim l hl hom hh).1]; exact (List.getElem?_eq_some_iff.1 hb).1
    have hg : ((E.firstBars deg (n + 1)).map Prod.fst)[E.classStart (n + 1) deg l + a]? = some b.1 := by
      rw [List.getElem?_map, h.firstBars_get hn hdeg hl hh ha, hb]; rfl
    have hz : (fun j => (C'.val k (E.classStart (n + 1) deg l + a) j : ZMod E.p)) =
        E.cechOf D n deg k l (hom.chain E.p a) := by
      funext j
      rcases Nat.lt_or_ge j (E.G n k deg).length with hj | hj
      · rw [t5 k hk _ j hj, cechOf_eq h D hn hl _ hj, Finset.sum_eq_single l]
        · have := c4 l hl hom hh a ha l hl
          rw [if_pos rfl] at this
          exact Finset.sum_congr rfl fun i _ => by rw [congrFun this i]
        · intro l' hl' hne
          have := c4 l hl hom hh a ha l' (mem_range.1 hl')
          rw [if_neg hne] at this
          refine Finset.sum_eq_zero fun i _ => ?_
          rw [congrFun this i]; simp
        · intro hc; exact absurd (mem_range.2 hl) hc
      · rw [cechOf_of_le _ _ hj, LChains.val_of_wf t2 (by rw [widths_length]; exact hk) (by
          rw [widths_getD E hk]; exact hj)]
        simp
    have hrc := h.rep_cycle hn hdeg hl hh hb
    by_cases hcl : 0 < E.classes n deg k
    · have := s8 k hk hcl _ _ hg
      rw [hz] at this
      exact ⟨_, this⟩
    · obtain ⟨w, β, hw⟩ := exists_zigzag h (by omega) hk hdeg (hrc.2.1.trans_le hrc.2.2)
        (cechOf_cycle h hD hn hk hl hdeg.le hrc.1)
      exact ⟨w, hw.congr fun c hc => by omega⟩
  · intro s t b b' hb hb' hbb
    have hposn : 0 < E.spx n := Nat.pos_of_ne_zero (h.spx_pos (by omega) hpos)
    have ht := (List.getElem?_eq_some_iff.1 hb').1
    rw [h.firstBars_length (by omega) hposn hdeg] at ht
    obtain ⟨k, hk, a, ha, rfl⟩ := class_index _ _ _ _ ht
    obtain ⟨o, pts, v, im, hom, L⟩ := h.liftData (n := n) (by omega) hk hdeg.le
    rw [L.classes_eq] at ha
    rw [h.firstBars_get (by omega) hdeg hk L.hom0 ha] at hb'
    exact s9 k hk s b.1 (by rw [List.getElem?_map, hb]; rfl) hom L.hom0 a b' hb' hbb

end

end Permaviss
