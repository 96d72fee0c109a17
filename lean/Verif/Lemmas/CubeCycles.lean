import Verif.Lemmas.CollapsePages

/-!
# The cycles which are stored with the first column of the second page
-/

namespace Permaviss

open Finset

attribute [-instance] instMulZeroClassOfSemiring

section

variable {α : Type} [LinearOrder α] [Zero α] {rnd : α → α} {E : SSEnv α} {ρ : List ℕ → α}

/-- The representatives of the second page are not changed later. -/
theorem pages_second_reps {N : ℕ} {T : SSt α} (m : ℕ) : ∀ U,
    ((List.range m).map (· + 2)).foldlM (pageHigher rnd E N) T = .ok U →
      ∀ n deg, U.reps 1 n deg = T.reps 1 n deg := by
  intro U hU n deg
  refine foldlM_ok_inv (fun V => V.reps 1 n deg = T.reps 1 n deg) ?_ hU rfl
  intro V cp V' hcp hV hI
  obtain ⟨i, -, rfl⟩ := List.mem_map.1 hcp
  rw [pageHigher_reps hV (by omega)]
  exact hI

/-- The chain of the whole complex has the coefficients of the local one. -/
theorem gl_getElem (h : SSOK rnd E ρ) {n k deg : ℕ} (hn : n < E.columns.length) (hk : k < E.spx n)
    (c : ℕ → ZMod E.p) {i : ℕ} (hi : i < (E.G n k deg).length) : E.gl n k deg c (E.G n k deg)[i] = c i := by
  rw [gl_eq, Finsupp.finset_sum_apply, Finset.sum_eq_single i]
  · rw [Finsupp.smul_apply, List_getD_eq_getElem _ _ hi, Finsupp.single_eq_same, smul_eq_mul, mul_one]
  · intro j hj hne
    have hj' := mem_range.1 hj
    rw [Finsupp.smul_apply, List_getD_eq_getElem _ _ hj', Finsupp.single_eq_of_ne, smul_zero]
    intro hc
    exact hne ((h.G_nodup hn hk deg).getElem_inj_iff.1 hc).symm
  · intro hc; exact absurd (mem_range.2 hi) hc

/-- A cycle of the whole complex whose simplices lie in a cube is a cycle of the piece. -/
theorem local_cycle (h : SSOK rnd E ρ) {N : ℕ} {D : Mat} (C : CoverOK E ρ N D) {deg : ℕ} (hdeg : deg < E.rows)
    {t : α} (ht : t < E.maxR) {k : ℕ} (hk : k < E.spx 0) {pts : List ℕ} (hpts : E.pts 0 k = .ok pts)
    {z : List ℕ →₀ ZMod E.p} (hz : z ∈ E.ZG ρ N deg t) (hin : ∀ s, z s ≠ 0 → ∀ v ∈ s, v ∈ pts) :
    ∃ w, E.PresentAt ρ 0 k deg w t ∧ E.bd 0 k deg w = 0 ∧ E.gl 0 k deg w = z := by
  have hc0 : 0 < E.columns.length := by have := C.cols; omega
  have hmem := h.mem 0 hc0 k hk pts hpts deg hdeg.le
  have hz1 : ∀ s, z s ≠ 0 → s ∈ E.G 0 k deg ∧ ρ s ≤ t := by
    intro s hs
    have hzc := hz.1
    unfold SSEnv.chG at hzc
    obtain ⟨h1, h2, h3, h4⟩ := (Finsupp.mem_supported _ _).1 hzc (Finsupp.mem_support_iff.2 hs)
    exact ⟨(hmem s).2 ⟨h1, h2, hin s hs, h4.trans_lt ht⟩, h4⟩
  have hgl : E.gl 0 k deg (fun i => z ((E.G 0 k deg).getD i [])) = z := by
    ext s
    by_cases hs : s ∈ E.G 0 k deg
    · obtain ⟨i, hi, rfl⟩ := List.getElem_of_mem hs
      rw [gl_getElem h hc0 hk _ hi, List_getD_eq_getElem _ _ hi]
    · have h0 : z s = 0 := by
        by_contra hne
        exact hs (hz1 s hne).1
      rw [h0, gl_eq, Finsupp.finset_sum_apply]
      refine Finset.sum_eq_zero fun j hj => ?_
      have hj' := mem_range.1 hj
      rw [Finsupp.smul_apply, List_getD_eq_getElem _ _ hj', Finsupp.single_eq_of_ne, smul_zero]
      rintro rfl
      exact hs (List.getElem_mem _)
  have hnil : z [] = 0 := by
    by_contra hne
    have := ((hmem []).1 (hz1 _ hne).1).1
    simp at this
  have hpres : E.PresentAt ρ 0 k deg (fun i => z ((E.G 0 k deg).getD i [])) t := by
    intro i hi
    dsimp only at hi
    have hlt : i < (E.G 0 k deg).length := by
      by_contra hge
      rw [List.getD_eq_getElem?_getD, List.getElem?_eq_none (by omega)] at hi
      exact hi hnil
    rw [List_getD_eq_getElem _ _ hlt] at hi
    exact ⟨_, List.getElem?_eq_getElem hlt, (hz1 _ hi).2⟩
  refine ⟨_, hpres, ?_, hgl⟩
  match deg, hdeg, hmem, hz1, hgl, hpres, hz with
  | 0, _, _, _, _, _, _ => rw [bd_zero]; rfl
  | deg + 1, hdeg, _, _, hgl, hpres, hz =>
    funext i
    by_contra hne
    obtain ⟨s, hs, -⟩ := (present_bd h hc0 (by omega) hk hpres).1 i hne
    have hlt := (List.getElem?_eq_some_iff.1 hs).1
    have e := gl_getElem h hc0 hk (E.bd 0 k (deg + 1) fun i => z ((E.G 0 k (deg + 1)).getD i [])) hlt
    rw [gl_bd h hc0 hk (by omega), hgl, LinearMap.mem_ker.1 hz.2, smul_zero] at e
    exact hne e.symm

/-- The sum of a family of cycles is a cycle. -/
theorem glSum_cycle (h : SSOK rnd E ρ) {N : ℕ} {D : Mat} (C : CoverOK E ρ N D) {deg : ℕ} (hdeg : deg < E.rows)
    {t : α} {w : ℕ → ℕ → ZMod E.p} (hw : ∀ k < E.spx 0, E.PresentAt ρ 0 k deg (w k) t ∧ E.bd 0 k deg (w k) = 0) :
    E.glSum deg w ∈ E.ZG ρ N deg t := by
  refine ⟨glSum_present h C hdeg.le fun k hk => (hw k hk).1, ?_⟩
  rw [SetLike.mem_coe, LinearMap.mem_ker]
  match deg, hdeg, hw with
  | 0, hdeg, hw =>
    have hc := glSum_present h C hdeg.le fun k hk => (hw k hk).1
    unfold SSEnv.chG at hc
    rw [simplicialBdry, Finsupp.linearCombination_apply]
    refine Finset.sum_eq_zero fun s hs => ?_
    obtain ⟨h1, -⟩ := (Finsupp.mem_supported _ _).1 hc hs
    beta_reduce
    rw [faceSum_vertex h1, smul_zero]
  | deg + 1, hdeg, hw =>
    rw [glSum_closed_iff h C (by omega)]
    refine (glSum_congr fun k hk => ?_).trans (map_zero (E.glSum deg))
    rw [(hw k hk).2]; rfl

/-- The first column of the second page: its representatives are cycles on the cubes, they bound in the whole
complex when their bars are over, and cycles in cubes are combinations of them up to boundaries. -/
theorem first_column_cycles (h : SSOK rnd E ρ) {N : ℕ} {D : Mat} (C : CoverOK E ρ N D) {deg : ℕ}
    (hdeg : deg < E.rows) (hround : ∀ n m, ∀ a ∈ E.firstBars deg n,
      ∀ b ∈ E.firstBars deg m, ∀ x, x = a.1 ∨ x = a.2 → ∀ y, y = b.1 ∨ y = b.2 → rnd x ≤ rnd y → x ≤ y)
    (hnn : ∀ b ∈ E.firstBars deg 0, 0 ≤ b.1) {S : SSt α} (hNp : E.noPages ≤ E.columns.length + 1) (h4 : 2 ≤ E.noPages)
    (hS : allPages rnd E E.columns.length = .ok S) :
    ∃ w : ℕ → ℕ → ℕ → ZMod E.p,
      ((S.hom 1 0 deg).basis.barcode ≠ [] → ∃ X, S.reps 1 0 deg = [X] ∧
        ∀ k < E.spx 0, ∀ g < (S.hom 1 0 deg).basis.barcode.length,
          (fun j => (X.val k g j : ZMod E.p)) = w g k) ∧
      (∀ g b, (S.hom 1 0 deg).basis.barcode[g]? = some b → 0 ≤ b.1 ∧ b.1 < b.2 ∧ b.2 ≤ E.maxR ∧
        (∀ k < E.spx 0, E.PresentAt ρ 0 k deg (w g k) b.1 ∧ E.bd 0 k deg (w g k) = 0) ∧
        ∀ t, b.2 ≤ t → t < E.maxR → E.glSum deg (w g) ∈ E.BG ρ N deg t) ∧
      ∀ t < E.maxR, ∀ k < E.spx 0, ∀ pts, E.pts 0 k = .ok pts → ∀ z ∈ E.ZG ρ N deg t,
        (∀ s, z s ≠ 0 → ∀ v ∈ s, v ∈ pts) →
        ∃ c : ℕ → ZMod E.p, (∀ g, ¬ AliveBar (S.hom 1 0 deg).basis.barcode g t → c g = 0) ∧
          z - ∑ g ∈ range (S.hom 1 0 deg).basis.barcode.length, c g • E.glSum deg (w g) ∈ E.BG ρ N deg t := by
  have := Fact.mk h.prime
  have hc1 := C.cols
  have hc0 : 0 < E.columns.length := by omega
  obtain ⟨M, hM, -⟩ := firstDifferential_spec h C.diff C.cols hdeg
  obtain ⟨T, hT, hrow⟩ := allPages_rows hS
  obtain ⟨S0, S1, r1, r2⟩ := hrow deg hdeg
  obtain ⟨Hb, I1, F⟩ := first_pos h (by omega) hdeg hround r1 hM
  have e1 : (S.hom 1 0 deg).basis = Hb := by
    rw [pages_second (E.noPages - 2) S hT (by omega), (r2 0).1]; exact F.hom
  have e2 : S.reps 1 0 deg = S1.reps 1 0 deg := by
    rw [pages_second_reps (E.noPages - 2) S hT, (r2 0).2.2]
  rw [e1, e2]
  have hdim := F.liftH.dim
  refine ⟨fun g k => E.fam 0 deg k (Hb.coords.zcol E.p g), fun hne => ?_, fun g b hb => ?_, ?_⟩
  · obtain ⟨X, x1, x2⟩ := F.reps (by rw [hdim]; exact (List.length_pos_of_ne_nil hne).ne')
    exact ⟨X, x1, fun k hk g hg => x2.val k hk g (by omega)⟩
  · have hm := List.mem_of_getElem? hb
    have h0 : 0 ≤ b.1 := by
      by_contra hneg
      have hz : Hb.coords.zcol E.p g = 0 := by
        funext i
        by_contra hi
        obtain ⟨b', hb', hle⟩ := F.gens.born g b hb i hi
        exact hneg ((hnn b' (List.mem_of_getElem? hb')).trans hle)
      have := F.gens.indep b.1 (Pi.single g 1)
        (fun j hj => Pi.single_eq_of_ne (by rintro rfl; exact hj ⟨b, hb, le_rfl, F.gens.wf b hm⟩) _) (by
          rw [Finset.sum_eq_zero, map_zero]
          · exact Submodule.zero_mem _
          intro i _
          by_cases hi : i = g
          · subst hi; rw [hz, smul_zero]
          · rw [Pi.single_eq_of_ne hi, zero_smul]) g
      rw [Pi.single_eq_same] at this
      exact one_ne_zero this
    refine ⟨h0, F.gens.wf b hm, F.gens.le_maxR h hc0 hdeg b hm, fun k hk => fam_cycle h hc0 hdeg (F.gens.born g b hb) hk,
      fun t hbt ht => ?_⟩
    exact whole_of_bounds h C hdeg hM ht (BornBy.mono ((F.gens.wf b hm).le.trans hbt) (F.gens.born g b hb))
      (F.gens.dead g b t hb hbt)
  · intro t ht k hk pts hpts z hz hin
    obtain ⟨u, u1, u2, rfl⟩ := local_cycle h C hdeg ht hk hpts hz hin
    obtain ⟨x, w, hx, hw⟩ := exists_fam h hc0 hdeg ht (z := fun l => if l = k then u else 0) fun l hl => by
      by_cases hlk : l = k
      · subst hlk; rw [if_pos rfl]; exact ⟨u1, u2⟩
      · rw [if_neg hlk]; exact ⟨fun i hi => absurd rfl hi, map_zero _⟩
    have hgl : E.glSum deg (fun l => if l = k then u else 0) = E.gl 0 k deg u := by
      rw [glSum_eq, Finset.sum_eq_single k]
      · rw [if_pos rfl]
      · intro l _ hl; rw [if_neg hl, map_zero]
      · intro hn; exact absurd (mem_range.2 hk) hn
    have e3 : E.glSum deg (fun k => E.bd 0 k (deg + 1) (w k)) + E.gl 0 k deg u = E.whole deg x := by
      rw [← hgl, ← glSum_add', whole_eq]
      exact glSum_congr fun l hl => (hw l hl).2
    obtain ⟨c, hc, hm⟩ := F.gens.span t (barRestr E.p (E.firstBars deg 0) t x) ⟨x, rfl⟩
    have hcomb : E.BornBy 0 deg (∑ i ∈ range Hb.barcode.length, c i • Hb.coords.zcol E.p i) t := by
      refine bornBy_comb F.gens.born (fun i hi => ?_) _
      have : AliveBar Hb.barcode i t := by by_contra hn; exact hi (hc i hn)
      obtain ⟨b, hb, hb1, -⟩ := this
      exact ⟨b, hb, hb1⟩
    rw [← map_sub] at hm
    have hwb := whole_of_bounds h C hdeg hM ht (BornBy.sub hx hcomb) hm
    refine ⟨c, hc, ?_⟩
    have e4 : ∑ g ∈ range Hb.barcode.length, c g • E.glSum deg (fun k => E.fam 0 deg k (Hb.coords.zcol E.p g)) =
        E.whole deg (∑ i ∈ range Hb.barcode.length, c i • Hb.coords.zcol E.p i) := by
      rw [map_sum]
      exact Finset.sum_congr rfl fun i _ => by rw [map_smul, whole_eq]
    rw [e4]
    have e5 : E.gl 0 k deg u - E.whole deg (∑ i ∈ range Hb.barcode.length, c i • Hb.coords.zcol E.p i) =
        E.whole deg (x - ∑ i ∈ range Hb.barcode.length, c i • Hb.coords.zcol E.p i) -
          E.glSum deg (fun k => E.bd 0 k (deg + 1) (w k)) := by
      rw [map_sub, ← e3]; abel
    rw [e5]
    exact Submodule.sub_mem _ hwb (glSum_bd_mem h C hdeg fun l hl => (hw l hl).1)

end

end Permaviss
