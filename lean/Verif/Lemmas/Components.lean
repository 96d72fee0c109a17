import Verif.Lemmas.Families

/-!
# Classes of the first column as classes of the whole complex
-/

namespace Permaviss

open Finset

attribute [-instance] instMulZeroClassOfSemiring

section

variable {α : Type} [LinearOrder α] [Zero α] {rnd : α → α} {E : SSEnv α} {ρ : List ℕ → α}

/-- Chains of dimension `e` on the simplices present at `t`. -/
noncomputable def SSEnv.chG (E : SSEnv α) (ρ : List ℕ → α) (N e : ℕ) (t : α) :
    Submodule (ZMod E.p) (List ℕ →₀ ZMod E.p) :=
  Finsupp.supported (ZMod E.p) (ZMod E.p)
    {s | s.length = e + 1 ∧ s.Pairwise (· < ·) ∧ (∀ v ∈ s, v < N) ∧ ρ s ≤ t}

/-- The whole chain of a family of chains on the pieces of the first column. -/
noncomputable def SSEnv.glSum (E : SSEnv α) (deg : ℕ) :
    (ℕ → ℕ → ZMod E.p) →ₗ[ZMod E.p] (List ℕ →₀ ZMod E.p) :=
  ∑ k ∈ range (E.spx 0), E.gl 0 k deg ∘ₗ LinearMap.proj k

theorem glSum_eq (deg : ℕ) (c : ℕ → ℕ → ZMod E.p) :
    E.glSum deg c = ∑ k ∈ range (E.spx 0), E.gl 0 k deg (c k) := by
  unfold SSEnv.glSum
  rw [LinearMap.sum_apply]
  rfl

theorem glSum_congr {deg : ℕ} {c c' : ℕ → ℕ → ZMod E.p} (h : ∀ k < E.spx 0, c k = c' k) :
    E.glSum deg c = E.glSum deg c' := by
  rw [glSum_eq, glSum_eq]
  exact Finset.sum_congr rfl fun k hk => by rw [h k (mem_range.1 hk)]

theorem gl_present (h : SSOK rnd E ρ) {N : ℕ} {D : Mat} (C : CoverOK E ρ N D) {deg : ℕ}
    (hdeg : deg ≤ E.rows) {t : α} {k : ℕ} (hk : k < E.spx 0) {w : ℕ → ZMod E.p}
    (hw : E.PresentAt ρ 0 k deg w t) : E.gl 0 k deg w ∈ E.chG ρ N deg t := by
  rw [gl_eq]
  refine Submodule.sum_mem _ fun i hi => ?_
  by_cases h0 : w i = 0
  · rw [h0, zero_smul]; exact Submodule.zero_mem _
  obtain ⟨s, hs, hst⟩ := hw i h0
  have hs' : (E.G 0 k deg).getD i [] = s := by rw [List.getD_eq_getElem?_getD, hs]; rfl
  have hsm : s ∈ E.G 0 k deg := List.mem_of_getElem? hs
  obtain ⟨o, pts, ho, hpts, -⟩ := h.piece 0 (by have := C.cols; omega) k hk
  obtain ⟨h1, h2, -, -⟩ := (h.mem 0 (by have := C.cols; omega) k hk pts hpts deg hdeg s).1 hsm
  rw [hs']
  refine Submodule.smul_mem _ _ ?_
  exact Finsupp.single_mem_supported _ _ ⟨h1, h2, C.lt k hk deg hdeg s hsm, hst⟩

theorem glSum_present (h : SSOK rnd E ρ) {N : ℕ} {D : Mat} (C : CoverOK E ρ N D) {deg : ℕ}
    (hdeg : deg ≤ E.rows) {t : α} {c : ℕ → ℕ → ZMod E.p}
    (hc : ∀ k < E.spx 0, E.PresentAt ρ 0 k deg (c k) t) : E.glSum deg c ∈ E.chG ρ N deg t := by
  rw [glSum_eq]
  exact Submodule.sum_mem _ fun k hk => gl_present h C hdeg (mem_range.1 hk) (hc k (mem_range.1 hk))

/-- A chain of the whole complex is a sum of chains on the pieces. -/
theorem exists_local {N : ℕ} {D : Mat} (C : CoverOK E ρ N D) {deg : ℕ}
    (hdeg : deg ≤ E.rows) {t : α} (ht : t < E.maxR) {z : List ℕ →₀ ZMod E.p}
    (hz : z ∈ E.chG ρ N deg t) :
    ∃ c : ℕ → ℕ → ZMod E.p, (∀ k < E.spx 0, E.PresentAt ρ 0 k deg (c k) t) ∧ E.glSum deg c = z := by
  unfold SSEnv.chG at hz
  rw [Finsupp.supported_eq_span_single] at hz
  induction hz using Submodule.span_induction with
  | mem z hz =>
    obtain ⟨s, ⟨h1, h2, h3, h4⟩, rfl⟩ := hz
    obtain ⟨k, hk, hs⟩ := C.cover s (by omega) (by rintro rfl; simp at h1) h2 h3 (h4.trans_lt ht)
    rw [h1, Nat.add_sub_cancel] at hs
    have hlt := List.idxOf_lt_length_of_mem hs
    refine ⟨E.dl 0 deg k s, ?_, ?_⟩
    · intro k' _ i hi
      unfold SSEnv.dl at hi
      split at hi
      · next he =>
        subst he
        by_cases hi' : i = (E.G 0 k' deg).idxOf s
        · exact ⟨s, by rw [hi', List.getElem?_eq_getElem hlt, List.getElem_idxOf hlt], h4⟩
        · rw [Pi.single_eq_of_ne hi'] at hi; exact absurd rfl hi
      · exact absurd rfl hi
    · rw [glSum_eq, Finset.sum_eq_single k]
      · unfold SSEnv.dl
        rw [if_pos rfl, gl_single hlt, List.getElem_idxOf hlt]
      · intro k' _ hne
        unfold SSEnv.dl
        rw [if_neg hne, map_zero]
      · intro hn; exact absurd (mem_range.2 hk) hn
  | zero => exact ⟨0, fun k _ i hi => absurd rfl hi, map_zero _⟩
  | add x y _ _ hx hy =>
    obtain ⟨c, h1, rfl⟩ := hx
    obtain ⟨c', h1', rfl⟩ := hy
    exact ⟨c + c', fun k hk => PresentAt.add (h1 k hk) (h1' k hk), map_add _ _ _⟩
  | smul r x _ hx =>
    obtain ⟨c, h1, rfl⟩ := hx
    exact ⟨r • c, fun k hk => PresentAt.smul r (h1 k hk), map_smul _ _ _⟩

/-- The whole chain of a Čech differential is zero. -/
theorem glSum_cech (h : SSOK rnd E ρ) {N : ℕ} {D : Mat} (C : CoverOK E ρ N D) {deg : ℕ}
    (hdeg : deg ≤ E.rows) (e : ℕ → ℕ → ZMod E.p) :
    E.glSum deg (fun k => E.cechSum D 0 deg k e) = 0 := by
  rw [glSum_eq]
  have e1 : ∀ k ∈ range (E.spx 0), E.gl 0 k deg (E.cechSum D 0 deg k e) =
      ∑ l ∈ range (E.spx 1), ((-1) ^ deg * D.z E.p k l) • E.gl 1 l deg (e l) := by
    intro k hk
    unfold SSEnv.cechSum
    rw [map_sum]
    exact Finset.sum_congr rfl fun l hl => gl_cechOf h C.diff C.cols hdeg (mem_range.1 hk) (mem_range.1 hl) _
  rw [Finset.sum_congr rfl e1, Finset.sum_comm]
  refine Finset.sum_eq_zero fun l hl => ?_
  rw [← Finset.sum_smul, ← Finset.mul_sum, C.colsum l (mem_range.1 hl), mul_zero, zero_smul]

/-- The whole chain of a family of boundaries is a boundary. -/
theorem glSum_bd (h : SSOK rnd E ρ) {N : ℕ} {D : Mat} (C : CoverOK E ρ N D) {deg : ℕ}
    (hdeg : deg < E.rows) (w : ℕ → ℕ → ZMod E.p) :
    E.glSum deg (fun k => E.bd 0 k (deg + 1) (w k)) =
      bdrySign E.p deg • simplicialBdry (ZMod E.p) (E.glSum (deg + 1) w) := by
  rw [glSum_eq, glSum_eq, map_sum, Finset.smul_sum]
  exact Finset.sum_congr rfl fun k hk => gl_bd h (by have := C.cols; omega) (mem_range.1 hk) hdeg _

theorem glSum_bd_mem (h : SSOK rnd E ρ) {N : ℕ} {D : Mat} (C : CoverOK E ρ N D) {deg : ℕ}
    (hdeg : deg < E.rows) {t : α} {w : ℕ → ℕ → ZMod E.p}
    (hw : ∀ k < E.spx 0, E.PresentAt ρ 0 k (deg + 1) (w k) t) :
    E.glSum deg (fun k => E.bd 0 k (deg + 1) (w k)) ∈
      (E.chG ρ N (deg + 1) t).map (simplicialBdry (ZMod E.p)) := by
  rw [glSum_bd h C hdeg]
  exact Submodule.smul_mem _ _ (Submodule.mem_map_of_mem (glSum_present h C hdeg hw))

/-- The whole chain of a combination of classes of the first column. -/
noncomputable def SSEnv.whole (E : SSEnv α) (deg : ℕ) :
    (ℕ → ZMod E.p) →ₗ[ZMod E.p] (List ℕ →₀ ZMod E.p) :=
  E.glSum deg ∘ₗ LinearMap.pi fun k => E.fam 0 deg k

theorem whole_eq (deg : ℕ) (x : ℕ → ZMod E.p) :
    E.whole deg x = E.glSum deg fun k => E.fam 0 deg k x := rfl

/-- The classes that the first differential hits become zero in the whole complex. -/
theorem whole_of_bounds (h : SSOK rnd E ρ) {N : ℕ} {D : Mat} (C : CoverOK E ρ N D) {deg : ℕ}
    (hdeg : deg < E.rows) {M : Mat} (hM : firstDifferential E 0 deg = .ok M) {t : α} (ht : t < E.maxR)
    {x : ℕ → ZMod E.p} (hx : E.BornBy 0 deg x t)
    (hb : barRestr E.p (E.firstBars deg 0) t x ∈
      imAt E.p (E.firstBars deg 1) (E.firstBars deg 0) M t) :
    E.whole deg x ∈ (E.chG ρ N (deg + 1) t).map (simplicialBdry (ZMod E.p)) := by
  have hc0 : 0 < E.columns.length := by have := C.cols; omega
  obtain ⟨y, hy, he⟩ := hb
  have hyr : barRestr E.p (E.firstBars deg 1) t y = y := by
    obtain ⟨y', rfl⟩ := hy
    exact restr_restr _
  have hyb : E.BornBy 1 deg y t := BornBy.of_barModule hy
  obtain ⟨g1, w, hw⟩ := fam_first h C.diff C.cols hdeg hM hyb
  have hdead : barRestr E.p (E.firstBars deg 0) t (x - M.mulVecL E.p y) = 0 := by
    rw [map_sub, ← he, sub_eq_zero]
    unfold morAt
    rw [LinearMap.comp_apply, LinearMap.comp_apply, hyr]
  obtain ⟨w', hw'⟩ := dead_fam h hc0 hdeg ht (BornBy.sub hx g1) hdead
  have e : E.whole deg x = E.glSum deg (fun k => E.bd 0 k (deg + 1) (w' k)) +
      (E.glSum deg (fun k => E.bd 0 k (deg + 1) (w k)) +
        E.glSum deg (fun k => E.cechSum D 0 deg k fun l => E.fam 1 deg l y)) := by
    rw [← map_add, ← map_add, whole_eq]
    refine glSum_congr fun k hk => ?_
    change _ = E.bd 0 k (deg + 1) (w' k) + (E.bd 0 k (deg + 1) (w k) +
      E.cechSum D 0 deg k fun l => E.fam 1 deg l y)
    rw [(hw k hk).2, ← (hw' k hk).2, ← map_add, sub_add_cancel]
  rw [e, glSum_cech h C hdeg.le, add_zero]
  exact Submodule.add_mem _ (glSum_bd_mem h C hdeg fun k hk => (hw' k hk).1)
    (glSum_bd_mem h C hdeg fun k hk => (hw k hk).1)

theorem present_bd (h : SSOK rnd E ρ) {n deg : ℕ} (hn : n < E.columns.length) (hdeg : deg < E.rows)
    {k : ℕ} (hk : k < E.spx n) {w : ℕ → ZMod E.p} {t : α} (hw : E.PresentAt ρ n k (deg + 1) w t) :
    E.PresentAt ρ n k deg (E.bd n k (deg + 1) w) t ∧ E.bd n k deg (E.bd n k (deg + 1) w) = 0 := by
  obtain ⟨o, pts, v, im, hom, L⟩ := h.liftData hn hk hdeg.le
  have hlev : deg + 1 ≤ o.cpx.simplices.length := by have := L.ok.levels; omega
  rw [bd_eq L.piece, bd_eq L.piece]
  refine ⟨?_, FiltComplex.bdry_bdry L.ok.filt deg w⟩
  intro i hi
  have hd : deg < o.diff.length := by rw [L.ok.diff_length h.prime.two_le]; omega
  have e : bdry E.p o.diff (deg + 1) w = o.diff[deg].mulVecL E.p w := by
    change ((o.diff[deg]?).map (Mat.mulVecL E.p)).getD 0 w = _
    rw [List.getElem?_eq_getElem hd]; rfl
  rw [e, mulVecL_apply] at hi
  obtain ⟨j, -, hj⟩ := Finset.exists_ne_zero_of_sum_ne_zero hi
  have hz : o.diff[deg].z E.p i j ≠ 0 := fun h0 => hj (by rw [h0, zero_mul])
  have hwj : w j ≠ 0 := fun h0 => hj (by rw [h0, mul_zero])
  have := L.ok.filt.face deg _ (List.getElem?_eq_getElem hd) i j hz t
    ((L.present_iff hlev w t).1 hw j hwj)
  have hp := (L.present_iff (e := deg) (by omega) (Pi.single i 1) t).2 (by
    intro i' hi'
    by_cases he : i' = i
    · rw [he]; exact this
    · rw [Pi.single_eq_of_ne he] at hi'; exact absurd rfl hi')
  have := Fact.mk h.prime
  exact hp i (by rw [Pi.single_eq_same]; exact one_ne_zero)

theorem bdrySign_ne (p e : ℕ) : bdrySign p e * bdrySign p e = 1 := by
  unfold bdrySign; split <;> ring

/-- Only the classes that the first differential hits become zero in the whole complex, if chains on the
second column with a closed Čech differential are closed. -/
theorem bounds_of_whole (h : SSOK rnd E ρ) {N : ℕ} {D : Mat} (C : CoverOK E ρ N D) {deg : ℕ}
    (hdeg : deg < E.rows) {M : Mat} (hM : firstDifferential E 0 deg = .ok M) {t : α} (ht : t < E.maxR)
    (hcyc : ∀ e : ℕ → ℕ → ZMod E.p, (∀ l < E.spx 1, E.PresentAt ρ 1 l deg (e l) t) →
      (∀ k < E.spx 0, E.bd 0 k deg (E.cechSum D 0 deg k e) = 0) → ∀ l < E.spx 1, E.bd 1 l deg (e l) = 0)
    {x : ℕ → ZMod E.p} (hx : E.BornBy 0 deg x t)
    (hb : E.whole deg x ∈ (E.chG ρ N (deg + 1) t).map (simplicialBdry (ZMod E.p))) :
    barRestr E.p (E.firstBars deg 0) t x ∈ imAt E.p (E.firstBars deg 1) (E.firstBars deg 0) M t := by
  have hc0 : 0 < E.columns.length := by have := C.cols; omega
  obtain ⟨Y, hY, he⟩ := hb
  obtain ⟨y, hy, rfl⟩ := exists_local C hdeg ht hY
  -- the family is a Čech differential up to boundaries
  obtain ⟨e, he1, he2⟩ := cech_exact h C hdeg.le (t := t)
    (c := fun k => E.fam 0 deg k x + - E.bd 0 k (deg + 1) (bdrySign E.p deg • y k)) (by
      intro k hk
      obtain ⟨f1, -⟩ := fam_cycle h hc0 hdeg hx hk
      exact PresentAt.add f1 (PresentAt.neg (present_bd h hc0 hdeg hk (PresentAt.smul _ (hy k hk))).1))
    (by
      rw [← glSum_eq]
      have e1 : E.glSum deg (fun k => E.fam 0 deg k x + - E.bd 0 k (deg + 1) (bdrySign E.p deg • y k)) =
          E.whole deg x + - E.glSum deg (fun k => E.bd 0 k (deg + 1) (bdrySign E.p deg • y k)) := by
        rw [whole_eq, ← map_neg, ← map_add]; rfl
      rw [e1, glSum_bd h C hdeg, ← he]
      rw [show E.glSum (deg + 1) (fun k => bdrySign E.p deg • y k) = bdrySign E.p deg • E.glSum (deg + 1) y
        from map_smul (E.glSum (deg + 1)) (bdrySign E.p deg) y, map_smul, smul_smul, bdrySign_ne, one_smul, add_neg_cancel])
  -- it is closed
  have he3 : ∀ l < E.spx 1, E.bd 1 l deg (e l) = 0 := by
    refine hcyc e he1 fun k hk => ?_
    rw [← he2 k hk, map_add, map_neg, (present_bd h hc0 hdeg hk (PresentAt.smul _ (hy k hk))).2, (fam_cycle h hc0 hdeg hx hk).2, neg_zero, add_zero]
  obtain ⟨β, w, hβ, hw⟩ := exists_fam h C.cols hdeg ht fun l hl => ⟨he1 l hl, he3 l hl⟩
  obtain ⟨g1, w', hw'⟩ := fam_first h C.diff C.cols hdeg hM hβ
  have hdead : barRestr E.p (E.firstBars deg 0) t (M.mulVecL E.p β - x) = 0 := by
    refine fam_dead h hc0 hdeg ht (BornBy.sub g1 hx)
      (w := fun k => w' k + (- E.cechSum D 0 (deg + 1) k w + - (bdrySign E.p deg • y k))) fun k hk => ⟨?_, ?_⟩
    · exact PresentAt.add (hw' k hk).1 (PresentAt.add
        (PresentAt.neg (PresentAt.cechSum fun l hl => (hw l hl).1))
        (PresentAt.neg (PresentAt.smul _ (hy k hk))))
    · rw [map_sub, ← (hw' k hk).2]
      have e1 : E.cechSum D 0 deg k (fun l => E.fam 1 deg l β) =
          - E.bd 0 k (deg + 1) (E.cechSum D 0 (deg + 1) k w) + E.cechSum D 0 deg k e := by
        rw [← cechSum_bd h C.diff C.cols hdeg hk]
        have := congrFun (map_add (E.cechLin D 0 deg) (fun l => E.bd 1 l (deg + 1) (w l)) e) k
        refine Eq.trans ?_ this
        unfold SSEnv.cechLin SSEnv.cechSum
        refine Finset.sum_congr rfl fun l hl => ?_
        beta_reduce
        rw [← (hw l (mem_range.1 hl)).2]
        rfl
      rw [e1, ← he2 k hk, map_add, map_add, map_neg, map_neg]
      abel
  refine ⟨barRestr E.p (E.firstBars deg 1) t β, ⟨β, rfl⟩, ?_⟩
  unfold morAt
  rw [LinearMap.comp_apply, LinearMap.comp_apply]
  rw [show barRestr E.p (E.firstBars deg 1) t (barRestr E.p (E.firstBars deg 1) t β) =
    barRestr E.p (E.firstBars deg 1) t β from restr_restr _]
  rw [map_sub, sub_eq_zero] at hdead
  rw [← hdead]
  -- dead classes map to dead classes
  rw [← sub_eq_zero, ← map_sub, ← map_sub]
  have hM0 : E.firstBars deg 1 ≠ [] → IsMorphism E.p (E.firstBars deg 1) (E.firstBars deg 0) M := by
    intro hne
    obtain ⟨M', hM', hmor⟩ := firstDifferential_morphism (n := 0) h C.cols hdeg hne
    rw [hM] at hM'
    obtain rfl := Except.ok.inj hM'
    exact hmor
  funext i
  by_cases hS : AliveBar (E.firstBars deg 0) i t
  swap
  · exact restr_apply_neg hS
  refine (restr_apply_pos hS).trans ?_
  rw [mulVecL_apply]
  refine Finset.sum_eq_zero fun j hj => ?_
  rw [Pi.sub_apply]
  by_cases hj' : AliveBar (E.firstBars deg 1) j t
  · rw [show barRestr E.p (E.firstBars deg 1) t β j = β j from restr_apply_pos hj', sub_self, mul_zero]
  · rw [show barRestr E.p (E.firstBars deg 1) t β j = 0 from restr_apply_neg hj', zero_sub]
    by_cases hb0 : β j = 0
    · rw [hb0, neg_zero, mul_zero]
    by_cases hz : M.z E.p i j = 0
    · rw [hz, zero_mul]
    exfalso
    obtain ⟨a, ha, hat⟩ := hβ j hb0
    obtain ⟨b, hb, hb1, hb2⟩ := hS
    have hmor := hM0 (by rintro h0; rw [h0] at ha; simp at ha)
    exact hj' ⟨a, ha, hat, hb2.trans_le (hmor.death i j a b ha hb hz)⟩

end

end Permaviss
