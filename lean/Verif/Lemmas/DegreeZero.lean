import Verif.Lemmas.RowZero
import Verif.Lemmas.CoverOK

/-!
# The position `(0, 0)` of all pages
-/

namespace Permaviss

open Finset

attribute [-instance] instMulZeroClassOfSemiring

section

variable {α : Type} [LinearOrder α] [Zero α]

/-- Births are radii of simplices. -/
theorem birth_mem {p : ℕ} {D : List Mat} {R : List (List α)} {maxRad : α} (hp : p.Prime) {rnd : α → α}
    (F : FiltComplex p D R maxRad) {out : PHOut α}
    (h : persistentHomology rnd p (R.getD 0 []).length D R maxRad = .ok out)
    {e : ℕ} {B : Basis α} (hB : out.hom[e]? = some B) : ∀ b ∈ B.barcode, b.1 ∈ R.getD e [] := by
  obtain ⟨P, rts, fin, levels, H, S⟩ := run_spec hp rnd F h
  obtain ⟨keys, hk, hok⟩ := hom_spec S hB
  intro b hb
  rw [hok.bars, List.mem_map] at hb
  obtain ⟨j, hj, rfl⟩ := hb
  have := ((hk.mem j).1 hj).1
  simp only [keyBar, bR]
  exact getD_mem' this

variable {rnd : α → α} {E : SSEnv α} {ρ : List ℕ → α}

theorem SSOK.birth_radius (h : SSOK rnd E ρ) {n deg : ℕ} (hn : n < E.columns.length) (hdeg : deg < E.rows)
    {b : α × α} (hb : b ∈ E.firstBars deg n) : ∃ l < E.spx n, ∃ s ∈ E.G n l deg, b.1 = ρ s := by
  obtain ⟨t, ht⟩ := List.mem_iff_getElem?.1 hb
  obtain ⟨l, hl, hom, a, hh, ha, hba, -⟩ := h.firstBars_class hn hdeg ht
  obtain ⟨o, pts, v, im, hom', L⟩ := h.liftData hn hl hdeg.le
  obtain rfl : hom = hom' := Except.ok.inj (hh.symm.trans L.hom0)
  have := birth_mem h.prime L.ok.filt L.ok.run L.hom_get b (List.mem_of_getElem? hba)
  rw [L.ok.rad deg (hdeg.le.trans L.ok.levels)] at this
  obtain ⟨s, hs, e⟩ := List.mem_map.1 this
  refine ⟨l, hl, s, ?_, e.symm⟩
  have : E.G n l deg = o.glob pts deg := by simp only [SSEnv.G, L.piece, L.pts_eq]
  rwa [this]

/-! ## No gaps in the row of degree zero -/

/-- The sum of the coefficients of a chain. -/
noncomputable def augm (p : ℕ) : (List ℕ →₀ ZMod p) →ₗ[ZMod p] ZMod p :=
  Finsupp.linearCombination (ZMod p) fun _ => 1

theorem augm_edge {p : ℕ} {s : List ℕ} (hs : s.length = 2) : augm p (faceSum (ZMod p) s) = 0 := by
  unfold faceSum augm
  rw [if_neg (by omega), map_sum, hs]
  simp [Finset.sum_range_succ]

/-- A vertex is not a boundary. -/
theorem vertex_not_boundary (h : SSOK rnd E ρ) {n k i : ℕ} (hn : n < E.columns.length) (hk : k < E.spx n)
    (hrow : 0 < E.rows) (hi : i < (E.G n k 0).length) (w : ℕ → ZMod E.p) :
    E.bd n k 1 w + Pi.single i 1 ≠ 0 := by
  have := Fact.mk h.prime
  intro e
  have e1 := congrArg (fun x => augm E.p (E.gl n k 0 x)) e
  simp only [map_add, map_zero] at e1
  obtain ⟨o, pts, ho, hpts, -⟩ := h.piece n hn k hk
  rw [gl_single hi, show E.bd n k 1 w = E.bd n k (0 + 1) w from rfl, gl_bd h hn hk hrow, map_smul, gl_eq,
    map_sum, map_sum, Finset.sum_eq_zero, smul_zero, zero_add] at e1
  · unfold augm at e1
    rw [Finsupp.linearCombination_single, one_smul] at e1
    exact one_ne_zero e1
  · intro j hj
    have hj' := mem_range.1 hj
    have hm : (E.G n k (0 + 1)).getD j [] ∈ E.G n k (0 + 1) := getD_mem' hj'
    have hl := ((h.mem n hn k hk pts hpts (0 + 1) (by omega) _).1 hm).1
    rw [map_smul, map_smul]
    unfold simplicialBdry
    rw [Finsupp.linearCombination_single, one_smul, augm_edge hl, smul_zero]

theorem row_zero_gap (h : SSOK rnd E ρ) (hrow : 0 < E.rows) {n : ℕ} (hn : n + 1 < E.columns.length)
    (hface : ∀ l < E.spx (n + 1), ∃ k < E.spx n, ∀ pts pts',
        E.pts n k = .ok pts → E.pts (n + 1) l = .ok pts' → pts' ⊆ pts)
    (h0 : E.firstBars 0 n = []) : E.firstBars 0 (n + 1) = [] := by
  by_contra hne
  obtain ⟨b, hb⟩ := List.exists_mem_of_ne_nil _ hne
  obtain ⟨l, hl, s, hs, -⟩ := h.birth_radius hn hrow hb
  obtain ⟨k, hk, hsub⟩ := hface l hl
  obtain ⟨o, pts, ho, hpts, -⟩ := h.piece n (by omega) k hk
  obtain ⟨o', pts', ho', hpts', -⟩ := h.piece (n + 1) hn l hl
  obtain ⟨m1, m2, m3, m4⟩ := (h.mem (n + 1) hn l hl pts' hpts' 0 (by omega) s).1 hs
  have hs' : s ∈ E.G n k 0 := (h.mem n (by omega) k hk pts hpts 0 (by omega) s).2
    ⟨m1, m2, fun v hv => hsub pts pts' hpts hpts' (m3 v hv), m4⟩
  obtain ⟨i, hi, hie⟩ := List.getElem_of_mem hs'
  obtain ⟨x, w, hx, hw⟩ := exists_fam h (n := n) (deg := 0) (by omega) hrow m4
    (z := fun k' => if k' = k then Pi.single i 1 else 0) (by
      intro k' hk'
      refine ⟨?_, by rw [bd_zero]; rfl⟩
      intro j hj
      beta_reduce at hj
      split at hj
      · next e =>
        subst e
        by_cases hji : j = i
        · subst hji
          exact ⟨s, by rw [List.getElem?_eq_getElem hi, hie], le_rfl⟩
        · exact absurd (Pi.single_eq_of_ne hji _) hj
      · exact absurd rfl hj)
  have hx0 : x = 0 := by
    funext j
    by_contra hj
    obtain ⟨b, hb, -⟩ := hx j hj
    rw [h0] at hb
    simp at hb
  have := (hw k hk).2
  rw [hx0, map_zero] at this
  beta_reduce at this
  rw [if_pos rfl] at this
  exact vertex_not_boundary h (by omega) hk hrow hi _ this

/-! ## Pages above the second at `(0, 0)` -/

/-- The homology of a single persistence module. -/
theorem mph_single {p : ℕ} {D : List Mat} {B : Basis α} (hB : ∀ b ∈ B.barcode, b.1 < b.2) {out : MPH α}
    (h : modulePersistenceHomology rnd p D [B] = .ok out) :
    ∃ H, out.hom.getD 0 none = some H ∧ H.barcode.Perm B.barcode := by
  unfold modulePersistenceHomology at h
  simp only [List.length_singleton, Nat.sub_self, List.getElem?_cons_zero, List.range_zero, List.map_nil,
    List.foldlM_nil, List.replicate_one, List.set_cons_zero] at h
  rw [bind_ok] at h
  obtain ⟨st, hst, h⟩ := h
  cases hst
  unfold mphZero at h
  simp only [List.getElem?_cons_zero] at h
  split at h
  · cases h
    exact ⟨B, rfl, List.Perm.refl _⟩
  · rw [bind_ok] at h
    obtain ⟨k0, h0, h⟩ := h
    rw [bind_ok] at h
    obtain ⟨⟨k, ord⟩, h1, h⟩ := h
    dsimp only at h
    rw [bind_ok] at h
    obtain ⟨q, h2, h⟩ := h
    cases h
    unfold quotient at h2
    rw [if_pos (show (emptyBasis B).dim = 0 from rfl)] at h2
    cases h2
    refine ⟨k, rfl, ?_⟩
    have hb0 : k0.barcode = B.barcode := by
      have hfil : B.barcode.filter (fun b => decide (b.1 < b.2)) = B.barcode := by
        rw [List.filter_eq_self]; intro b hb; simpa using hB b hb
      unfold Basis.init at h0
      simp only [Bool.false_and, Bool.false_eq_true, if_false] at h0
      split at h0
      · cases h0
      · cases h0
        exact hfil
    unfold Basis.sort at h1
    split at h1
    · cases h1
    · simp only [Except.ok.injEq, Prod.mk.injEq] at h1
      rw [← h1.1]
      dsimp only
      rw [← hb0]
      exact gather_perm (sortOrder_perm rnd _)

theorem sweep_zero {cp N : ℕ} (hcp : 2 ≤ cp) (hN : 0 < N) : sweep cp N N 0 0 = [(0, 0)] := by
  obtain ⟨N, rfl⟩ : ∃ M, N = M + 1 := ⟨N - 1, by omega⟩
  unfold sweep
  rw [if_neg (by omega)]

/-- Position `(0, 0)` of all pages from the second one. -/
theorem allPages_zero {N : ℕ} (hN : 0 < N) (hNp : E.noPages ≤ N + 1) (hrow : 0 < E.rows) {S : SSt α}
    (h : allPages rnd E N = .ok S) (hlt : ∀ b ∈ (S.hom 1 0 0).basis.barcode, b.1 < b.2) :
    ∀ cp, 1 ≤ cp → cp < E.noPages ∨ cp = 1 →
      (S.hom cp 0 0).basis.barcode.Perm (S.hom 1 0 0).basis.barcode := by
  unfold allPages at h
  rw [bind_ok] at h
  obtain ⟨S1, h1, h2⟩ := h
  have hcps : ∀ cp ∈ (List.range (E.noPages - 2)).map (· + 2), 2 ≤ cp ∧ cp ≤ N := by
    intro cp hcp
    obtain ⟨i, hi, rfl⟩ := List.mem_map.1 hcp
    have := List.mem_range.1 hi
    omega
  intro cp
  induction cp with
  | zero => intro h; omega
  | succ c ih =>
    intro _ hc
    by_cases hc1 : c = 0
    · subst hc1; exact List.Perm.refl _
    have hc2 : c + 1 < E.noPages := by omega
    have ih := ih (by omega) (by omega)
    obtain ⟨T1, T2, t1, t2, t3⟩ := foldlM_ok_split h2 (i := c - 1) (x := c + 1)
      (by
        rw [List.getElem?_eq_getElem (by simp; omega)]
        simp; omega)
    obtain ⟨hfill, -, -⟩ := C50_page rnd E N (c + 1) (by omega) (by omega) T1 T2 t2 0 0 hN
    obtain ⟨s, i, out, F⟩ := hfill (by omega) hrow
    obtain ⟨S₁, diffs, r1, r2, r3⟩ := F.run
    have hs : s = (0, 0) := by rw [F.start]; simp
    have hi : i = 0 := by rw [F.index]; simp
    subst hs hi
    rw [sweep_zero (by omega) hN] at r3
    simp only [List.map_cons, List.map_nil, Nat.add_sub_cancel] at r3
    -- the entries of the other pages
    have hdrop : ∀ cp ∈ ((List.range (E.noPages - 2)).map (· + 2)).drop (c - 1 + 1), 2 ≤ cp ∧ cp ≤ N :=
      fun cp hcp => hcps cp (List.mem_of_mem_drop hcp)
    have hnot : ∀ a ≤ c + 1, a ∉ ((List.range (E.noPages - 2)).map (· + 2)).drop (c - 1 + 1) := by
      intro a ha hm
      obtain ⟨j, hj⟩ := List.mem_iff_getElem?.1 hm
      rw [List.getElem?_drop, List.getElem?_eq_some_iff] at hj
      obtain ⟨_, hj⟩ := hj
      simp at hj
      omega
    have o1 := (pageHigher_fold_old hdrop hN t3 (hnot (c + 1) le_rfl) 0 0).1
    have o2 := (pageHigher_fold_old hdrop hN t3 (hnot c (by omega)) 0 0).1
    have o3 := (C50_page rnd E N (c + 1) (by omega) (by omega) T1 T2 t2 0 0 hN).2.2 c 0 0 (by omega)
    rw [← o3.1, ← o2] at r3
    obtain ⟨H, e1, e2⟩ := mph_single (fun b hb => hlt b (ih.mem_iff.1 hb)) r3
    obtain ⟨H', e3, e4⟩ := F.hom
    rw [e1] at e3
    obtain rfl := Option.some.inj e3
    rw [o1, e4]
    exact e2.trans ih

end

end Permaviss
