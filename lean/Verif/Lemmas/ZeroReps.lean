import Verif.Lemmas.LastReps
import Verif.Lemmas.CollapsePages
import Verif.Lemmas.CubeCycles

/-!
# The chains which are stored with the first column: degree zero, and diagonals with one entry
-/

namespace Permaviss

open Finset

attribute [-instance] instMulZeroClassOfSemiring

section

variable {α : Type} [LinearOrder α] [Zero α] {rnd : α → α} {E : SSEnv α} {ρ : List ℕ → α}

/-- Classes of the first column in degree zero which span the homology of the row, in the whole complex. -/
theorem zero_resolves (h : SSOK rnd E ρ) {N : ℕ} {D M : Mat} (C : CoverOK E ρ N D) (hrow : 0 < E.rows)
    (hM : firstDifferential E 0 0 = .ok M) {bars : List (α × α)} {x : ℕ → ℕ → ZMod E.p}
    (X : Gens E 0 0 bars x (barModule E.p (E.firstBars 0 0))
      (imAt E.p (E.firstBars 0 1) (E.firstBars 0 0) M)) (hF : Fact E.p.Prime)
    {BD : ℕ → ℕ → ZMod E.p} (hBD : ∀ i j, BD i j = 0) :
    Resolves bars E.maxR BD (E.ZG ρ N 0) (E.BG ρ N 0) fun i => E.whole 0 (x i) := by
  have hc0 : 0 < E.columns.length := by have := C.cols; omega
  have hborn : ∀ j b, bars[j]? = some b → E.whole 0 (x j) ∈ E.ZG ρ N 0 b.1 := by
    intro j b hb
    rw [whole_eq]
    exact glSum_cycle h C hrow fun k hk => fam_cycle h hc0 hrow (X.born j b hb) hk
  have hsum : ∀ a : ℕ → ZMod E.p, ∑ i ∈ range bars.length, a i • E.whole 0 (x i) =
      E.whole 0 (∑ i ∈ range bars.length, a i • x i) := by
    intro a
    rw [map_sum]
    exact Finset.sum_congr rfl fun i _ => (map_smul _ _ _).symm
  have hcomb : ∀ t (a : ℕ → ZMod E.p), (∀ i, ¬ AliveBar bars i t → a i = 0) →
      E.BornBy 0 0 (∑ i ∈ range bars.length, a i • x i) t := by
    intro t a ha
    refine bornBy_comb X.born (fun i hi => ?_) _
    have : AliveBar bars i t := by by_contra hn; exact hi (ha i hn)
    obtain ⟨b, hb, hb1, -⟩ := this
    exact ⟨b, hb, hb1⟩
  refine ⟨fun s t hst => inf_le_inf_right _ (chG_mono hst), fun s t hst => Submodule.map_mono (chG_mono hst),
    hborn, fun t ht a hb ha => ?_, fun t ht => ?_, fun j b hb hR => ?_⟩
  · rw [hsum] at hb
    refine X.indep t a ha (bounds_of_whole h C hrow hM ht (fun e _ _ l hl => ?_) (hcomb t a ha) hb)
    rw [bd_zero]; rfl
  · apply le_antisymm
    · intro z hz
      obtain ⟨_, ⟨y, rfl⟩, hzy⟩ := exists_whole h C hrow ht hz.1
      obtain ⟨a, ha, hm⟩ := X.span t (barRestr E.p (E.firstBars 0 0) t y) ⟨y, rfl⟩
      have hy : E.BornBy 0 0 (barRestr E.p (E.firstBars 0 0) t y) t := by
        intro i hi
        by_contra hn
        refine hi (restr_apply_neg ?_)
        rintro ⟨c, hc1, hc2, -⟩
        exact hn ⟨c, hc1, hc2⟩
      have hm' : barRestr E.p (E.firstBars 0 0) t (barRestr E.p (E.firstBars 0 0) t y -
          ∑ i ∈ range bars.length, a i • x i) ∈ imAt E.p (E.firstBars 0 1) (E.firstBars 0 0) M t := by
        rw [map_sub, show barRestr E.p (E.firstBars 0 0) t (barRestr E.p (E.firstBars 0 0) t y) =
          barRestr E.p (E.firstBars 0 0) t y from restr_restr _]
        exact hm
      have hw := whole_of_bounds h C hrow hM ht (BornBy.sub hy (hcomb t a ha)) hm'
      rw [map_sub, ← hsum] at hw
      have e1 : z = ∑ i ∈ range bars.length, a i • E.whole 0 (x i) +
          ((E.whole 0 (barRestr E.p (E.firstBars 0 0) t y) - ∑ i ∈ range bars.length, a i • E.whole 0 (x i)) -
          (E.whole 0 (barRestr E.p (E.firstBars 0 0) t y) - z)) := by abel
      rw [e1]
      refine Submodule.add_mem_sup (Submodule.sum_mem _ fun i _ => ?_) (Submodule.sub_mem _ hw hzy)
      by_cases h0 : a i = 0
      · rw [h0, zero_smul]; exact Submodule.zero_mem _
      · refine Submodule.smul_mem _ _ (Submodule.subset_span ⟨i, ?_, rfl⟩)
        by_contra hn
        exact h0 (ha i hn)
    · refine sup_le (Submodule.span_le.2 ?_) ?_
      · rintro _ ⟨j, ⟨b, hb, hb1, -⟩, rfl⟩
        exact inf_le_inf_right _ (chG_mono hb1) (hborn j b hb)
      · intro z hz
        obtain ⟨w, hw, rfl⟩ := mem_BG h C hrow ht hz
        exact glSum_cycle h C hrow fun k hk => present_bd h hc0 hrow hk (hw k hk)
  · rw [Finset.sum_eq_zero fun i _ => by rw [hBD, zero_smul], sub_zero]
    exact whole_of_bounds h C hrow hM hR
      (BornBy.mono (X.wf b (List.mem_of_getElem? hb)).le (X.born j b hb)) (X.dead j b b.2 hb le_rfl)

/-- The chains `X` which are stored with the first column of page `pg + 1` in degree `e`: their sums over the pieces
resolve the homology of the whole complex. -/
structure ColumnCycles (E : SSEnv α) (ρ : List ℕ → α) (N : ℕ) (S : SSt α) (pg e : ℕ) (X : LChains)
    [Fact E.p.Prime] : Prop where
  reps : (S.hom pg 0 e).basis.barcode ≠ [] → S.reps pg 0 e = [X]
  wf : ∀ b ∈ (S.hom pg 0 e).basis.barcode, b.1 < b.2 ∧ b.2 ≤ E.maxR
  res : ∃ BD, Resolves (S.hom pg 0 e).basis.barcode E.maxR BD (E.ZG ρ N e) (E.BG ρ N e) fun j => E.valSum e X j

theorem columnCycles_of [Fact E.p.Prime] {N pg e : ℕ} {S : SSt α} {Q : Basis α} {x : ℕ → ℕ → ZMod E.p}
    {BD : ℕ → ℕ → ZMod E.p} (q1 : (S.hom pg 0 e).basis.barcode = Q.barcode) (dQ : Q.dim = Q.barcode.length)
    (hX : Q.dim ≠ 0 → ∃ X, S.reps pg 0 e = [X] ∧ ChainIs E 0 e Q.dim (fun k i => E.fam 0 e k (x i)) X)
    (hwf : ∀ b ∈ Q.barcode, b.1 < b.2 ∧ b.2 ≤ E.maxR)
    (hR : Resolves Q.barcode E.maxR BD (E.ZG ρ N e) (E.BG ρ N e) fun i => E.whole e (x i)) :
    ∃ X, ColumnCycles E ρ N S pg e X := by
  by_cases hq : Q.barcode = []
  · refine ⟨[], fun hc => absurd (q1.trans hq) hc, by rw [q1]; exact hwf, BD, ?_⟩
    rw [q1]
    exact hR.congr fun j hj => by rw [hq] at hj; cases hj
  · obtain ⟨X, x1, x2⟩ := hX (by rw [dQ]; exact fun hc => hq (List.length_eq_zero_iff.1 hc))
    refine ⟨X, fun _ => x1, by rw [q1]; exact hwf, BD, ?_⟩
    rw [q1]
    refine hR.congr fun j hj => ?_
    rw [whole_eq]
    exact glSum_congr fun k hk => (x2.val k hk j (dQ ▸ hj)).symm

/-- Degree zero, on all pages from the second one. -/
theorem component_cycles (h : SSOK rnd E ρ) {N : ℕ} {D : Mat} (C : CoverOK E ρ N D) (hrow : 0 < E.rows)
    (hround : ∀ n m, ∀ a ∈ E.firstBars 0 n,
      ∀ b ∈ E.firstBars 0 m, ∀ x, x = a.1 ∨ x = a.2 → ∀ y, y = b.1 ∨ y = b.2 → rnd x ≤ rnd y → x ≤ y)
    {S : SSt α} (hNp : E.noPages ≤ E.columns.length + 1) (h2 : 2 ≤ E.noPages)
    (hS : allPages rnd E E.columns.length = .ok S) :
    have := Fact.mk h.prime
    ∃ X, ColumnCycles E ρ N S (E.noPages - 1) 0 X := by
  intro hF
  have hc1 := C.cols
  obtain ⟨M, hM, -⟩ := firstDifferential_spec h C.diff C.cols hrow
  obtain ⟨T, hT, hrows⟩ := allPages_rows hS
  obtain ⟨S0, S1, r1, r2⟩ := hrows 0 hrow
  obtain ⟨H, I, F⟩ := first_pos h (by omega) hrow hround r1 hM
  have hH : (T.hom 1 0 0).basis = H := by rw [(r2 _).1]; exact F.hom
  obtain ⟨k1, k2, k3, -⟩ := pages_kept (n := 0) (deg := 0) (k0 := 1) le_rfl (by omega) (by omega) hrow
    (by omega) hH F.liftH.dim F.gens.wf F.srt F.flat (E.noPages - 2) S hT (by omega)
  have hlast : 1 + (E.noPages - 2) = E.noPages - 1 := by omega
  rw [hlast] at k1 k3
  refine columnCycles_of (Q := H) (x := H.coords.zcol E.p) ?_ F.liftH.dim (fun h0 => ?_)
    (fun b hb => ⟨F.gens.wf b hb, F.gens.le_maxR h (by omega) hrow b hb⟩)
    (zero_resolves h C hrow hM F.gens hF (BD := fun _ _ => 0) fun _ _ => rfl)
  · by_cases hc : E.noPages = 2
    · rw [hc]
      change (S.hom 1 0 0).basis.barcode = _
      rw [(k2 1 le_rfl 0 0 (by omega)).1, hH]
    · exact (k1 (E.noPages - 1) (by omega) le_rfl).bars
  · refine k3 _ (stable_one _) h0 ?_
    rw [(r2 _).2.2]
    exact F.reps h0

/-- Degree `e + 1` on the second page, when the first entry is the only one on its diagonal and the next diagonal
is zero from the third column on. -/
theorem collapse_cycles (h : SSOK rnd E ρ) {N N' : ℕ} {Sx : ℕ → List (List ℕ)} {adj : ℕ → ℕ → Prop} {D : Mat}
    (C : CoverOK E ρ N D) (H : NerveOK E N' Sx adj) {e : ℕ} (he : e + 1 < E.rows)
    (hNp : E.noPages ≤ E.columns.length + 1) (h4 : 2 ≤ E.noPages)
    (hround : ∀ i < E.rows, ∀ n m, ∀ a ∈ E.firstBars i n,
      ∀ b ∈ E.firstBars i m, ∀ x, x = a.1 ∨ x = a.2 → ∀ y, y = b.1 ∨ y = b.2 → rnd x ≤ rnd y → x ≤ y)
    {S : SSt α} (hS : allPages rnd E E.columns.length = .ok S)
    (hz : ∀ n deg, n < E.columns.length → Collapsing e n deg → (S.hom 1 n deg).basis.barcode = []) :
    have := Fact.mk h.prime
    ∃ X, ColumnCycles E ρ N S 1 (e + 1) X := by
  intro hF
  have hc1 := C.cols
  obtain ⟨M, hM, -⟩ := firstDifferential_spec h C.diff C.cols he
  have hpage : ∀ n deg, n < E.columns.length → Collapsing e n deg →
      ∀ t < E.maxR, E.ColAcyclic ρ (n - 1) deg t := by
    intro n deg hn hc t ht
    have hdeg : deg < E.rows := by unfold Collapsing at hc; omega
    have hn1 : 1 ≤ n := by unfold Collapsing at hc; omega
    obtain ⟨base, diffs, R⟩ := row_input h (by omega) hdeg (hround deg hdeg)
    obtain ⟨hH, -⟩ := second_page_all h (by omega) hNp hS hdeg (hround deg hdeg) R hn
    obtain ⟨m, rfl⟩ : ∃ m, n = m + 1 := ⟨n - 1, by omega⟩
    exact colAcyclic_of_empty h hdeg hn R hH (hz _ deg hn hc) ht
  obtain ⟨T, hT, hrow⟩ := allPages_rows hS
  obtain ⟨S0, S1, r1, r2⟩ := hrow (e + 1) he
  obtain ⟨Hb, I1, F⟩ := first_pos h (by omega) he (hround (e + 1) he) r1 hM
  have e1 : (S.hom 1 0 (e + 1)).basis = Hb := by
    rw [pages_second (E.noPages - 2) S hT (by omega), (r2 0).1]; exact F.hom
  have e2 : S.reps 1 0 (e + 1) = S1.reps 1 0 (e + 1) := by
    rw [pages_second_reps (E.noPages - 2) S hT, (r2 0).2.2]
  refine columnCycles_of (Q := Hb) (x := Hb.coords.zcol E.p) (by rw [e1]) F.liftH.dim (fun h0 => ?_)
    (fun b hb => ⟨F.gens.wf b hb, F.gens.le_maxR h (by omega) he b hb⟩)
    (collapse_resolves h C H he hM
      (fun t ht i hi hlt => hpage (i + 1) (e - i) hlt (Or.inl ⟨by omega, by omega⟩) t ht)
      (fun t ht i hi hlt => hpage (i + 2) (e - i) hlt (Or.inr ⟨by omega, by omega⟩) t ht) F.gens hF
      (BD := fun _ _ => 0) fun _ _ => rfl)
  rw [e2]
  exact F.reps h0

end

end Permaviss
