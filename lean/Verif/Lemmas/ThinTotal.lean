import Verif.Lemmas.ThinExt
import Verif.Lemmas.ThinPages
import Verif.Lemmas.StripDiag
import Verif.Lemmas.StripLine

/-!
# With two columns, the diagonals are computed
-/

namespace Permaviss

open Finset

attribute [-instance] instMulZeroClassOfSemiring

section

variable {α : Type} [LinearOrder α]

/-- The dimension of a persistence module at a radius is the number of bars. -/
theorem finrank_barModule (p : ℕ) [Fact p.Prime] (bars : List (α × α)) (t : α) :
    Module.finrank (ZMod p) (barModule p bars t) = barsThrough bars t t := by
  classical
  set U := (range bars.length).filter fun j =>
    ∃ b, bars[j]? = some b ∧ (decide (b.1 ≤ t) && decide (t < b.2)) = true with hU
  have hmem : ∀ j, j ∈ U ↔ AliveBar bars j t := by
    intro j
    rw [hU, Finset.mem_filter, mem_range]
    constructor
    · rintro ⟨-, b, h1, h2⟩
      exact ⟨b, h1, by simpa using h2⟩
    · rintro ⟨b, h1, h2⟩
      exact ⟨(List.getElem?_eq_some_iff.1 h1).1, b, h1, by simpa using h2⟩
  have hind : LinearIndependent (ZMod p) fun j : U => (Pi.single j.1 1 : ℕ → ZMod p) := by
    rw [Fintype.linearIndependent_iff]
    intro g hg i
    have := congrFun hg i.1
    rw [Finset.sum_apply, Finset.sum_eq_single i] at this
    · simpa using this
    · intro j _ hj
      rw [Pi.smul_apply, Pi.single_eq_of_ne (fun e => hj (Subtype.ext e.symm)), smul_zero]
    · intro hc; exact absurd (Finset.mem_univ i) hc
  have e : barModule p bars t =
      Submodule.span (ZMod p) (Set.range fun j : U => (Pi.single j.1 1 : ℕ → ZMod p)) := by
    apply le_antisymm
    · rintro x ⟨y, rfl⟩
      have : barRestr p bars t y = ∑ j : U, y j • (Pi.single j.1 1 : ℕ → ZMod p) := by
        funext i
        rw [Finset.sum_apply]
        by_cases hi : AliveBar bars i t
        · rw [show barRestr p bars t y i = y i from restr_apply_pos hi,
            Finset.sum_eq_single ⟨i, (hmem i).2 hi⟩]
          · simp
          · intro j _ hj
            rw [Pi.smul_apply, Pi.single_eq_of_ne (fun e => hj (Subtype.ext e.symm)), smul_zero]
          · intro hc; exact absurd (Finset.mem_univ _) hc
        · rw [show barRestr p bars t y i = 0 from restr_apply_neg hi]
          symm
          refine Finset.sum_eq_zero fun j _ => ?_
          rw [Pi.smul_apply, Pi.single_eq_of_ne (by rintro rfl; exact hi ((hmem _).1 j.2)), smul_zero]
      rw [this]
      exact Submodule.sum_mem _ fun j _ => Submodule.smul_mem _ _ (Submodule.subset_span ⟨j, rfl⟩)
    · refine Submodule.span_le.2 ?_
      rintro x ⟨j, rfl⟩
      refine ⟨Pi.single j.1 1, ?_⟩
      funext i
      by_cases hi : AliveBar bars i t
      · exact restr_apply_pos hi
      · rw [show barRestr p bars t (Pi.single j.1 1) i = 0 from restr_apply_neg hi]
        have hne : i ≠ j.1 := by rintro rfl; exact hi ((hmem _).1 j.2)
        exact (Pi.single_eq_of_ne (M := fun _ => ZMod p) hne _).symm
  rw [e, finrank_span_eq_card hind, Fintype.card_coe, barsThrough, countP_range, hU]
  congr

end

section

variable {α : Type} [LinearOrder α] [Zero α] {rnd : α → α} {E : SSEnv α} {ρ : List ℕ → α}

/-- Either the intersections of two cubes have no classes in degree `e`, or at some radius the cubes have more
classes in that degree than the intersections. -/
def SSEnv.OverlapOK (E : SSEnv α) (e : ℕ) : Prop :=
  E.firstBars e 1 = [] ∨ ∃ t, barsThrough (E.firstBars e 1) t t < barsThrough (E.firstBars e 0) t t

theorem SSEnv.OverlapOK.gap {e : ℕ} (h : E.OverlapOK e) (h0 : E.firstBars e 0 = []) : E.firstBars e 1 = [] := by
  rcases h with h | ⟨t, ht⟩
  · exact h
  · rw [h0] at ht
    simp [barsThrough] at ht

/-- The first position of a row is not zero when there are boundaries. -/
theorem overlap_skip (hp : E.p.Prime) {e : ℕ} (ho : E.OverlapOK e) {M : Mat} {Q I : Basis α}
    (dQ : Q.dim = Q.barcode.length)
    (G0 : Gens E 0 e Q.barcode (Q.coords.zcol E.p) (barModule E.p (E.firstBars e 0))
        (imAt E.p (E.firstBars e 1) (E.firstBars e 0) M))
    (hcomb : ∀ d g, Comb E.p I d g → barRestr E.p (E.firstBars e 0) d g ∈
        imAt E.p (E.firstBars e 1) (E.firstBars e 0) M d) (hQ : Q.dim = 0) (d : α) (g : ℕ → ZMod E.p)
    (hg : Comb E.p I d g) : barRestr E.p (E.firstBars e 0) d g = 0 := by
  have := Fact.mk hp
  rcases ho with h0 | ⟨t, ht⟩
  · have := hcomb d g hg
    rwa [imAt_bot_left h0, Submodule.mem_bot] at this
  · exfalso
    have hle : barModule E.p (E.firstBars e 0) t ≤ imAt E.p (E.firstBars e 1) (E.firstBars e 0) M t := by
      intro z hz
      obtain ⟨c, -, h2⟩ := G0.span t z hz
      rw [← dQ, hQ, Finset.range_zero, Finset.sum_empty, map_zero, sub_zero] at h2
      exact h2
    have hf : ∀ bars : List (α × α), FiniteDimensional (ZMod E.p) (barModule E.p bars t) := by
      intro bars
      by_cases h0 : barsThrough bars t t = 0
      · have hb : barModule E.p bars t = ⊥ := by
          rw [eq_bot_iff]
          rintro _ ⟨y, rfl⟩
          rw [Submodule.mem_bot]
          funext i
          refine restr_apply_neg ?_
          rintro ⟨b, hb, hb1, hb2⟩
          have := barsThrough_pos.2 ⟨b, List.mem_of_getElem? hb, hb1, hb2⟩
          omega
        rw [hb]
        infer_instance
      · exact FiniteDimensional.of_finrank_pos (by rw [finrank_barModule]; omega)
    have := hf (E.firstBars e 1)
    have hfi : FiniteDimensional (ZMod E.p) (imAt E.p (E.firstBars e 1) (E.firstBars e 0) M t) := by
      unfold imAt; infer_instance
    have h1 := Submodule.finrank_mono hle
    have h2 : Module.finrank (ZMod E.p) (imAt E.p (E.firstBars e 1) (E.firstBars e 0) M t) ≤
        Module.finrank (ZMod E.p) (barModule E.p (E.firstBars e 1) t) := Submodule.finrank_map_le _ _
    rw [finrank_barModule] at h1 h2
    omega

theorem Summed.full {m : ℕ} {C L : LChains} (h : Summed m [C, L]) : FullRefs m C ∧ FullRefs m L := by
  obtain ⟨l, hl⟩ := h
  obtain ⟨m1, m2⟩ := mapM_ok_spec hl
  have hlen : 2 = l.length := m1
  have hid : (identityCols m).length = m := by simp [identityCols]
  exact ⟨FullRefs.sums hid (m2 0 (by omega) (by simp)), FullRefs.sums hid (m2 1 (by omega) (by simp))⟩

/-- The columns of the extension matrix of a diagonal are computed. -/
theorem diagCols_total (h : SSOK rnd E ρ) {D : Mat} (hD : E.nerveDiff[0]? = some D)
    (hlen : 2 ≤ E.columns.length) (hpos : 0 < E.spx 0)
    (hNp : E.noPages ≤ E.columns.length + 1) (h3 : 3 ≤ E.noPages)
    (hz : ∀ n deg, 2 ≤ n → E.firstBars deg n = []) {S : SSt α}
    (hS : allPages rnd E E.columns.length = .ok S) {e : ℕ} (he : e + 1 < E.rows)
    (hround : ∀ i, i = e ∨ i = e + 1 → ∀ n m, ∀ a ∈ E.firstBars i n,
      ∀ b ∈ E.firstBars i m, ∀ x, x = a.1 ∨ x = a.2 → ∀ y, y = b.1 ∨ y = b.2 → rnd x ≤ rnd y → x ≤ y)
    (hgap : E.firstBars e 0 = [] → E.firstBars e 1 = [])
    (hskip : E.firstBars e 1 ≠ [] → ∀ k < E.spx 0, E.classes 0 e k = 0 → E.G 0 k e = [])
    (ho : E.OverlapOK (e + 1)) {nc : ℕ} (hnc : 2 ≤ nc) :
    ∃ cols, diagCols rnd E S nc (e + 1) = .ok cols := by
  have hF := Fact.mk h.prime
  have h2 : 2 ≤ E.noPages := by omega
  obtain ⟨M, hM, -⟩ := firstDifferential_spec h hD (by omega) he
  obtain ⟨M', hM', -⟩ := firstDifferential_spec h hD (by omega) (show e < E.rows by omega)
  obtain ⟨Q, I, P0, G0, hbI, hcomb, hconv, hX⟩ := first_position h hlen hpos hNp h2 hz hS he
    (hround _ (Or.inr rfl)) hM
  obtain ⟨K, eK, dK, G1, birthK, keptK, hK⟩ := second_position h hlen hNp h2 hz hS (show e < E.rows by omega)
    (hround _ (Or.inl rfl)) hgap hskip hD hM'
  have hQR := G0.le_maxR h (by omega) he
  have hKR := G1.le_maxR h (by omega) (show e < E.rows by omega)
  have hlastQ := P0.last' h2
  have lastK := keptK (E.noPages - 1) (by omega) (by omega)
  have hzc : ZeroColumns S := allPages_zeroColumns hNp hz hS
  have dQ : Q.dim = Q.barcode.length := P0.liftH.dim
  have hpg : ∀ k deg n, 2 ≤ k → S.pageDim E k deg n = (S.hom (k - 1) n deg).basis.dim := by
    intro k deg n hk
    unfold SSt.pageDim
    rw [if_neg (by omega)]
  have hpd : S.pageDim E (E.noPages - 1) e 1 = K.dim := by
    rw [hpg _ _ _ (by omega)]
    by_cases hc3 : E.noPages = 3
    · rw [hc3]
      change (S.hom 1 1 e).basis.dim = _
      rw [eK]
    · exact (keptK (E.noPages - 1 - 1) (by omega) (by omega)).dim
  -- the extension
  have hext : K.dim ≠ 0 → ∃ B1 B0, extension rnd E S 1 e = .ok [B1, B0] ∧ MatOK E.p K.dim K.dim B1 ∧
      ((Q.dim = 0 ∧ B0.nrows = 0) ∨ (Q.dim ≠ 0 ∧ MatOK E.p Q.dim K.dim B0)) := by
    intro hk
    obtain ⟨hp1, I1, P1, hI1, C1, L, v, hr, hC1, hL, hsum, hlift⟩ := hK hk
    obtain ⟨fC, fL⟩ := (hsum h3).full
    have hc0 : ∀ d g, Comb E.p I1 d g → g = 0 := by
      rintro d g ⟨γ, -, rfl⟩
      rw [hI1, Finset.range_zero, Finset.sum_empty]
    have X1 : ExtPos E S 1 e K I1 := by
      refine ⟨P1, ?_, fun hc => absurd hc hk, G1.born, ?_,
        fun b hb => (h.firstBars_lt (by omega) (by omega) b hb).2, hKR⟩
      · intro d β g hβ hg heq
        rw [hc0 d g hg, map_zero] at heq
        refine G1.indep d β hβ ?_
        rw [← dK, heq]
        exact Submodule.zero_mem _
      · intro i b hb
        have := P1.liftI.dim
        rw [hI1] at this
        rw [List.length_eq_zero_iff.1 this.symm] at hb
        simp at hb
    have X0 : ExtPos E S 0 (e + 1) Q I := by
      refine ⟨P0, ?_, fun hc => overlap_skip h.prime ho dQ G0 hcomb hc, G0.born, hbI,
        fun b hb => (h.firstBars_lt (by omega) he b hb).2, hQR⟩
      intro d β g hβ hg heq
      refine G0.indep d β hβ ?_
      rw [← dQ, heq]
      exact hcomb d g hg
    obtain ⟨exts, hx⟩ := extension_total h hD (by omega) hp1 hpos he h2 X1 hI1 X0 G1 (by
      intro d x _ _
      obtain ⟨β, b1, b2⟩ := G0.span d (barRestr E.p (E.firstBars (e + 1) 0) d x) ⟨x, rfl⟩
      obtain ⟨g, ⟨γ, g1, rfl⟩, g2⟩ := hconv d _ b2
      refine ⟨γ, β, g1, b1, ?_⟩
      rw [map_add, g2, dQ, sub_add_cancel]) (lastK.coords hk).1 hr hC1 hL fC fL hlift hX
    obtain ⟨B1, B0, rfl, x2, -, x4⟩ := extension_spec h hD (by omega) hp1 hpos he h2 P1 hI1 hk P0 hKR hQR G1
        G0.born hbI hr hC1 hL hlift hX hx
    exact ⟨B1, B0, hx, x2, x4.shape⟩
  unfold diagCols
  refine mapM_ok_of fun n hn => ?_
  have hn' := List.mem_range.1 hn
  unfold extColumns
  by_cases hn0 : n = 0 ∨ S.pageDim E (E.noPages - 1) (e + 1 - n) n = 0
  · rw [if_pos hn0]; exact ⟨_, rfl⟩
  rw [if_neg hn0]
  push Not at hn0
  have hn1 : n = 1 := by
    by_contra hc
    refine hn0.2 ?_
    rw [hpg _ _ _ (by omega)]
    exact (hzc _ _ _ (by omega)).1
  subst hn1
  rw [show e + 1 - 1 = e by omega] at *
  rw [hpd] at hn0
  obtain ⟨B1, B0, hx, x1, x2⟩ := hext hn0.2
  rw [hx]
  have d1 : ((List.range (min (e + 1 + 1) nc)).map fun n => S.pageDim E E.noPages (e + 1 - n) n).getD 1 0 = K.dim := by
    rw [getD_map_lt (by simpa using hn'), List.getElem_range, hpg _ _ _ h2]
    exact lastK.dim
  have d0 : ((List.range (min (e + 1 + 1) nc)).map fun n => S.pageDim E E.noPages (e + 1 - n) n).getD 0 0 = Q.dim := by
    rw [getD_map_lt (by simp; omega), List.getElem_range, hpg _ _ _ h2]
    exact hlastQ.2
  have hall : ((List.range [B1, B0].length).zip [B1, B0]).all (fun x => x.2.nrows == 0 ||
        (x.2.nrows == ((List.range (min (e + 1 + 1) nc)).map
            fun n => S.pageDim E E.noPages (e + 1 - n) n).getD (1 - x.1) 0 &&
          x.2.ncols == ((List.range (min (e + 1 + 1) nc)).map
            fun n => S.pageDim E E.noPages (e + 1 - n) n).getD 1 0 && decide (x.1 ≤ 1))) = true := by
    rw [show (List.range [B1, B0].length).zip [B1, B0] = [(0, B1), (1, B0)] from rfl]
    simp only [List.all_cons, List.all_nil, Bool.and_true, Nat.sub_zero, Nat.sub_self]
    rw [d1, d0]
    have n1 : B1.nrows = K.dim := x1.rows
    have n2 : B1.ncols = K.dim := x1.ncols
    rw [n1, n2]
    rcases x2 with ⟨-, x2⟩ | ⟨-, x2⟩
    · rw [x2]; simp
    · have n3 : B0.nrows = Q.dim := x2.rows
      have n4 : B0.ncols = K.dim := x2.ncols
      rw [n3, n4]; simp
  refine Exists.imp (fun y hy => (bind_ok.2 ⟨_, rfl, hy⟩)) ?_
  rw [if_pos hall]
  exact ⟨_, rfl⟩

end

end Permaviss
