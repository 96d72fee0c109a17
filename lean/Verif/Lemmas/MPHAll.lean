import Verif.Lemmas.MPH

/-!
# Every position of `module_persistence_homology`
-/

namespace Permaviss

open Finset

attribute [-instance] instMulZeroClassOfSemiring

variable {α : Type} [LinearOrder α]

theorem barModule_fixed {p : ℕ} {bars : List (α × α)} {t : α} {x : ℕ → ZMod p}
    (h : x ∈ barModule p bars t) : barRestr p bars t x = x := by
  obtain ⟨y, rfl⟩ := h
  exact restr_restr y

theorem barModule_finite (p : ℕ) [Fact p.Prime] (bars : List (α × α)) (t : α) :
    FiniteDimensional (ZMod p) (barModule p bars t) := by
  have hf : FiniteDimensional (ZMod p) (Submodule.span (ZMod p)
      ((fun i => (Pi.single i 1 : ℕ → ZMod p)) '' (Set.Iio bars.length))) :=
    FiniteDimensional.span_of_finite _ ((Set.finite_Iio _).image _)
  refine Submodule.finiteDimensional_of_le (S₂ := Submodule.span (ZMod p)
      ((fun i => (Pi.single i 1 : ℕ → ZMod p)) '' (Set.Iio bars.length))) ?_
  intro x hx
  have hx0 : ∀ i, bars.length ≤ i → x i = 0 := by
    intro i hi
    rw [← barModule_fixed hx]
    refine restr_apply_neg ?_
    rintro ⟨b, hb, -⟩
    have := (List.getElem?_eq_some_iff.1 hb).1
    omega
  have e : x = ∑ i ∈ range bars.length, x i • (Pi.single i 1 : ℕ → ZMod p) := by
    funext j
    rw [Finset.sum_apply]
    by_cases hj : j < bars.length
    · rw [Finset.sum_eq_single j]
      · simp
      · intro k _ hk; simp [Ne.symm hk]
      · intro h; exact absurd (mem_range.2 hj) h
    · rw [hx0 j (by omega)]
      symm
      refine Finset.sum_eq_zero fun k hk => ?_
      have : j ≠ k := by rintro rfl; exact hj (mem_range.1 hk)
      simp [this]
  rw [e]
  exact Submodule.sum_mem _ fun k hk => Submodule.smul_mem _ _
    (Submodule.subset_span ⟨k, mem_range.1 hk, rfl⟩)

theorem modCycles_le_barModule {p : ℕ} {D : List Mat} {Base : List (Basis α)} (d : ℕ) (t : α) :
    modCycles p D Base d t ≤ barModule p (barsAt Base d) t := by
  cases d with
  | zero => exact le_rfl
  | succ d => exact inf_le_left

/-- The dimension of a quotient of a persistence module by a submodule, at one radius. -/
theorem quotRank_self {p : ℕ} [Fact p.Prime] {amb : List (α × α)}
    {Mt Nt : α → Submodule (ZMod p) (ℕ → ZMod p)} {t : α} (hM : Mt t ≤ barModule p amb t)
    (hN : Nt t ≤ Mt t) :
    quotRank p amb Mt Nt t t + Module.finrank (ZMod p) (Nt t) = Module.finrank (ZMod p) (Mt t) := by
  have f0 := barModule_finite p amb t
  have f1 : FiniteDimensional (ZMod p) (Mt t) := Submodule.finiteDimensional_of_le hM
  have f2 : FiniteDimensional (ZMod p) (Nt t) := Submodule.finiteDimensional_of_le hN
  have hmap : (Mt t).map (barRestr p amb t) = Mt t := by
    apply le_antisymm
    · rintro _ ⟨x, hx, rfl⟩
      rw [barModule_fixed (hM hx)]; exact hx
    · intro x hx
      exact ⟨x, hx, barModule_fixed (hM hx)⟩
  have := quotRank_eq (p := p) (amb := amb) (W := Mt t) (N := Nt t) rfl hmap
  rw [this, sup_eq_right.2 hN]

/-- Where nothing was stored, all cycles are boundaries. -/
theorem HomAt.acyclic {p : ℕ} [Fact p.Prime] {D : List Mat} {Base : List (Basis α)} {d : ℕ} {H : Basis α}
    (h : HomAt p D Base d H) (hb : ∀ t, modBounds p D Base d t ≤ modCycles p D Base d t)
    (h0 : H.barcode = []) (t : α) : modCycles p D Base d t ≤ modBounds p D Base d t := by
  have hg : HomGood p D Base d H := by
    refine h.good fun hpos he hne => ?_
    have := barsAt_eq (h.whole hpos he hne)
    rw [h0] at this
    exact absurd this hne
  have hc := hg.count t t le_rfl
  rw [h0] at hc
  have hc' : quotRank p (barsAt Base d) (modCycles p D Base d) (modBounds p D Base d) t t = 0 := hc.symm
  have f0 := barModule_finite p (barsAt Base d) t
  have f1 : FiniteDimensional (ZMod p) (modCycles p D Base d t) :=
    Submodule.finiteDimensional_of_le (modCycles_le_barModule d t)
  have := quotRank_self (modCycles_le_barModule d t) (hb t)
  rw [hc', Nat.zero_add] at this
  exact (Submodule.eq_of_le_of_finrank_eq (hb t) this).ge

/-- When the next module is zero, everything is a cycle. -/
theorem modCycles_all {p : ℕ} {D : List Mat} {Base : List (Basis α)} {d : ℕ} (hd : 0 < d)
    (h0 : barsAt Base (d - 1) = []) (t : α) :
    modCycles p D Base d t = barModule p (barsAt Base d) t := by
  obtain ⟨e, rfl⟩ : ∃ e, d = e + 1 := ⟨d - 1, by omega⟩
  change kerAt p _ _ _ t = _
  rw [show barsAt Base e = [] from h0]
  unfold kerAt
  rw [inf_eq_left]
  intro x _
  rw [LinearMap.mem_ker]
  unfold morAt
  rw [LinearMap.comp_apply]
  unfold barRestr
  rw [restr_eq_zero]
  rintro i ⟨b, hb, -⟩
  simp at hb

/-- The number of bars at a radius is the dimension of the module. -/
theorem barsThrough_self (p : ℕ) [Fact p.Prime] {bars : List (α × α)} (hbars : ∀ b ∈ bars, b.1 < b.2)
    (t : α) : barsThrough bars t t = Module.finrank (ZMod p) (barModule p bars t) := by
  have hp : p.Prime := Fact.out
  let n := bars.length
  let X : Basis α := ⟨bars, false, n, some n, ⟨n, identityCols n⟩, true, none, none⟩
  have hlen : (identityCols n).length = n := by simp [identityCols]
  have e1 : X.barcode = gather bars (List.range bars.length) := (gather_range_self _).symm
  have e2 : X.coords.cols = gather (identityCols n) (List.range n) := by
    have := gather_range_self (identityCols n)
    rw [hlen] at this
    exact this.symm
  have hX : IsBasisOf p bars X (barModule p bars) := full_isBasisOf hp (picks_range hbars) e1 e2
  have hb' : BornInTime p bars X := fun r i a b ha hb hne => identity_born i a r b ha hb hne
  have h1 := finrank_bornSpan hX (le_refl t)
  rw [bornSpan_eq hX hb' (le_refl t)] at h1
  rw [show X.barcode = bars from rfl] at h1
  rw [← h1]
  have : (barModule p bars t).map (barRestr p bars t) = barModule p bars t := by
    apply le_antisymm
    · rintro _ ⟨x, hx, rfl⟩
      rw [barModule_fixed hx]; exact hx
    · intro x hx
      exact ⟨x, hx, barModule_fixed hx⟩
  rw [this]

theorem HomAt.bars {p : ℕ} {D : List Mat} {Base : List (Basis α)} {d : ℕ} {H : Basis α}
    (h : HomAt p D Base d H) (hbars : ∀ X ∈ Base, ∀ b ∈ X.barcode, b.1 < b.2) :
    ∀ b ∈ H.barcode, b.1 < b.2 := by
  by_cases hc : 0 < d ∧ barsAt Base (d - 1) = [] ∧ barsAt Base d ≠ []
  · exact hbars H (List.mem_of_getElem? (h.whole hc.1 hc.2.1 hc.2.2))
  · exact (h.good fun h1 h2 h3 => absurd ⟨h1, h2, h3⟩ hc).bars

/-- The stored homology is right except at a nonzero module which has boundaries and is followed by zero. -/
theorem HomAt.right_iff {p : ℕ} [Fact p.Prime] {D : List Mat} {Base : List (Basis α)} {d : ℕ} {H : Basis α}
    (h : HomAt p D Base d H) (hbars : ∀ X ∈ Base, ∀ b ∈ X.barcode, b.1 < b.2)
    (hb : ∀ t, modBounds p D Base d t ≤ modCycles p D Base d t) :
    (∀ s t, s ≤ t → barsThrough H.barcode s t = homRank p D Base d s t) ↔
      ¬ (0 < d ∧ barsAt Base (d - 1) = [] ∧ ∃ t, modBounds p D Base d t ≠ ⊥) := by
  constructor
  · rintro hc ⟨hd, h0, t, ht⟩
    have hne : barsAt Base d ≠ [] := by
      intro e
      apply ht
      rw [eq_bot_iff]
      refine (hb t).trans ((modCycles_le_barModule d t).trans ?_)
      rw [e]
      rintro _ ⟨x, rfl⟩
      change barRestr p [] t x = 0
      funext i
      refine restr_apply_neg ?_
      rintro ⟨b, hb, -⟩
      simp at hb
    have hw := h.whole hd h0 hne
    have e := hc t t le_rfl
    rw [← barsAt_eq hw] at e
    have hbb : ∀ b ∈ barsAt Base d, b.1 < b.2 := by
      rw [barsAt_eq hw]; exact hbars H (List.mem_of_getElem? hw)
    rw [barsThrough_self p hbb, ← modCycles_all (D := D) hd h0 t] at e
    have f0 := barModule_finite p (barsAt Base d) t
    have f1 : FiniteDimensional (ZMod p) (modBounds p D Base d t) :=
      Submodule.finiteDimensional_of_le ((hb t).trans (modCycles_le_barModule d t))
    have h2 := quotRank_self (modCycles_le_barModule d t) (hb t)
    have h3 : 0 < Module.finrank (ZMod p) (modBounds p D Base d t) := by
      rw [Nat.pos_iff_ne_zero]
      intro h0
      exact ht (Submodule.finrank_eq_zero.1 h0)
    unfold homRank at e
    omega
  · intro hn
    refine (h.good fun hd h0 _ t => ?_).count
    by_contra ht
    exact hn ⟨hd, h0, t, ht⟩

end Permaviss
