import Verif.Lemmas.IKRelMain
import Verif.Spec.Quotient
import Mathlib.LinearAlgebra.FiniteDimensional.Lemmas

/-!
# Ranks of maps between quotients
-/

namespace Permaviss

open Finset

section
variable {K V : Type*} [Field K] [AddCommGroup V] [Module K V]

/-- The dimension of the image of `W` in the quotient by `N`. -/
theorem finrank_map_mkQ (N W : Submodule K V) [FiniteDimensional K N] [FiniteDimensional K W] :
    Module.finrank K (W.map N.mkQ) + Module.finrank K N = Module.finrank K ↥(N ⊔ W) := by
  have h1 : (N ⊔ W).map N.mkQ = W.map N.mkQ := by
    rw [Submodule.map_sup, Submodule.mkQ_map_self, bot_sup_eq]
  rw [← h1]
  have h2 := LinearMap.finrank_range_add_finrank_ker (N.mkQ.domRestrict (N ⊔ W))
  rw [LinearMap.range_domRestrict] at h2
  rw [← h2]
  congr 1
  have h3 : LinearMap.ker (N.mkQ.domRestrict (N ⊔ W)) = N.comap (N ⊔ W).subtype := by
    ext x
    simp [LinearMap.mem_ker]
  rw [h3]
  exact (LinearEquiv.finrank_eq (Submodule.comapSubtypeEquivOfLe le_sup_left)).symm

end

variable {α : Type} [LinearOrder α]

theorem bornSpan_finite {p : ℕ} [Fact p.Prime] {amb bars : List (α × α)} {C : Mat} {s t : α} :
    FiniteDimensional (ZMod p) (bornSpan p amb bars C s t) := by
  have : {x | ∃ i, BornBy (· ≤ s) bars i ∧ x = barRestr p amb t (C.zcol p i)}.Finite := by
    refine Set.Finite.subset (Set.Finite.image (fun i => barRestr p amb t (C.zcol p i))
      (Set.finite_lt_nat bars.length)) ?_
    rintro x ⟨i, hi, rfl⟩
    exact ⟨i, hi.lt, rfl⟩
  exact FiniteDimensional.span_of_finite _ this

theorem barRestr_trans {p : ℕ} {amb : List (α × α)} {s t : α} (hst : s ≤ t) {x : ℕ → ZMod p}
    (hx : ∀ r b, amb[r]? = some b → x r ≠ 0 → b.1 ≤ s) :
    barRestr p amb t (barRestr p amb s x) = barRestr p amb t x := by
  funext r
  unfold barRestr
  by_cases h : AliveBar amb r t
  · rw [restr_apply_pos (S := fun i => AliveBar amb i t) h,
      restr_apply_pos (S := fun i => AliveBar amb i t) h]
    obtain ⟨b, h1, h2, h3⟩ := h
    by_cases hr : x r = 0
    · by_cases h' : AliveBar amb r s
      · rw [restr_apply_pos h']
      · rw [restr_apply_neg h', hr]
    · rw [restr_apply_pos ⟨b, h1, hx r b h1 hr, lt_of_le_of_lt hst h3⟩]
  · rw [restr_apply_neg h, restr_apply_neg h]

/-- The generators born by `s`, at `t`, span the image of the submodule at `s`. -/
theorem bornSpan_eq {p : ℕ} {amb : List (α × α)} {X : Basis α}
    {Mt : α → Submodule (ZMod p) (ℕ → ZMod p)} (h : IsBasisOf p amb X Mt)
    (hb : BornInTime p amb X) {s t : α} (hst : s ≤ t) :
    bornSpan p amb X.barcode X.coords s t = (Mt s).map (barRestr p amb t) := by
  rw [← h.span s, Submodule.map_span, ← Set.range_comp]
  have htr : ∀ i b, X.barcode[i]? = some b → b.1 ≤ s →
      barRestr p amb t (barRestr p amb s (X.coords.zcol p i)) =
        barRestr p amb t (X.coords.zcol p i) := by
    intro i b h1 h2
    exact barRestr_trans hst fun r c hc hne => (hb r i b c h1 hc hne).trans h2
  apply le_antisymm
  · refine Submodule.span_le.2 ?_
    rintro x ⟨i, ⟨b, h1, h2⟩, rfl⟩
    by_cases h3 : s < b.2
    · refine Submodule.subset_span ⟨⟨i, b, h1, h2, h3⟩, ?_⟩
      exact htr i b h1 h2
    · rw [h.dead t i b h1 ((not_lt.1 h3).trans hst)]
      exact Submodule.zero_mem _
  · refine Submodule.span_le.2 ?_
    rintro x ⟨⟨i, b, h1, h2, h3⟩, rfl⟩
    exact Submodule.subset_span ⟨i, ⟨b, h1, h2⟩, htr i b h1 h2⟩

theorem bornSpan_self {p : ℕ} {amb : List (α × α)} {X : Basis α}
    {Mt : α → Submodule (ZMod p) (ℕ → ZMod p)} (h : IsBasisOf p amb X Mt) {t : α} :
    bornSpan p amb X.barcode X.coords t t = Mt t := by
  rw [← h.span t]
  apply le_antisymm
  · refine Submodule.span_le.2 ?_
    rintro x ⟨i, ⟨b, h1, h2⟩, rfl⟩
    by_cases h3 : t < b.2
    · exact Submodule.subset_span ⟨⟨i, b, h1, h2, h3⟩, rfl⟩
    · rw [h.dead t i b h1 (not_lt.1 h3)]
      exact Submodule.zero_mem _
  · refine Submodule.span_le.2 ?_
    rintro x ⟨⟨i, b, h1, h2, h3⟩, rfl⟩
    exact Submodule.subset_span ⟨i, ⟨b, h1, h2⟩, rfl⟩

/-- A generator which is zero from its death on has only coordinates which die before. -/
theorem death_of_dead {p : ℕ} {amb : List (α × α)} {X : Basis α}
    {Mt : α → Submodule (ZMod p) (ℕ → ZMod p)} (h : IsBasisOf p amb X Mt)
    (hb : BornInTime p amb X) : ∀ r i a b, X.barcode[i]? = some a → amb[r]? = some b →
      X.coords.z p r i ≠ 0 → b.2 ≤ a.2 := by
  intro r i a b ha hb' hne
  by_contra hlt
  have h1 := congrFun (h.dead a.2 i a ha le_rfl) r
  have hal : AliveBar amb r a.2 :=
    ⟨b, hb', (hb r i a b ha hb' hne).trans (h.bars a (List.mem_of_getElem? ha)).le, not_le.1 hlt⟩
  unfold barRestr at h1
  rw [restr_apply_pos hal] at h1
  exact hne h1

open Classical in
theorem countP_range {l : List (α × α)} (q : α × α → Bool) :
    l.countP q = ((range l.length).filter fun j => ∃ b, l[j]? = some b ∧ q b = true).card := by
  induction l with
  | nil => simp
  | cons a l ih =>
    have e0 : range (a :: l).length = insert 0 (Ico (0 + 1) (l.length + 1)) := by
      ext j
      simp only [List.length_cons, mem_range, Finset.mem_insert, Finset.mem_Ico]
      omega
    rw [List.countP_cons, ih, e0, Finset.filter_insert]
    have e : ((Ico (0 + 1) (l.length + 1)).filter fun j => ∃ b, (a :: l)[j]? = some b ∧ q b = true) =
        ((range l.length).filter fun j => ∃ b, l[j]? = some b ∧ q b = true).map
          (addRightEmbedding 1) := by
      ext j
      simp only [Finset.mem_filter, Finset.mem_Ico, Finset.mem_map, mem_range,
        addRightEmbedding_apply]
      constructor
      · rintro ⟨⟨h1, h2⟩, h3⟩
        obtain ⟨i, rfl⟩ : ∃ i, j = i + 1 := ⟨j - 1, by omega⟩
        exact ⟨i, ⟨by omega, by simpa using h3⟩, rfl⟩
      · rintro ⟨i, ⟨h1, h2⟩, rfl⟩
        exact ⟨⟨by omega, by omega⟩, by simpa using h2⟩
    rw [e]
    by_cases hq : q a = true
    · rw [if_pos hq, if_pos ⟨a, rfl, hq⟩, card_insert_of_notMem (by simp), card_map]
    · have hq' : ¬ ∃ b, (a :: l)[0]? = some b ∧ q b = true := by
        rintro ⟨b, hb, hb'⟩
        simp at hb; subst hb; exact hq hb'
      rw [if_neg hq, if_neg hq', card_map, Nat.add_zero]

/-- The rank of the map from `s` to `t` of a submodule with a barcode basis. -/
theorem finrank_bornSpan {p : ℕ} [Fact p.Prime] {amb : List (α × α)} {X : Basis α}
    {Mt : α → Submodule (ZMod p) (ℕ → ZMod p)} (h : IsBasisOf p amb X Mt) {s t : α} (hst : s ≤ t) :
    Module.finrank (ZMod p) (bornSpan p amb X.barcode X.coords s t) = barsThrough X.barcode s t := by
  classical
  set U := (range X.barcode.length).filter fun j =>
    ∃ b, X.barcode[j]? = some b ∧ (decide (b.1 ≤ s) && decide (t < b.2)) = true with hU
  have hmem : ∀ j, j ∈ U ↔ ∃ b, X.barcode[j]? = some b ∧ b.1 ≤ s ∧ t < b.2 := by
    intro j
    rw [hU, Finset.mem_filter, mem_range]
    constructor
    · rintro ⟨-, b, h1, h2⟩
      exact ⟨b, h1, by simpa using h2⟩
    · rintro ⟨b, h1, h2⟩
      exact ⟨(List.getElem?_eq_some_iff.1 h1).1, b, h1, by simpa using h2⟩
  have hal : ∀ j : U, AliveBar X.barcode j t := by
    intro j
    obtain ⟨b, h1, h2, h3⟩ := (hmem j).1 j.2
    exact ⟨b, h1, h2.trans hst, h3⟩
  have hind : LinearIndependent (ZMod p) fun j : U => barRestr p amb t (X.coords.zcol p j) := by
    have := (h.indep t).comp (fun j : U => (⟨j, hal j⟩ : {i // AliveBar X.barcode i t}))
      (fun a b hab => Subtype.ext (congrArg (fun x => x.1) hab))
    exact this
  have e : bornSpan p amb X.barcode X.coords s t =
      Submodule.span (ZMod p) (Set.range fun j : U => barRestr p amb t (X.coords.zcol p j)) := by
    apply le_antisymm
    · refine Submodule.span_le.2 ?_
      rintro x ⟨i, ⟨b, h1, h2⟩, rfl⟩
      by_cases h3 : t < b.2
      · exact Submodule.subset_span ⟨⟨i, (hmem i).2 ⟨b, h1, h2, h3⟩⟩, rfl⟩
      · rw [h.dead t i b h1 (not_lt.1 h3)]
        exact Submodule.zero_mem _
    · refine Submodule.span_le.2 ?_
      rintro x ⟨⟨i, hi⟩, rfl⟩
      obtain ⟨b, h1, h2, -⟩ := (hmem i).1 hi
      exact Submodule.subset_span ⟨i, ⟨b, h1, h2⟩, rfl⟩
  rw [e, finrank_span_eq_card hind, Fintype.card_coe, barsThrough, countP_range]
  congr 1
  ext j
  rw [hmem]
  simp only [Finset.mem_filter, mem_range, Bool.and_eq_true, decide_eq_true_eq]
  constructor
  · rintro ⟨b, h1, h2⟩
    exact ⟨(List.getElem?_eq_some_iff.1 h1).1, b, h1, h2⟩
  · rintro ⟨-, b, h1, h2⟩
    exact ⟨b, h1, h2⟩

theorem QInput.nonempty {rnd : α → α} {p : ℕ} {M N amb : Basis α}
    {Mt Nt : α → Submodule (ZMod p) (ℕ → ZMod p)} (h : QInput rnd p M N amb Mt Nt)
    (hN : N.barcode ≠ []) : M.barcode ≠ [] := by
  have := Fact.mk h.prime
  intro hM
  obtain ⟨b, l, hb⟩ := List.exists_cons_of_ne_nil hN
  have hal : AliveBar N.barcode 0 b.1 :=
    ⟨b, by rw [hb]; rfl, le_rfl, h.basisN.bars b (by rw [hb]; simp)⟩
  have h1 := (h.basisN.indep b.1).ne_zero ⟨0, hal⟩
  have h2 : barRestr p amb.barcode b.1 (N.coords.zcol p 0) ∈ Nt b.1 := by
    rw [← h.basisN.span b.1]
    exact Submodule.subset_span ⟨⟨0, hal⟩, rfl⟩
  have h3 := h.sub _ h2
  rw [← h.basisM.span b.1] at h3
  have h4 : (Set.range fun i : {i // AliveBar M.barcode i b.1} =>
      barRestr p amb.barcode b.1 (M.coords.zcol p i)) = ∅ := by
    rw [Set.range_eq_empty_iff]
    refine ⟨?_⟩
    rintro ⟨i, c, hc, -⟩
    rw [hM] at hc; simp at hc
  rw [h4, Submodule.span_empty, Submodule.mem_bot] at h3
  exact h1 h3

theorem QInput.ok {rnd : α → α} {p : ℕ} {M N amb : Basis α}
    {Mt Nt : α → Submodule (ZMod p) (ℕ → ZMod p)} (h : QInput rnd p M N amb Mt Nt)
    (hN : N.barcode ≠ []) : QOK rnd p M N amb where
  prime := h.prime
  flatB := h.flat
  dimB := h.dim
  barsB := h.bars
  unbroken := h.unbroken
  flatM := by
    cases e : M.flat with
    | false => rfl
    | true => exact absurd (h.flatM e) (h.nonempty hN)
  barsM := h.basisM.bars
  coordsM := ⟨h.rowsM, h.basisM.cols, h.basisM.len, h.redM⟩
  birthM := h.bornM
  deathM := death_of_dead h.basisM h.bornM
  rounding := h.rounding
  nonempty := h.nonempty hN
  flatN := by
    cases e : N.flat with
    | false => rfl
    | true => exact absurd (h.flatN e) hN
  dimN := h.dimN
  nonemptyN := hN
  barsN := h.basisN.bars
  coordsN := ⟨h.rowsN, h.basisN.cols, h.basisN.len, h.redN⟩
  birthN := h.bornN

/-- The rank in terms of spans of generators. -/
theorem quotRank_eq {p : ℕ} [Fact p.Prime] {amb : List (α × α)} {W N : Submodule (ZMod p) (ℕ → ZMod p)}
    [FiniteDimensional (ZMod p) N] [FiniteDimensional (ZMod p) W]
    {Mt Nt : α → Submodule (ZMod p) (ℕ → ZMod p)} {s t : α}
    (hN : Nt t = N) (hW : (Mt s).map (barRestr p amb t) = W) :
    quotRank p amb Mt Nt s t + Module.finrank (ZMod p) N = Module.finrank (ZMod p) ↥(N ⊔ W) := by
  unfold quotRank
  subst hN
  rw [Submodule.map_comp, hW]
  exact finrank_map_mkQ _ W

theorem quotient_barcode [Zero α] {rnd : α → α} {p : ℕ} {M N amb : Basis α}
    {Mt Nt : α → Submodule (ZMod p) (ℕ → ZMod p)} (h : QInput rnd p M N amb Mt Nt) :
    ∃ Q, quotient rnd p M N amb true = .ok Q ∧ (∀ b ∈ Q.barcode, b.1 < b.2) ∧
      ∀ s t, s ≤ t → barsThrough Q.barcode s t = quotRank p amb.barcode Mt Nt s t := by
  have := Fact.mk h.prime
  have hfin := fun bars C s t => bornSpan_finite (p := p) (amb := amb.barcode) (bars := bars) (C := C)
    (s := s) (t := t)
  by_cases hN : N.barcode = []
  · refine ⟨M, ?_, h.basisM.bars, fun s t hst => ?_⟩
    · unfold quotient
      rw [if_pos (by rw [h.dimN, hN]; rfl)]
    · have h1 := hfin M.barcode M.coords s t
      have hN0 : Nt t = ⊥ := by
        rw [← bornSpan_self h.basisN, bornSpan, hN]
        have : {x | ∃ i, BornBy (· ≤ t) ([] : List (α × α)) i ∧
            x = barRestr p amb.barcode t (N.coords.zcol p i)} = ∅ := by
          ext x
          simp [BornBy]
        rw [this, Submodule.span_empty]
      have h2 := quotRank_eq (W := bornSpan p amb.barcode M.barcode M.coords s t) hN0
        (bornSpan_eq h.basisM h.bornM hst).symm
      rw [bot_sup_eq, finrank_bot, Nat.add_zero, finrank_bornSpan h.basisM hst] at h2
      exact h2.symm
  · obtain ⟨Q, h1, h2⟩ := quotient_out (h.ok hN)
    refine ⟨Q, h1, h2.bars, fun s t hst => ?_⟩
    have f1 := hfin M.barcode M.coords s t
    have f2 := hfin N.barcode N.coords t t
    have h3 := quotRank_eq (W := bornSpan p amb.barcode M.barcode M.coords s t)
      (bornSpan_self h.basisN (t := t)).symm (bornSpan_eq h.basisM h.bornM hst).symm
    have h4 := h2.count s t hst
    unfold barsThrough
    omega

end Permaviss
