import Verif.Lemmas.Quot
import Verif.Lemmas.QuotTri
import Verif.Spec.ChainComplex

/-!
# `module_persistence_homology`
-/

namespace Permaviss

open Finset

variable {α : Type} [LinearOrder α]

theorem bornSpan_gen {p : ℕ} {amb : List (α × α)} {X : Basis α}
    {Mt : α → Submodule (ZMod p) (ℕ → ZMod p)} (h : GeneratesAt p amb X Mt) {t : α} :
    bornSpan p amb X.barcode X.coords t t = Mt t := by
  rw [← h.span t]
  apply le_antisymm
  · refine Submodule.span_le.2 ?_
    rintro x ⟨i, ⟨b, h1, h2⟩, rfl⟩
    by_cases h0 : barRestr p amb t (X.coords.zcol p i) = 0
    · rw [h0]; exact Submodule.zero_mem _
    by_cases h3 : t < b.2
    · exact Submodule.subset_span ⟨⟨i, ⟨b, h1, h2, h3⟩, h0⟩, rfl⟩
    · exact absurd (h.dead t i b h1 (not_lt.1 h3)) h0
  · refine Submodule.span_le.2 ?_
    rintro x ⟨⟨i, ⟨b, h1, h2, h3⟩, -⟩, rfl⟩
    exact Submodule.subset_span ⟨i, ⟨b, h1, h2⟩, rfl⟩

theorem IsBasisOf.bot_of_empty {p : ℕ} {amb : List (α × α)} {X : Basis α}
    {Mt : α → Submodule (ZMod p) (ℕ → ZMod p)} (h : IsBasisOf p amb X Mt) (hX : X.barcode = [])
    (t : α) : Mt t = ⊥ := by
  rw [← h.span t]
  have h4 : (Set.range fun i : {i // AliveBar X.barcode i t} =>
      barRestr p amb t (X.coords.zcol p i)) = ∅ := by
    rw [Set.range_eq_empty_iff]
    refine ⟨?_⟩
    rintro ⟨i, c, hc, -⟩
    rw [hX] at hc; simp at hc
  rw [h4, Submodule.span_empty]

/-- `quotient` when the generators of the submodule may live too long. -/
theorem quotient_gen [Zero α] {rnd : α → α} {p : ℕ} (hp : p.Prime) {M N amb : Basis α}
    {Mt Nt : α → Submodule (ZMod p) (ℕ → ZMod p)}
    (hflat : amb.flat = false) (hdim : amb.dim = amb.barcode.length)
    (hbars : ∀ b ∈ amb.barcode, b.1 < b.2) (hbr : amb.brokenDiff = none)
    (hM : BasisIn p amb.barcode M) (hMt : IsBasisOf p amb.barcode M Mt)
    (hrnd : ∀ a ∈ M.barcode, ∀ b ∈ M.barcode, rnd a.1 ≤ rnd b.1 → a.1 ≤ b.1)
    (hN : N.dim = N.barcode.length) (hNin : N.barcode ≠ [] → BasisIn p amb.barcode N)
    (hNt : GeneratesAt p amb.barcode N Nt) (hN0 : (∀ t, Nt t = ⊥) → N.barcode = [])
    (hsub : ∀ t, Nt t ≤ Mt t) :
    ∃ Q, quotient rnd p M N amb true = .ok Q ∧ (∀ b ∈ Q.barcode, b.1 < b.2) ∧
      (∀ s t, s ≤ t → barsThrough Q.barcode s t = quotRank p amb.barcode Mt Nt s t) ∧
      Q.dim = Q.barcode.length ∧ MatOK p amb.barcode.length Q.barcode.length Q.coords ∧
      ∀ (i : ℕ) (b : α × α), Q.barcode[i]? = some b → (∀ c ∈ N.barcode, c.1 ≤ b.1) →
        barRestr p amb.barcode b.1 (Q.coords.zcol p i) ∈ Mt b.1 := by
  have := Fact.mk hp
  have hfin := fun bars C s t => bornSpan_finite (p := p) (amb := amb.barcode) (bars := bars) (C := C)
    (s := s) (t := t)
  by_cases hNe : N.barcode = []
  · refine ⟨M, ?_, hM.bars, fun s t hst => ?_, hM.dim, ⟨hM.rows, hM.cols, hM.len, hM.red⟩,
      fun i b hb _ => ?_⟩
    rotate_left 2
    · have hmem := hM.bars b (List.mem_of_getElem? hb)
      rw [← hMt.span b.1]
      exact Submodule.subset_span ⟨⟨i, b, hb, le_rfl, hmem⟩, rfl⟩
    · unfold quotient
      rw [if_pos (by rw [hN, hNe]; rfl)]
    · have h1 := hfin M.barcode M.coords s t
      have hN0 : Nt t = ⊥ := by
        rw [← bornSpan_gen hNt, bornSpan, hNe]
        have : {x | ∃ i, BornBy (· ≤ t) ([] : List (α × α)) i ∧
            x = barRestr p amb.barcode t (N.coords.zcol p i)} = ∅ := by
          ext x
          simp [BornBy]
        rw [this, Submodule.span_empty]
      have h2 := quotRank_eq (W := bornSpan p amb.barcode M.barcode M.coords s t) hN0
        (bornSpan_eq hMt hM.born hst).symm
      rw [bot_sup_eq, finrank_bot, Nat.add_zero, finrank_bornSpan hMt hst] at h2
      exact h2.symm
  · have hMe : M.barcode ≠ [] := by
      intro hMe
      refine hNe (hN0 fun t => ?_)
      rw [eq_bot_iff, ← hMt.bot_of_empty hMe t]
      exact hsub t
    have hNi := hNin hNe
    have hq : QOK rnd p M N amb := {
      prime := hp
      flatB := hflat
      dimB := hdim
      barsB := hbars
      unbroken := hbr
      flatM := hM.flat
      barsM := hM.bars
      coordsM := ⟨hM.rows, hM.cols, hM.len, hM.red⟩
      birthM := hM.born
      deathM := death_of_dead hMt hM.born
      rounding := hrnd
      nonempty := hMe
      flatN := hNi.flat
      dimN := hN
      nonemptyN := hNe
      barsN := hNi.bars
      coordsN := ⟨hNi.rows, hNi.cols, hNi.len, hNi.red⟩
      birthN := hNi.born }
    obtain ⟨Q, h1, h2⟩ := quotient_out hq
    obtain ⟨Q', t1, t2, t3, t4⟩ := quotient_tri hq
    rw [h1] at t1
    obtain rfl := Except.ok.inj t1
    refine ⟨Q, h1, h2.bars, fun s t hst => ?_, t2, t3, fun i b hb hc => ?_⟩
    rotate_left
    · have hle : (Submodule.span (ZMod p) ({x | ∃ j < N.barcode.length, x = N.coords.zcol p j} ∪
          {x | ∃ j b', M.barcode[j]? = some b' ∧ b'.1 ≤ b.1 ∧ x = M.coords.zcol p j})).map
            (barRestr p amb.barcode b.1) ≤ Mt b.1 := by
        rw [Submodule.map_span, Submodule.span_le]
        rintro _ ⟨x, ⟨j, hj, rfl⟩ | ⟨j, b', hb', hle, rfl⟩, rfl⟩
        · refine hsub b.1 ?_
          rw [← bornSpan_gen hNt]
          exact Submodule.subset_span ⟨j, ⟨_, List.getElem?_eq_getElem hj, hc _ (List.getElem_mem hj)⟩, rfl⟩
        · have := bornSpan_eq hMt hM.born (le_refl b.1)
          have hid : (Mt b.1).map (barRestr p amb.barcode b.1) ≤ Mt b.1 := by
            rw [← this, ← hMt.span b.1]
            refine Submodule.span_le.2 ?_
            rintro _ ⟨i, ⟨c, hc1, hc2⟩, rfl⟩
            by_cases hd : b.1 < c.2
            · exact Submodule.subset_span ⟨⟨i, c, hc1, hc2, hd⟩, rfl⟩
            · rw [hMt.dead b.1 i c hc1 (not_lt.1 hd)]; exact Submodule.zero_mem _
          refine hid ?_
          rw [← this]
          exact Submodule.subset_span ⟨j, ⟨b', hb', hle⟩, rfl⟩
      exact hle ⟨_, t4 i b hb, rfl⟩
    have f1 := hfin M.barcode M.coords s t
    have f2 := hfin N.barcode N.coords t t
    have h3 := quotRank_eq (W := bornSpan p amb.barcode M.barcode M.coords s t)
      (bornSpan_gen hNt (t := t)).symm (bornSpan_eq hMt hM.born hst).symm
    have h4 := h2.count s t hst
    unfold barsThrough
    omega

/-- Nothing changes at radii which are not an end of a bar. -/
theorem aliveBar_congr {bars : List (α × α)} {s t : α}
    (h : ∀ b ∈ bars, (b.1 ≤ s ↔ b.1 ≤ t) ∧ (b.2 ≤ s ↔ b.2 ≤ t)) (i : ℕ) :
    AliveBar bars i s ↔ AliveBar bars i t := by
  unfold AliveBar
  constructor <;> rintro ⟨b, hb, h1, h2⟩
  · have := h b (List.mem_of_getElem? hb)
    exact ⟨b, hb, this.1.1 h1, lt_of_not_ge fun h3 => absurd (this.2.2 h3) (not_le.2 h2)⟩
  · have := h b (List.mem_of_getElem? hb)
    exact ⟨b, hb, this.1.2 h1, lt_of_not_ge fun h3 => absurd (this.2.1 h3) (not_le.2 h2)⟩

theorem barRestr_congr {p : ℕ} {bars : List (α × α)} {s t : α}
    (h : ∀ b ∈ bars, (b.1 ≤ s ↔ b.1 ≤ t) ∧ (b.2 ≤ s ↔ b.2 ≤ t)) :
    barRestr p bars s = barRestr p bars t := by
  unfold barRestr
  congr 1
  funext i
  exact propext (aliveBar_congr h i)

theorem kerAt_congr {p : ℕ} {A B : List (α × α)} {F : Mat} {s t : α}
    (hA : ∀ b ∈ A, (b.1 ≤ s ↔ b.1 ≤ t) ∧ (b.2 ≤ s ↔ b.2 ≤ t))
    (hB : ∀ b ∈ B, (b.1 ≤ s ↔ b.1 ≤ t) ∧ (b.2 ≤ s ↔ b.2 ≤ t)) :
    kerAt p A B F s = kerAt p A B F t := by
  unfold kerAt barModule morAt
  rw [barRestr_congr hA, barRestr_congr hB]

theorem kerAt_bot {p : ℕ} {A B : List (α × α)} {F : Mat} {t : α} (h : ∀ i, ¬ AliveBar A i t) :
    kerAt p A B F t = ⊥ := by
  rw [eq_bot_iff]
  intro x hx
  obtain ⟨⟨y, rfl⟩, -⟩ := hx
  rw [Submodule.mem_bot]
  unfold barRestr
  rw [restr_eq_zero]
  intro i hi
  exact absurd hi (h i)

/-- Kernel generators are born at an end of a bar. -/
theorem ker_birth {p : ℕ} (hp : p.Prime) {A B : List (α × α)} {F : Mat} {X : Basis α}
    (hX : BasisIn p A X) (h : IsBasisOf p A X (kerAt p A B F)) {b : α × α} (hb : b ∈ X.barcode) :
    ∃ c ∈ A ++ B, b.1 = c.1 ∨ b.1 = c.2 := by
  classical
  have := Fact.mk hp
  by_contra hno
  let L : Finset α := ((A ++ B).map Prod.fst ++ (A ++ B).map Prod.snd).toFinset.filter (· ≤ b.1)
  have hL : ∀ x, x ∈ L ↔ (∃ c ∈ A ++ B, x = c.1 ∨ x = c.2) ∧ x ≤ b.1 := by
    intro x
    simp only [L, Finset.mem_filter, List.mem_toFinset]
    rw [List.mem_append, List.mem_map, List.mem_map]
    constructor
    · rintro ⟨⟨c, hc, rfl⟩ | ⟨c, hc, rfl⟩, h2⟩
      · exact ⟨⟨c, hc, Or.inl rfl⟩, h2⟩
      · exact ⟨⟨c, hc, Or.inr rfl⟩, h2⟩
    · rintro ⟨⟨c, hc, rfl | rfl⟩, h2⟩
      · exact ⟨Or.inl ⟨c, hc, rfl⟩, h2⟩
      · exact ⟨Or.inr ⟨c, hc, rfl⟩, h2⟩
  obtain ⟨i, hi, hib⟩ := List.getElem_of_mem hb
  have hget : X.barcode[i]? = some b := by rw [List.getElem?_eq_getElem hi, hib]
  by_cases hne : L.Nonempty
  · obtain ⟨s, hs, hmax⟩ := L.exists_max_image id hne
    obtain ⟨⟨c, hc, hcs⟩, hsb⟩ := (hL s).1 hs
    have hlt : s < b.1 := lt_of_le_of_ne hsb fun e => hno ⟨c, hc, e ▸ hcs⟩
    have key : ∀ x, (∃ c ∈ A ++ B, x = c.1 ∨ x = c.2) → (x ≤ s ↔ x ≤ b.1) := by
      intro x hx
      exact ⟨fun h => h.trans hsb, fun h => hmax x ((hL x).2 ⟨hx, h⟩)⟩
    have hA : ∀ c ∈ A, (c.1 ≤ s ↔ c.1 ≤ b.1) ∧ (c.2 ≤ s ↔ c.2 ≤ b.1) := fun c hc =>
      ⟨key _ ⟨c, List.mem_append_left _ hc, Or.inl rfl⟩,
        key _ ⟨c, List.mem_append_left _ hc, Or.inr rfl⟩⟩
    have hB : ∀ c ∈ B, (c.1 ≤ s ↔ c.1 ≤ b.1) ∧ (c.2 ≤ s ↔ c.2 ≤ b.1) := fun c hc =>
      ⟨key _ ⟨c, List.mem_append_right _ hc, Or.inl rfl⟩,
        key _ ⟨c, List.mem_append_right _ hc, Or.inr rfl⟩⟩
    have e1 := bornSpan_eq h hX.born hsb
    rw [kerAt_congr hA hB, ← bornSpan_eq h hX.born le_rfl] at e1
    have e2 := finrank_bornSpan h hsb
    rw [e1, finrank_bornSpan h le_rfl] at e2
    unfold barsThrough at e2
    rw [countP_range, countP_range] at e2
    have hss : ((range X.barcode.length).filter fun j => ∃ c, X.barcode[j]? = some c ∧
        (decide (c.1 ≤ s) && decide (b.1 < c.2)) = true) ⊂
        ((range X.barcode.length).filter fun j => ∃ c, X.barcode[j]? = some c ∧
        (decide (c.1 ≤ b.1) && decide (b.1 < c.2)) = true) := by
      rw [Finset.ssubset_iff_of_subset]
      · refine ⟨i, ?_, ?_⟩
        · simp only [Finset.mem_filter, mem_range]
          exact ⟨hi, b, hget, by simpa using hX.bars b hb⟩
        · simp only [Finset.mem_filter, mem_range, not_and, not_exists]
          intro _ c hc
          rw [hget, Option.some.injEq] at hc
          subst hc
          simp [hlt]
      · intro j hj
        simp only [Finset.mem_filter, mem_range] at hj ⊢
        obtain ⟨h1, c, h2, h3⟩ := hj
        refine ⟨h1, c, h2, ?_⟩
        simp only [Bool.and_eq_true, decide_eq_true_eq] at h3 ⊢
        exact ⟨h3.1.trans hsb, h3.2⟩
    have h9 := Finset.card_lt_card hss
    refine absurd e2.symm (Nat.ne_of_lt ?_)
    convert h9
  · have hbot : kerAt p A B F b.1 = ⊥ := by
      refine kerAt_bot ?_
      rintro j ⟨c, hc, h1, -⟩
      exact hne ⟨c.1, (hL _).2 ⟨⟨c, List.mem_append_left _ (List.mem_of_getElem? hc), Or.inl rfl⟩, h1⟩⟩
    have hal : AliveBar X.barcode i b.1 := ⟨b, hget, le_rfl, hX.bars b hb⟩
    refine (h.indep b.1).ne_zero ⟨i, hal⟩ ?_
    have h2 : barRestr p A b.1 (X.coords.zcol p i) ∈ kerAt p A B F b.1 := by
      rw [← h.span b.1]
      exact Submodule.subset_span ⟨⟨i, hal⟩, rfl⟩
    rw [hbot, Submodule.mem_bot] at h2
    exact h2

/-- Matrices whose product vanishes wherever the bars overlap give a chain complex. -/
theorem imAt_le_kerAt_of {p : ℕ} {A B C : List (α × α)} {F G : Mat} (hF : IsMorphism p A B F)
    (hG : IsMorphism p B C G) (t : α) (h : ∀ x i, AliveBar C i t →
      G.mulVecL p (F.mulVecL p (barRestr p A t x)) i = 0) :
    imAt p A B F t ≤ kerAt p B C G t := by
  rintro x ⟨y, -, rfl⟩
  refine ⟨⟨_, rfl⟩, ?_⟩
  change morAt p B C G t (morAt p A B F t y) = 0
  set z := barRestr p A t y with hz
  have e : morAt p A B F t y = barRestr p B t (F.mulVecL p z) := rfl
  rw [e]
  unfold morAt
  rw [LinearMap.comp_apply, LinearMap.comp_apply]
  have e2 : barRestr p B t (barRestr p B t (F.mulVecL p z)) = barRestr p B t (F.mulVecL p z) := by
    unfold barRestr; rw [restr_restr]
  rw [e2]
  unfold barRestr
  rw [restr_eq_zero]
  intro i hi
  have h0 := h y i hi
  have h1 : G.mulVecL p (F.mulVecL p z - restr (fun r => AliveBar B r t) (F.mulVecL p z)) i = 0 := by
    change ∑ k ∈ Finset.range G.ncols, G.z p i k * (F.mulVecL p z - restr (fun r => AliveBar B r t) (F.mulVecL p z)) k = 0
    refine Finset.sum_eq_zero fun k _ => ?_
    by_contra hne
    have hG0 : G.z p i k ≠ 0 := fun e => hne (by rw [e, zero_mul])
    have hw : (F.mulVecL p z - restr (fun r => AliveBar B r t) (F.mulVecL p z)) k ≠ 0 :=
      fun e => hne (by rw [e, mul_zero])
    have hk : ¬ AliveBar B k t := by
      intro hk
      apply hw
      rw [Pi.sub_apply, restr_apply_pos hk, sub_self]
    rw [Pi.sub_apply, restr_apply_neg hk, sub_zero] at hw
    change ∑ j ∈ Finset.range F.ncols, F.z p k j * z j ≠ 0 at hw
    obtain ⟨j, -, hj⟩ := Finset.exists_ne_zero_of_sum_ne_zero hw
    have hF0 : F.z p k j ≠ 0 := fun e => hj (by rw [e, zero_mul])
    have hzj : z j ≠ 0 := fun e => hj (by rw [e, mul_zero])
    have haj : AliveBar A j t := by
      by_contra haj
      apply hzj
      rw [hz]; unfold barRestr
      rw [restr_apply_neg haj]
    obtain ⟨a, ha, ha1, ha2⟩ := haj
    obtain ⟨c, hc, hc1, hc2⟩ := hi
    have hkB : k < B.length := by
      by_contra hlt
      apply hF0
      unfold Mat.z Mat.get
      have : (F.cols.getD j []).length ≤ B.length := by
        rcases lt_or_ge j F.cols.length with h2 | h2
        · rw [List_getD_eq_getElem _ _ h2, hF.shape _ (List.getElem_mem h2), hF.rows]
        · rw [List.getD_eq_getElem?_getD, List.getElem?_eq_none h2]; simp
      rw [List.getD_eq_getElem?_getD (i := k), List.getElem?_eq_none (by omega)]
      simp
    have hb := List.getElem?_eq_getElem hkB
    have h3 := hF.birth k j a _ ha hb hF0
    have h4 := hG.death i k _ c hb hc hG0
    exact hk ⟨_, hb, h3.trans ha1, lt_of_lt_of_le hc2 h4⟩
  rw [map_sub, Pi.sub_apply, sub_eq_zero] at h1
  rw [← h1]
  exact h0

/-- Matrices with product zero give a chain complex. -/
theorem imAt_le_kerAt {p : ℕ} {A B C : List (α × α)} {F G : Mat} (hF : IsMorphism p A B F)
    (hG : IsMorphism p B C G) (h : ∀ x, G.mulVecL p (F.mulVecL p x) = 0) (t : α) :
    imAt p A B F t ≤ kerAt p B C G t :=
  imAt_le_kerAt_of hF hG t fun x i _ => congrFun (h _) i

/-! ### The loop -/

theorem barsAt_eq {Base : List (Basis α)} {d : ℕ} {X : Basis α} (h : Base[d]? = some X) :
    barsAt Base d = X.barcode := by
  unfold barsAt; rw [h]; rfl

/-- What is known about `Im[d]`. -/
structure ImGood (p : ℕ) (D : List Mat) (Base : List (Basis α)) (d : ℕ) (I : Basis α) : Prop where
  dim : I.dim = I.barcode.length
  isIn : I.barcode ≠ [] → BasisIn p (barsAt Base d) I
  gen : GeneratesAt p (barsAt Base d) I (modBounds p D Base d)
  zero : (∀ t, modBounds p D Base d t = ⊥) → I.barcode = []
  births : ∀ t, (∀ a ∈ barsAt Base (d + 1), a.1 ≤ t) → ∀ c ∈ I.barcode, c.1 ≤ t

/-- The generators of `Hom[d]` are cycles at their births, once all boundaries are born. -/
structure HomGens (p : ℕ) (D : List Mat) (Base : List (Basis α)) (d : ℕ) (H : Basis α) : Prop where
  dim : H.dim = H.barcode.length
  mat : H.barcode ≠ [] → MatOK p (barsAt Base d).length H.barcode.length H.coords
  cyc : ∀ (i : ℕ) (b : α × α), H.barcode[i]? = some b → (∀ a ∈ barsAt Base (d + 1), a.1 ≤ b.1) →
    barRestr p (barsAt Base d) b.1 (H.coords.zcol p i) ∈ modCycles p D Base d b.1

/-- What is known about `Hom[d]`. -/
structure HomGood (p : ℕ) (D : List Mat) (Base : List (Basis α)) (d : ℕ) (H : Basis α) : Prop where
  bars : ∀ b ∈ H.barcode, b.1 < b.2
  count : ∀ s t, s ≤ t → barsThrough H.barcode s t = homRank p D Base d s t
  gens : (barsAt Base d ≠ [] → d ≠ 0 → barsAt Base (d - 1) ≠ []) → HomGens p D Base d H

theorem imAt_bot_left {p : ℕ} {A B : List (α × α)} {F : Mat} (h : A = []) (t : α) :
    imAt p A B F t = ⊥ := by
  subst h
  rw [eq_bot_iff]
  rintro x ⟨y, ⟨z, rfl⟩, rfl⟩
  have : barRestr p ([] : List (α × α)) t z = 0 := by
    unfold barRestr
    rw [restr_eq_zero]
    rintro i ⟨b, hb, -⟩
    simp at hb
  rw [this, map_zero]; exact Submodule.zero_mem _

theorem imAt_bot_right {p : ℕ} {A B : List (α × α)} {F : Mat} (h : B = []) (t : α) :
    imAt p A B F t = ⊥ := by
  subst h
  rw [eq_bot_iff]
  rintro x ⟨y, -, rfl⟩
  unfold morAt
  rw [Submodule.mem_bot, LinearMap.comp_apply]
  unfold barRestr
  rw [restr_eq_zero]
  rintro i ⟨b, hb, -⟩
  simp at hb

theorem imGood_empty {p : ℕ} {D : List Mat} {Base : List (Basis α)} {d : ℕ} {I : Basis α}
    (hI : I.barcode = []) (hd : I.dim = 0) (h : ∀ t, modBounds p D Base d t = ⊥) :
    ImGood p D Base d I := by
  have hno : ∀ t i, ¬ AliveBar I.barcode i t := by
    rintro t i ⟨b, hb, -⟩
    rw [hI] at hb; simp at hb
  refine ⟨by rw [hd, hI]; rfl, fun h => absurd hI h, ⟨?_, ?_, ?_⟩, fun _ => hI, fun t _ c hc => by rw [hI] at hc; simp at hc⟩
  · intro t
    have : IsEmpty {i // AliveBar I.barcode i t ∧
        barRestr p (barsAt Base d) t (I.coords.zcol p i) ≠ 0} := ⟨fun x => hno t x.1 x.2.1⟩
    exact linearIndependent_empty_type
  · intro t
    have : IsEmpty {i // AliveBar I.barcode i t ∧
        barRestr p (barsAt Base d) t (I.coords.zcol p i) ≠ 0} := ⟨fun x => hno t x.1 x.2.1⟩
    rw [Set.range_eq_empty, Submodule.span_empty, h]
  · intro t i b hb
    rw [hI] at hb; simp at hb

theorem map_zero_rank {K V V' : Type*} [Field K] [AddCommGroup V] [Module K V] [AddCommGroup V']
    [Module K V'] (f : V →ₗ[K] V') : Module.finrank K ((⊥ : Submodule K V).map f) = 0 := by
  rw [Submodule.map_bot, finrank_bot]

theorem homGood_empty {p : ℕ} (hp : p.Prime) {D : List Mat} {Base : List (Basis α)} {d : ℕ}
    {H : Basis α} (hH : H.barcode = []) (hd : H.dim = 0) (h : barsAt Base d = []) : HomGood p D Base d H := by
  have := Fact.mk hp
  refine ⟨by rw [hH]; simp, fun s t _ => ?_, fun _ => ⟨by rw [hd, hH]; rfl, fun h => absurd hH h,
    fun i b hb => by rw [hH] at hb; simp at hb⟩⟩
  have hc : ∀ t, modCycles p D Base d t = ⊥ := by
    intro t
    rw [eq_bot_iff]
    have hb : barModule p (barsAt Base d) t ≤ ⊥ := by
      rintro x ⟨y, rfl⟩
      rw [h, Submodule.mem_bot]
      unfold barRestr
      rw [restr_eq_zero]
      rintro i ⟨b, hb, -⟩
      simp at hb
    cases d with
    | zero => exact hb
    | succ d => exact inf_le_left.trans hb
  unfold homRank quotRank
  rw [hc, map_zero_rank, hH]
  rfl

/-- In degree `d`, with both modules nonzero. -/
theorem mph_degree [Zero α] {rnd : α → α} {p : ℕ} {D : List Mat} {Base : List (Basis α)}
    (h : ChainInput rnd p D Base) {d : ℕ} {A B : Basis α} (hA : Base[d + 1]? = some A)
    (hB : Base[d]? = some B) (hA0 : A.barcode ≠ []) (hB0 : B.barcode ≠ []) {I : Basis α}
    (hI : ImGood p D Base (d + 1) I) :
    ∃ F im ker pre Q, D[d + 1]? = some F ∧ imageKernel rnd p A B F 0 = .ok ⟨im, some ker, pre⟩ ∧
      quotient rnd p ker I A true = .ok Q ∧ ImGood p D Base d im ∧ HomGood p D Base (d + 1) Q := by
  have mA := List.mem_of_getElem? hA
  have mB := List.mem_of_getElem? hB
  have eA := barsAt_eq hA
  have eB := barsAt_eq hB
  have fl : ∀ X ∈ Base, X.barcode ≠ [] → X.flat = false := by
    intro X hX h0
    cases e : X.flat with
    | false => rfl
    | true => exact absurd (h.flat X hX e) h0
  obtain ⟨F, hF, hmor⟩ := h.mor d (eB ▸ hB0) (eA ▸ hA0)
  have hDF : diffAt D (d + 1) = F := by
    unfold diffAt; rw [List.getD_eq_getElem?_getD, hF]; rfl
  have hin : IKInput rnd p A B F := {
    prime := h.prime
    flatA := fl A mA hA0
    flatB := fl B mB hB0
    dimA := h.dim A mA
    dimB := h.dim B mB
    barsA := h.bars A mA
    barsB := h.bars B mB
    nonempty := hA0
    unbroken := h.unbroken B mB
    mor := by rw [eA, eB] at hmor; exact hmor
    sorted := h.sorted A mA
    rounding := fun _ a ha b hb hr => h.rounding A mA A mA a ha b hb _ (Or.inl rfl) _ (Or.inl rfl) hr }
  obtain ⟨im, ker, pre, h1, h2, h3, h4, h5, h6, h7, h8, -⟩ := imageKernel_abs hin
  have hker : modCycles p D Base (d + 1) = kerAt p A.barcode B.barcode F := by
    funext t
    change kerAt p _ _ _ t = _
    rw [eA, eB, hDF]
  have him : modBounds p D Base d = imAt p A.barcode B.barcode F := by
    funext t
    unfold modBounds
    rw [eA, eB, hDF]
  have hg := hI.gen
  rw [eA] at hg
  have hi := hI.isIn
  rw [eA] at hi
  obtain ⟨Q, q1, q2, q3, q4, q5, q6⟩ := quotient_gen (rnd := rnd) h.prime (amb := A) hin.flatA hin.dimA hin.barsA
    (h.unbroken A mA) h2 h4 (fun a ha b hb hr => by
      obtain ⟨x, hx, hx'⟩ := ker_birth h.prime h2 h4 ha
      obtain ⟨y, hy, hy'⟩ := ker_birth h.prime h2 h4 hb
      have key : ∀ z ∈ A.barcode ++ B.barcode, ∃ X ∈ Base, z ∈ X.barcode := by
        intro z hz
        rcases List.mem_append.1 hz with h | h
        · exact ⟨A, mA, h⟩
        · exact ⟨B, mB, h⟩
      obtain ⟨X, mX, hX⟩ := key x hx
      obtain ⟨Y, mY, hY⟩ := key y hy
      exact h.rounding X mX Y mY x hX y hY _ hx' _ hy' hr)
    hI.dim hi hg hI.zero (fun t => hker ▸ h.complex (d + 1) t)
  refine ⟨F, im, ker, pre, Q, hF, h1, q1, ⟨h3.dim, fun _ => by rw [eB]; exact h3, ?_, ?_, ?_⟩, q2, ?_,
    fun _ => ⟨q4, fun _ => by rw [eA]; exact q5, fun i b hb hall => ?_⟩⟩
  · rw [eB, him]
    exact ⟨fun t => (h5 t).1, fun t => (h5 t).2, h6⟩
  · rw [him]; exact h7
  · intro t ht c hc
    obtain ⟨a, ha, e⟩ := h8 c hc
    rw [e]; exact ht a (by rw [eA]; exact ha)
  · intro s t hst
    rw [q3 s t hst]
    unfold homRank
    rw [eA, hker]
  · rw [eA, hker]
    exact q6 i b hb (hI.births b.1 hall)

/-- The stored homology in degree `d`: right unless the next module is zero and this one is not, and then it
is the module itself. -/
structure HomAt (p : ℕ) (D : List Mat) (Base : List (Basis α)) (d : ℕ) (H : Basis α) : Prop where
  good : (0 < d → barsAt Base (d - 1) = [] → barsAt Base d ≠ [] → ∀ t, modBounds p D Base d t = ⊥) →
    HomGood p D Base d H
  whole : 0 < d → barsAt Base (d - 1) = [] → barsAt Base d ≠ [] → Base[d]? = some H

/-- The state of the loop after the degrees above `d` were done. -/
structure MPHInv (p : ℕ) (D : List Mat) (Base : List (Basis α)) (d : ℕ) (st : MPH α) : Prop where
  homLen : st.hom.length = Base.length
  imLen : st.im.length = Base.length
  hom : ∀ e, d < e → e < Base.length → ∃ H, st.hom[e]? = some (some H) ∧ HomAt p D Base e H
  im : ∀ e, d ≤ e → e < Base.length → ∃ I, st.im[e]? = some (some I) ∧ ImGood p D Base e I

theorem MPHInv.update {p : ℕ} {D : List Mat} {Base : List (Basis α)} {d : ℕ} {st st' : MPH α}
    (h : MPHInv p D Base (d + 1) st) (hd : d + 1 < Base.length) {H I : Basis α}
    (e1 : st'.hom = st.hom.set (d + 1) (some H)) (e2 : st'.im = st.im.set d (some I))
    (hH : HomAt p D Base (d + 1) H) (hI : ImGood p D Base d I) : MPHInv p D Base d st' := by
  refine ⟨by rw [e1, List.length_set, h.homLen], by rw [e2, List.length_set, h.imLen], ?_, ?_⟩
  · intro e he hl
    rw [e1]
    by_cases hed : e = d + 1
    · subst hed
      exact ⟨H, List.getElem?_set_self (by rw [h.homLen]; exact hl), hH⟩
    · rw [List.getElem?_set_ne (Ne.symm hed)]
      exact h.hom e (by omega) hl
  · intro e he hl
    rw [e2]
    by_cases hed : e = d
    · subst hed
      exact ⟨I, List.getElem?_set_self (by rw [h.imLen]; exact hl), hI⟩
    · rw [List.getElem?_set_ne (Ne.symm hed)]
      exact h.im e (by omega) hl

theorem identity_zcol {p n k : ℕ} (h : k < n) :
    (⟨n, identityCols n⟩ : Mat).zcol p k = Pi.single k 1 := zv_identity h

/-- All generators form a basis of the whole module. -/
theorem full_isBasisOf {p : ℕ} (hp : p.Prime) {bars : List (α × α)} {idx : List ℕ}
    (h : Picks bars idx) {X : Basis α} (hbar : X.barcode = gather bars idx)
    (hco : X.coords.cols = gather (identityCols bars.length) idx) :
    IsBasisOf p bars X (barModule p bars) := by
  classical
  have := Fact.mk hp
  refine picks_isBasisOf (M := ⟨bars.length, identityCols bars.length⟩) h hbar hco
    (by simp [Mat.ncols, identityCols])
    (identity_ok hp.one_lt _).len ?_
  intro t
  let W : Finset ℕ := (range bars.length).filter fun i => AliveBar bars i t
  have hW : ∀ k, k ∈ W ↔ AliveBar bars k t := by
    intro k
    simp only [W, Finset.mem_filter, mem_range]
    refine ⟨fun h => h.2, fun h => ⟨?_, h⟩⟩
    obtain ⟨b, hb, -⟩ := h
    exact (List.getElem?_eq_some_iff.1 hb).1
  have hlt : ∀ k, AliveBar bars k t → k < bars.length := by
    rintro k ⟨b, hb, -⟩
    exact (List.getElem?_eq_some_iff.1 hb).1
  have hres : ∀ k, AliveBar bars k t →
      barRestr p bars t ((⟨bars.length, identityCols bars.length⟩ : Mat).zcol p k) =
        Pi.single k 1 := by
    intro k hk
    rw [identity_zcol (hlt k hk)]
    funext i
    unfold barRestr
    by_cases hi : AliveBar bars i t
    · rw [restr_apply_pos hi]
    · rw [restr_apply_neg hi, Pi.single_eq_of_ne]
      rintro rfl; exact hi hk
  refine ⟨W, hW, ?_, ?_, ?_⟩
  · refine indep_of_pivots (S := fun i => AliveBar bars i t)
      (fun k => (⟨bars.length, identityCols bars.length⟩ : Mat).zcol p k) id ?_ (fun _ _ _ _ e => e)
    intro j hj
    have hj' := (hW j).1 hj
    rw [identity_zcol (hlt j hj')]
    refine ⟨hj', by simp, fun i hi _ => Pi.single_eq_of_ne (ne_of_gt hi) _⟩
  · apply le_antisymm
    · refine Submodule.span_le.2 ?_
      rintro x ⟨k, rfl⟩
      exact ⟨_, rfl⟩
    · rintro x ⟨y, rfl⟩
      have : barRestr p bars t y = ∑ k ∈ W, y k • (Pi.single k 1 : ℕ → ZMod p) := by
        funext i
        rw [Finset.sum_apply]
        unfold barRestr
        by_cases hi : AliveBar bars i t
        · rw [restr_apply_pos hi, Finset.sum_eq_single i]
          · simp
          · intro k _ hk; simp [Ne.symm hk]
          · intro h; exact absurd ((hW i).2 hi) h
        · rw [restr_apply_neg hi]
          symm
          refine Finset.sum_eq_zero fun k hk => ?_
          have : i ≠ k := by rintro rfl; exact hi ((hW i).1 hk)
          simp [this]
      rw [this]
      refine Submodule.sum_mem _ fun k hk => Submodule.smul_mem _ _ (Submodule.subset_span ⟨⟨k, hk⟩, ?_⟩)
      exact hres k ((hW k).1 hk)
  · intro k b hb _ hbt
    have hk : k < bars.length := (List.getElem?_eq_some_iff.1 hb).1
    rw [identity_zcol hk]
    unfold barRestr
    rw [restr_eq_zero]
    rintro i hi
    by_cases hik : i = k
    · subst hik
      obtain ⟨b', hb', -, h2⟩ := hi
      rw [hb, Option.some.injEq] at hb'
      subst hb'
      exact absurd hbt (not_le.2 h2)
    · exact Pi.single_eq_of_ne hik _

theorem identity_born {p : ℕ} {bars : List (α × α)} :
    ∀ k b r c, bars[k]? = some b → bars[r]? = some c →
      (⟨bars.length, identityCols bars.length⟩ : Mat).zcol p k r ≠ 0 → c.1 ≤ b.1 := by
  intro k b r c hb hc hne
  rw [identity_zcol (List.getElem?_eq_some_iff.1 hb).1] at hne
  by_cases hrk : r = k
  · subst hrk
    rw [hb, Option.some.injEq] at hc
    rw [hc]
  · exact absurd (Pi.single_eq_of_ne hrk _) hne

theorem picks_range {bars : List (α × α)} (h : ∀ b ∈ bars, b.1 < b.2) :
    Picks bars (List.range bars.length) where
  nodup := List.nodup_range
  mem := by
    intro k
    rw [List.mem_range]
    constructor
    · intro hk
      exact ⟨bars[k], List.getElem?_eq_getElem hk, h _ (List.getElem_mem hk)⟩
    · rintro ⟨b, hb, -⟩
      exact (List.getElem?_eq_some_iff.1 hb).1

omit [LinearOrder α] in
theorem gather_range_self {β : Type} (l : List β) : gather l (List.range l.length) = l := by
  apply List.ext_getElem?
  intro i
  rw [gather_getElem? (fun i hi => List.mem_range.1 hi)]
  by_cases hi : i < l.length
  · simp [hi]
  · rw [List.getElem?_eq_none (by simpa using hi), List.getElem?_eq_none (by simpa using hi)]
    rfl

/-- Nothing is divided out when there are no boundaries, and everything is a cycle when the next
module is zero. -/
theorem homGood_all {p : ℕ} (hp : p.Prime) {D : List Mat} {Base : List (Basis α)} {d : ℕ}
    {A : Basis α} (hA : Base[d + 1]? = some A) (hbars : ∀ b ∈ A.barcode, b.1 < b.2)
    (h0 : barsAt Base d = []) (hA0 : A.barcode ≠ [])
    (hb : ∀ t, modBounds p D Base (d + 1) t = ⊥) : HomGood p D Base (d + 1) A := by
  have := Fact.mk hp
  have eA := barsAt_eq hA
  refine ⟨hbars, fun s t hst => ?_, fun hne => absurd h0 (hne (by rw [eA]; exact hA0) (by omega))⟩
  have hc : modCycles p D Base (d + 1) = barModule p A.barcode := by
    funext t
    change kerAt p _ _ _ t = _
    rw [h0, eA]
    unfold kerAt
    rw [inf_eq_left]
    intro x _
    rw [LinearMap.mem_ker]
    unfold morAt
    rw [LinearMap.comp_apply]
    unfold barRestr
    rw [restr_eq_zero]
    rintro i ⟨b, hb, -⟩
    simp at hb
  let n := A.barcode.length
  let X : Basis α := ⟨A.barcode, false, n, some n, ⟨n, identityCols n⟩, true, none, none⟩
  have hlen : (identityCols n).length = n := by simp [identityCols]
  have hp := picks_range hbars
  have e1 : X.barcode = gather A.barcode (List.range A.barcode.length) := (gather_range_self _).symm
  have e2 : X.coords.cols = gather (identityCols n) (List.range n) := by
    have := gather_range_self (identityCols n)
    rw [hlen] at this
    exact this.symm
  have hX : IsBasisOf p A.barcode X (barModule p A.barcode) := full_isBasisOf ‹p.Prime› hp e1 e2
  have hb' : BornInTime p A.barcode X := fun r i a b ha hb hne => identity_born i a r b ha hb hne
  have f1 : FiniteDimensional (ZMod p) (bornSpan p A.barcode X.barcode X.coords s t) := bornSpan_finite
  have h2 := quotRank_eq (W := bornSpan p A.barcode X.barcode X.coords s t) (hb t)
    (bornSpan_eq hX hb' hst).symm
  rw [bot_sup_eq, finrank_bot, Nat.add_zero, finrank_bornSpan hX hst] at h2
  unfold homRank
  rw [eA, hc, h2]

theorem mphStep_good [Zero α] {rnd : α → α} {p : ℕ} {D : List Mat} {Base : List (Basis α)}
    (h : ChainInput rnd p D Base) {d : ℕ} (hd : d + 1 < Base.length) {st : MPH α} (hst : MPHInv p D Base (d + 1) st) :
    ∃ st', mphStep rnd p D Base st (d + 1) = .ok st' ∧ MPHInv p D Base d st' := by
  have hA := List.getElem?_eq_getElem hd
  have hB := List.getElem?_eq_getElem (show d < Base.length by omega)
  set A := Base[d + 1] with eA
  set B := Base[d] with eB
  have mA := List.mem_of_getElem? hA
  have mB := List.mem_of_getElem? hB
  have dA : A.dim = 0 ↔ A.barcode = [] := by rw [h.dim A mA, List.length_eq_zero_iff]
  have dB : B.dim = 0 ↔ B.barcode = [] := by rw [h.dim B mB, List.length_eq_zero_iff]
  unfold mphStep
  rw [Nat.add_sub_cancel, hA, hB]
  dsimp only
  by_cases hA0 : A.dim = 0
  · rw [if_pos hA0]
    have e0 : barsAt Base (d + 1) = [] := by rw [barsAt_eq hA]; exact dA.1 hA0
    exact ⟨_, rfl, hst.update hd rfl rfl
      ⟨fun _ => homGood_empty h.prime rfl rfl e0, fun _ _ hne => absurd e0 hne⟩
      (imGood_empty rfl rfl fun t => imAt_bot_left e0 t)⟩
  · rw [if_neg hA0]
    by_cases hB0 : B.dim = 0
    · rw [if_pos hB0]
      have e0 : barsAt Base d = [] := by rw [barsAt_eq hB]; exact dB.1 hB0
      exact ⟨_, rfl, hst.update hd rfl rfl
        ⟨fun hgap => homGood_all h.prime hA (h.bars A mA) e0 (fun h => hA0 (dA.2 h))
          (hgap (by omega) e0 (by rw [barsAt_eq hA]; exact fun h => hA0 (dA.2 h))), fun _ _ _ => hA⟩
        (imGood_empty (dB.1 hB0) hB0 fun t => imAt_bot_right e0 t)⟩
    · rw [if_neg hB0]
      obtain ⟨I, i1, i2⟩ := hst.im (d + 1) le_rfl hd
      obtain ⟨F, im, ker, pre, Q, h1, h2, h3, h4, h5⟩ :=
        mph_degree h hA hB (fun h => hA0 (dA.2 h)) (fun h => hB0 (dB.2 h)) i2
      simp only [h1, h2, i1, h3, bind, Except.bind, pure, Except.pure]
      exact ⟨_, rfl, hst.update hd rfl rfl ⟨fun _ => h5, fun _ hz _ =>
        absurd (show barsAt Base d = [] from hz) (by rw [barsAt_eq hB]; exact fun h => hB0 (dB.2 h))⟩ h4⟩

theorem mph_all [Zero α] {rnd : α → α} {p : ℕ} {D : List Mat} {Base : List (Basis α)}
    (h : ChainInput rnd p D Base) :
    ∃ out, modulePersistenceHomology rnd p D Base = .ok out ∧
      out.hom.length = Base.length ∧ out.im.length = Base.length ∧
      ∀ d, d < Base.length → (∃ H, out.hom[d]? = some (some H) ∧ HomAt p D Base d H) ∧
        ∃ I, out.im[d]? = some (some I) ∧ ImGood p D Base d I := by
  have hl : 0 < Base.length := List.length_pos_iff.2 h.nonempty
  have htop : Base.length - 1 < Base.length := by omega
  have e0 := List.getElem?_eq_getElem htop
  unfold modulePersistenceHomology
  rw [e0]
  dsimp only
  rw [List.foldlM_map]
  set top := Base[Base.length - 1]
  set st0 : MPH α :=
    { hom := List.replicate Base.length none
      im := (List.replicate Base.length none).set (Base.length - 1) (some (emptyBasis top))
      preIm := List.replicate Base.length none } with hst0
  have h0 : MPHInv p D Base (Base.length - 1) st0 := by
    refine ⟨by simp [hst0], by simp [hst0], fun e h1 h2 => by omega, fun e h1 h2 => ?_⟩
    have : e = Base.length - 1 := by omega
    subst this
    refine ⟨emptyBasis top, ?_, imGood_empty rfl rfl fun t => imAt_bot_left ?_ t⟩
    · simp [hst0, hl]
    · unfold barsAt
      rw [List.getElem?_eq_none (by omega)]; rfl
  obtain ⟨st, h1, h2⟩ := foldlM_range_inv
    (fun s i => mphStep rnd p D Base s (Base.length - 1 - i))
    (fun i s => MPHInv p D Base (Base.length - 1 - i) s) (Base.length - 1) st0 h0
    (fun i hi s hs => by
      obtain ⟨d, hd⟩ : ∃ d, Base.length - 1 - i = d + 1 := ⟨Base.length - 1 - i - 1, by omega⟩
      have hd' : Base.length - 1 - (i + 1) = d := by omega
      rw [hd'] 
      rw [hd] at hs ⊢
      exact mphStep_good h (by omega) hs)
  rw [h1]
  rw [Nat.sub_self] at h2
  simp only [bind, Except.bind]
  obtain ⟨I, i1, i2⟩ := h2.im 0 le_rfl hl
  have hB := List.getElem?_eq_getElem hl
  set B := Base[0]
  have mB := List.mem_of_getElem? hB
  have eB := barsAt_eq hB
  have fin : ∀ H, HomGood p D Base 0 H →
      (st.hom.set 0 (some H)).length = Base.length ∧ st.im.length = Base.length ∧
      ∀ d, d < Base.length →
        (∃ H', (st.hom.set 0 (some H))[d]? = some (some H') ∧ HomAt p D Base d H') ∧
        ∃ I, st.im[d]? = some (some I) ∧ ImGood p D Base d I := by
    intro H hH
    refine ⟨by rw [List.length_set, h2.homLen], h2.imLen, fun d hd => ⟨?_, h2.im d (by omega) hd⟩⟩
    by_cases hd0 : d = 0
    · subst hd0
      exact ⟨H, List.getElem?_set_self (by rw [h2.homLen]; exact hl), fun _ => hH,
        fun h => absurd h (lt_irrefl 0)⟩
    · rw [List.getElem?_set_ne (Ne.symm hd0)]
      exact h2.hom d (by omega) hd
  unfold mphZero
  rw [hB, i1]
  dsimp only
  by_cases hB0 : B.dim = 0
  · rw [if_pos hB0]
    have e0 : B.barcode = [] := by rw [h.dim B mB, List.length_eq_zero_iff] at hB0; exact hB0
    exact ⟨_, rfl, fin B (homGood_empty h.prime e0 hB0 (by rw [eB]; exact e0))⟩
  · rw [if_neg hB0]
    have hne : B.barcode ≠ [] := by
      intro e; rw [h.dim B mB, e] at hB0; exact hB0 rfl
    have hfl : B.flat = false := by
      cases e : B.flat with
      | false => rfl
      | true => exact absurd (h.flat B mB e) hne
    have hdim := h.dim B mB
    obtain ⟨b0, b1, order, idx, f1, -, f3, f4, f5, f6, f8, f9, f10, f11, f12, -⟩ :=
      build_sort rnd (raw := B.barcode) (m := B.barcode.length)
        (M := ⟨B.barcode.length, identityCols B.barcode.length⟩) (sw := false) rfl
        (by simp [Mat.ncols, identityCols]) (fun e => by cases e)
    have hIb : IsBasisOf p B.barcode b1 (barModule p B.barcode) :=
      full_isBasisOf h.prime f4 f5 (by rw [f6])
    have hok := identity_ok h.prime.one_lt B.barcode.length
    have hIn : BasisIn p B.barcode b1 :=
      picks_basisIn f4 f5 f6 (by simp [Mat.ncols, identityCols]) hok.len hok.red identity_born
        f8 f9 f10 f11 f12
    have hmem : ∀ b ∈ b1.barcode, b ∈ B.barcode := by
      intro b hb
      rw [f5] at hb
      simp only [gather, List.mem_filterMap] at hb
      obtain ⟨k, -, hk⟩ := hb
      exact List.mem_of_getElem? hk
    have hg := i2.gen
    have hi := i2.isIn
    rw [eB] at hg hi
    have hc : modCycles p D Base 0 = barModule p B.barcode := by
      funext t
      change barModule p _ t = _
      rw [eB]
    obtain ⟨Q, q1, q2, q3, q4, q5, q6⟩ := quotient_gen (rnd := rnd) h.prime (amb := B) hfl hdim (h.bars B mB)
      (h.unbroken B mB) hIn hIb
      (fun a ha b hb hr => h.rounding B mB B mB a (hmem a ha) b (hmem b hb) _ (Or.inl rfl) _
        (Or.inl rfl) hr)
      i2.dim hi hg i2.zero (fun t => hc ▸ h.complex 0 t)
    rw [hfl, hdim, f1]
    simp only [bind, Except.bind, f3, q1, pure, Except.pure]
    refine ⟨_, rfl, fin Q ⟨q2, fun s t hst => ?_,
      fun _ => ⟨q4, fun _ => by rw [eB]; exact q5, fun i b hb hall => ?_⟩⟩⟩
    · rw [q3 s t hst]
      unfold homRank
      rw [eB, hc]
    · rw [eB, hc]
      exact q6 i b hb (i2.births b.1 hall)

theorem mph_good [Zero α] {rnd : α → α} {p : ℕ} {D : List Mat} {Base : List (Basis α)}
    (h : ChainInput rnd p D Base)
    (hgap : ∀ d, barsAt Base d = [] → barsAt Base (d + 1) ≠ [] →
      ∀ t, modBounds p D Base (d + 1) t = ⊥) :
    ∃ out, modulePersistenceHomology rnd p D Base = .ok out ∧
      out.hom.length = Base.length ∧ out.im.length = Base.length ∧
      ∀ d, d < Base.length → (∃ H, out.hom[d]? = some (some H) ∧ HomGood p D Base d H) ∧
        ∃ I, out.im[d]? = some (some I) ∧ ImGood p D Base d I := by
  obtain ⟨out, h1, h2, h3, h4⟩ := mph_all h
  refine ⟨out, h1, h2, h3, fun d hd => ⟨?_, (h4 d hd).2⟩⟩
  obtain ⟨⟨H, h5, h6⟩, -⟩ := h4 d hd
  refine ⟨H, h5, h6.good fun hpos h0 hne => ?_⟩
  obtain ⟨e, rfl⟩ : ∃ e, d = e + 1 := ⟨d - 1, by omega⟩
  exact hgap e h0 hne

end Permaviss
