import Verif.Lemmas.MPHAll
import Verif.Props.ImageKernel
import Mathlib.Algebra.Order.Ring.Int

/-!
# C35, C36: `quotient` and `module_persistence_homology`
-/

namespace Permaviss

open Finset

/-! ## C35 -/

section
variable {α : Type} [LinearOrder α] [Zero α]

/-- **C35, barcode.** `quotient(M, N, p)` returns a barcode basis whose bars are those of the quotient
persistence module: for radii `s ≤ t`, the number of bars containing both is the rank of
`M_s / N_s → M_t / N_t`.  (For `s = t` it is the dimension of `M_t / N_t`.)  Missing: the coordinates
of the returned generators, which may be wrong, see `C35_violated`. -/
theorem C35_quotient_barcode_partial {rnd : α → α} {p : ℕ} {M N amb : Basis α}
    {Mt Nt : α → Submodule (ZMod p) (ℕ → ZMod p)} (h : QInput rnd p M N amb Mt Nt) :
    ∃ Q, quotient rnd p M N amb true = .ok Q ∧ (∀ b ∈ Q.barcode, b.1 < b.2) ∧
      ∀ s t, s ≤ t → barsThrough Q.barcode s t = quotRank p amb.barcode Mt Nt s t :=
  quotient_barcode h

/-- If the two bases have different previous bases, and `N` is not zero, `ValueError` is raised. -/
theorem C35_different_ambient {rnd : α → α} {p : ℕ} {M N amb : Basis α} (hN : N.dim ≠ 0) :
    quotient rnd p M N amb false = .error .valueError := by
  unfold quotient
  rw [if_neg hN]
  rfl

end

/-- A barcode basis with coordinates. -/
def barsIn (bars : List (ℤ × ℤ)) (m : ℕ) (cols : List (List Int)) : Basis ℤ :=
  ⟨bars, false, bars.length, some m, ⟨m, cols⟩, false, none, none⟩

/-- The submodule generated by a barcode basis. -/
noncomputable def genBy (p : ℕ) (amb : List (ℤ × ℤ)) (X : Basis ℤ) (t : ℤ) :
    Submodule (ZMod p) (ℕ → ZMod p) :=
  Submodule.span (ZMod p)
    (Set.range fun i : {i // AliveBar X.barcode i t} => barRestr p amb t (X.coords.zcol p i))

/-- A way to check that a barcode basis is a basis of what it generates. -/
theorem genBy_isBasisOf {p : ℕ} (hp : p.Prime) {amb : List (ℤ × ℤ)} {X : Basis ℤ} (π : ℕ → ℕ)
    (hbars : ∀ b ∈ X.barcode, b.1 < b.2) (hcols : X.coords.ncols = X.barcode.length)
    (hlen : ∀ c ∈ X.coords.cols, c.length = amb.length)
    (hπ : ∀ i < X.barcode.length, ∀ a, X.barcode[i]? = some a →
      (∃ b, amb[π i]? = some b ∧ b.1 ≤ a.1 ∧ a.2 ≤ b.2) ∧ X.coords.z p (π i) i ≠ 0 ∧
        ∀ r < amb.length, π i < r → X.coords.z p r i = 0)
    (hinj : ∀ i < X.barcode.length, ∀ j < X.barcode.length, π i = π j → i = j)
    (hdead : ∀ i < X.barcode.length, ∀ r < amb.length, ∀ a, X.barcode[i]? = some a →
      ∀ b, amb[r]? = some b → X.coords.z p r i ≠ 0 → b.2 ≤ a.2) :
    IsBasisOf p amb X (genBy p amb X) := by
  classical
  have := Fact.mk hp
  refine ⟨hbars, hcols, hlen, fun t => ?_, fun t => rfl, ?_⟩
  · let U := (range X.barcode.length).filter fun i => AliveBar X.barcode i t
    have hal : ∀ i, AliveBar X.barcode i t → i < X.barcode.length := fun i ⟨b, hb, _⟩ =>
      (List.getElem?_eq_some_iff.1 hb).1
    have hU : ∀ i, i ∈ U ↔ AliveBar X.barcode i t := fun i => by
      simp only [U, Finset.mem_filter, mem_range]
      exact ⟨fun h => h.2, fun h => ⟨hal i h, h⟩⟩
    have := indep_of_pivots (K := ZMod p) (S := fun i => AliveBar amb i t) (U := U)
      (fun i => X.coords.zcol p i) π ?_ ?_
    · exact this.comp (fun i : {i // AliveBar X.barcode i t} => (⟨i, (hU i).2 i.2⟩ : U))
        (fun a b hab => Subtype.ext (congrArg (fun x => x.1) hab))
    · intro i hi
      obtain ⟨a, h1, h2, h3⟩ := (hU i).1 hi
      obtain ⟨⟨b, h4, h5, h6⟩, h7, h8⟩ := hπ i (hal i ((hU i).1 hi)) a h1
      exact ⟨⟨b, h4, h5.trans h2, lt_of_lt_of_le h3 h6⟩, h7, fun l hl ⟨c, hc, _⟩ =>
        h8 l (List.getElem?_eq_some_iff.1 hc).1 hl⟩
    · intro i hi j hj
      exact hinj i (hal i ((hU i).1 hi)) j (hal j ((hU j).1 hj))
  · intro t i a ha hat
    unfold barRestr
    rw [restr_eq_zero]
    rintro r ⟨b, hb, -, hb2⟩
    by_contra hne
    have := hdead i (List.getElem?_eq_some_iff.1 ha).1 r (List.getElem?_eq_some_iff.1 hb).1 a ha b hb
      hne
    omega

/-- The example: ambient bars `[0,6)` and `[0,8)` with generators `e₀`, `e₁`; `M` generated by `e₀`
from 0 on and `e₁` from 1 on, `N` by `e₀ + e₁` from 2 on. -/
def qAmb : Basis ℤ := ⟨[(0, 6), (0, 8)], false, 2, none, ⟨0, []⟩, false, none, none⟩
def qM : Basis ℤ := barsIn [(0, 6), (1, 8)] 2 [[1, 0], [0, 1]]
def qN : Basis ℤ := barsIn [(2, 8)] 2 [[1, 1]]

theorem q_input : QInput id 5 qM qN qAmb (genBy 5 qAmb.barcode qM) (genBy 5 qAmb.barcode qN) := by
  have hM : IsBasisOf 5 qAmb.barcode qM (genBy 5 qAmb.barcode qM) :=
    genBy_isBasisOf (by decide) (fun i => i) (by decide) (by decide) (by decide) (by decide) (by decide)
      (by decide)
  have hN : IsBasisOf 5 qAmb.barcode qN (genBy 5 qAmb.barcode qN) :=
    genBy_isBasisOf (by decide) (fun _ => 1) (by decide) (by decide) (by decide) (by decide) (by decide)
      (by decide)
  have born : ∀ X : Basis ℤ, (∀ r < 2, ∀ i < X.barcode.length, ∀ a, X.barcode[i]? = some a →
      ∀ b, qAmb.barcode[r]? = some b → X.coords.z 5 r i ≠ 0 → b.1 ≤ a.1) →
      BornInTime 5 qAmb.barcode X := fun X h r i a b ha hb hne =>
    h r (List.getElem?_eq_some_iff.1 hb).1 i (List.getElem?_eq_some_iff.1 ha).1 a ha b hb hne
  refine ⟨by decide, rfl, rfl, by decide, rfl, fun h => (by cases h), hM, born qM (by decide), rfl,
    (by unfold Mat.Reduced; decide), fun a _ b _ h => h, fun h => (by cases h), rfl, hN,
    born qN (by decide), rfl, (by unfold Mat.Reduced; decide), ?_⟩
  intro t
  refine Submodule.span_le.2 ?_
  rintro x ⟨⟨i, b, hb, hb1, hb2⟩, rfl⟩
  have hi : i = 0 := by
    have := (List.getElem?_eq_some_iff.1 hb).1
    change i < 1 at this; omega
  subst hi
  have hb' : b = (2, 8) := by
    have : qN.barcode[0]? = some (2, 8) := rfl
    rw [hb] at this; simpa using this
  subst hb'
  have e : qN.coords.zcol 5 0 = qM.coords.zcol 5 0 + qM.coords.zcol 5 1 := by
    funext r
    rcases r with _ | _ | r
    · decide
    · decide
    · have h1 : ∀ (X : Basis ℤ) k, (X.coords.cols.getD k []).length ≤ 2 →
          X.coords.zcol 5 k (r + 2) = 0 := by
        intro X k hk
        unfold Mat.zcol zv
        rw [List.getD_eq_getElem?_getD, List.getElem?_eq_none (by omega)]
        rfl
      change qN.coords.zcol 5 0 (r + 2) = qM.coords.zcol 5 0 (r + 2) + qM.coords.zcol 5 1 (r + 2)
      rw [h1 qN 0 (by decide), h1 qM 0 (by decide), h1 qM 1 (by decide), add_zero]
  change barRestr 5 qAmb.barcode t (qN.coords.zcol 5 0) ∈ _
  rw [e, map_add]
  have key : ∀ k c, qM.barcode[k]? = some c → c.1 ≤ t →
      barRestr 5 qAmb.barcode t (qM.coords.zcol 5 k) ∈ genBy 5 qAmb.barcode qM t := by
    intro k c hc h1
    by_cases h2 : t < c.2
    · exact Submodule.subset_span ⟨⟨k, c, hc, h1, h2⟩, rfl⟩
    · rw [hM.dead t k c hc (not_lt.1 h2)]
      exact Submodule.zero_mem _
  have h2t : (2 : ℤ) ≤ t := hb1
  exact Submodule.add_mem _ (key 0 (0, 6) rfl (by omega)) (key 1 (1, 8) rfl (by omega))

/-- The bars of the quotient in the example. -/
example : quotient id 5 qM qN qAmb true = .ok ⟨[(0, 6), (1, 2)], false, 2, some 2,
    ⟨2, [[0, 4], [1, 1]]⟩, true, some [true, true], none⟩ := by decide

/-- **C35 fails for the coordinates**: in the example the first generator of the quotient has the bar
`[0,6)` and coordinates `(0, 4)`, and at radius 0 it is not in `M`. -/
theorem C35_violated : ∃ (M N amb : Basis ℤ) (Mt Nt : ℤ → Submodule (ZMod 5) (ℕ → ZMod 5)),
    QInput id 5 M N amb Mt Nt ∧ ∃ Q, quotient id 5 M N amb true = .ok Q ∧
      AliveBar Q.barcode 0 0 ∧ barRestr 5 amb.barcode 0 (Q.coords.zcol 5 0) ∉ Mt 0 := by
  refine ⟨qM, qN, qAmb, _, _, q_input, _, rfl, ⟨(0, 6), by decide, by decide, by decide⟩, ?_⟩
  intro h
  have hz : ∀ x ∈ genBy 5 qAmb.barcode qM 0, x 1 = 0 := by
    intro x hx
    have : genBy 5 qAmb.barcode qM 0 ≤ LinearMap.ker (LinearMap.proj (R := ZMod 5)
        (φ := fun _ : ℕ => ZMod 5) 1) := by
      refine Submodule.span_le.2 ?_
      rintro y ⟨⟨i, b, hb, hb1, -⟩, rfl⟩
      rcases i with _ | _ | i
      · change barRestr 5 qAmb.barcode 0 (qM.coords.zcol 5 0) 1 = 0
        unfold barRestr restr
        simp only [LinearMap.coe_mk, AddHom.coe_mk]
        split_ifs
        · decide
        · rfl
      · have : b = (1, 8) := by
          have e : qM.barcode[1]? = some (1, 8) := rfl
          rw [hb] at e; simpa using e
        subst this
        exact absurd hb1 (by decide)
      · have := (List.getElem?_eq_some_iff.1 hb).1
        change i + 1 + 1 < 2 at this; omega
    exact this hx
  have h1 := hz _ h
  unfold barRestr at h1
  rw [restr_apply_pos (S := fun i => AliveBar qAmb.barcode i 0)
    ⟨(0, 8), rfl, by decide, by decide⟩] at h1
  revert h1
  decide

/-! ## C36 -/

section
variable {α : Type} [LinearOrder α] [Zero α]

/-- **C36, part.** `module_persistence_homology(D, Base, p)` on a chain complex of persistence modules
always returns.  In a degree `d` the barcode of `Hom[d]` is the one of the homology (for `s ≤ t` the number
of bars containing both is the rank of `H_d(s) → H_d(t)`) exactly when it is not the case that the module in
degree `d - 1` is zero and there are boundaries in degree `d`.  So this case, which is what the code gets
wrong (`C36_violated`), is the only one, and one degree of this kind does no harm to the others.  And `Im[d]`
generates the boundaries, in every degree: at every radius its generators which are alive and not zero form a
basis of them.  Missing besides: the coordinates of `Hom[d]` (`C35_violated`). -/
theorem C36_module_homology_partial {rnd : α → α} {p : ℕ} {D : List Mat} {Base : List (Basis α)}
    (h : ChainInput rnd p D Base) :
    ∃ out, modulePersistenceHomology rnd p D Base = .ok out ∧
      out.hom.length = Base.length ∧ out.im.length = Base.length ∧
      ∀ d, d < Base.length →
        (∃ H, out.hom[d]? = some (some H) ∧ (∀ b ∈ H.barcode, b.1 < b.2) ∧
          ((∀ s t, s ≤ t → barsThrough H.barcode s t = homRank p D Base d s t) ↔
            ¬ (0 < d ∧ barsAt Base (d - 1) = [] ∧ ∃ t, modBounds p D Base d t ≠ ⊥))) ∧
        ∃ I, out.im[d]? = some (some I) ∧ GeneratesAt p (barsAt Base d) I (modBounds p D Base d) := by
  have := Fact.mk h.prime
  obtain ⟨out, h1, h2, h3, h4⟩ := mph_all h
  refine ⟨out, h1, h2, h3, fun d hd => ?_⟩
  obtain ⟨⟨H, h5, h6⟩, I, h7, h8⟩ := h4 d hd
  exact ⟨⟨H, h5, h6.bars h.bars, h6.right_iff h.bars (h.complex d)⟩, I, h7, h8.gen⟩

/-- Two consecutive differentials whose matrix product is zero satisfy the condition `complex` of
`ChainInput`. -/
theorem C36_complex_of_product {p : ℕ} {A B C : List (α × α)} {F G : Mat} (hF : IsMorphism p A B F)
    (hG : IsMorphism p B C G) (h : ∀ x, G.mulVecL p (F.mulVecL p x) = 0) (t : α) :
    imAt p A B F t ≤ kerAt p B C G t := imAt_le_kerAt hF hG h t

end

/-- A chain complex in degrees 0, 1, 2 with `D[1] = (1 2; 4 3)` and `D[2] = (3; 1)`, mod 5. -/
def cxBase : List (Basis ℤ) := [barsOnly [(0, 5), (0, 4)], barsOnly [(1, 5), (2, 6)], barsOnly [(3, 6)]]
def cxD : List Mat := [⟨0, []⟩, ⟨2, [[1, 4], [2, 3]]⟩, ⟨2, [[3, 1]]⟩]

theorem cx_input : ChainInput id 5 cxD cxBase := by
  have m1 : IsMorphism 5 [((1 : ℤ), (5 : ℤ)), (2, 6)] [(0, 5), (0, 4)] ⟨2, [[1, 4], [2, 3]]⟩ :=
    exIsMor rfl rfl (by unfold Mat.WellShaped; decide) (by unfold Mat.Reduced; decide) (by decide)
  have m2 : IsMorphism 5 [((3 : ℤ), (6 : ℤ))] [(1, 5), (2, 6)] ⟨2, [[3, 1]]⟩ :=
    exIsMor rfl rfl (by unfold Mat.WellShaped; decide) (by unfold Mat.Reduced; decide) (by decide)
  refine ⟨by decide, by decide, by decide, by decide, by decide, by decide, by decide, ?_, ?_, ?_⟩
  · intro X _ Y _ a _ b _ x _ y _ h
    exact h
  · intro d h1 h2
    rcases d with _ | _ | d
    · exact ⟨_, rfl, m1⟩
    · exact ⟨_, rfl, m2⟩
    · exact absurd rfl h2
  · intro d t
    rcases d with _ | _ | d
    · rintro x ⟨y, -, rfl⟩
      exact ⟨_, rfl⟩
    · refine imAt_le_kerAt m2 m1 ?_ t
      intro x
      funext i
      change ∑ k ∈ range 2, (⟨2, [[1, 4], [2, 3]]⟩ : Mat).z 5 i k *
        (∑ l ∈ range 1, (⟨2, [[3, 1]]⟩ : Mat).z 5 k l * x l) = 0
      simp only [Finset.sum_range_succ, Finset.range_zero, Finset.sum_empty, zero_add]
      rw [← mul_assoc, ← mul_assoc, ← add_mul]
      have : ∀ i, (⟨2, [[1, 4], [2, 3]]⟩ : Mat).z 5 i 0 * (⟨2, [[3, 1]]⟩ : Mat).z 5 0 0 +
          (⟨2, [[1, 4], [2, 3]]⟩ : Mat).z 5 i 1 * (⟨2, [[3, 1]]⟩ : Mat).z 5 1 0 = 0 := by
        intro i
        rcases i with _ | _ | i
        · decide
        · decide
        · unfold Mat.z Mat.get
          simp
      rw [this, zero_mul]
    · rw [show modBounds 5 cxD cxBase (d + 1 + 1) t = ⊥ from imAt_bot_left rfl t]
      exact bot_le

/-- The example satisfies the hypotheses of C36, and the result is not trivial. -/
example : ChainInput id 5 cxD cxBase ∧ ∀ d < cxBase.length, barsAt cxBase d ≠ [] :=
  ⟨cx_input, by decide⟩

example : (modulePersistenceHomology id 5 cxD cxBase).toOption.map (fun out =>
    out.hom.map fun H => H.map Basis.barcode) =
      some [some [(0, 4), (0, 1)], some [(2, 3)], some []] := by decide

/-- **C36 fails in general**: with a zero module in degree 0, and the same bar `[0, 2)` in degrees 1 and
2 with the identity between them, the homology in degree 1 is zero but the bar is reported. -/
theorem C36_violated : ∃ (D : List Mat) (Base : List (Basis ℤ)), ChainInput id 5 D Base ∧
    ∃ out H, modulePersistenceHomology id 5 D Base = .ok out ∧ out.hom[1]? = some (some H) ∧
      H.barcode = [(0, 2)] ∧ homRank 5 D Base 1 0 0 = 0 := by
  have m2 : IsMorphism 5 [((0 : ℤ), (2 : ℤ))] [(0, 2)] ⟨1, [[1]]⟩ :=
    exIsMor rfl rfl (by unfold Mat.WellShaped; decide) (by unfold Mat.Reduced; decide) (by decide)
  have hcyc : ∀ t x, x ∈ kerAt 5 [((0 : ℤ), (2 : ℤ))] [] ⟨0, []⟩ t →
      x ∈ imAt 5 [((0 : ℤ), (2 : ℤ))] [(0, 2)] ⟨1, [[1]]⟩ t := by
    rintro t _ ⟨⟨y, rfl⟩, -⟩
    refine ⟨barRestr 5 [(0, 2)] t y, ⟨y, rfl⟩, ?_⟩
    have e : ∀ z : ℕ → ZMod 5, (∀ i, i ≠ 0 → z i = 0) → (⟨1, [[1]]⟩ : Mat).mulVecL 5 z = z := by
      intro z hz
      funext i
      change ∑ k ∈ range 1, (⟨1, [[1]]⟩ : Mat).z 5 i k * z k = z i
      rw [Finset.sum_range_one]
      rcases i with _ | i
      · have : (⟨1, [[1]]⟩ : Mat).z 5 0 0 = 1 := by decide
        rw [this, one_mul]
      · rw [hz (i + 1) (by omega)]
        have : (⟨1, [[1]]⟩ : Mat).z 5 (i + 1) 0 = 0 := by unfold Mat.z Mat.get; simp
        rw [this, zero_mul]
    have hr : ∀ i, i ≠ 0 → barRestr 5 [((0 : ℤ), (2 : ℤ))] t y i = 0 := by
      intro i hi
      unfold barRestr
      rw [restr_apply_neg]
      rintro ⟨b, hb, -⟩
      have := (List.getElem?_eq_some_iff.1 hb).1
      simp at this; omega
    unfold morAt
    rw [LinearMap.comp_apply, LinearMap.comp_apply]
    have e2 : barRestr 5 [((0 : ℤ), (2 : ℤ))] t (barRestr 5 [(0, 2)] t y) = barRestr 5 [(0, 2)] t y := by
      unfold barRestr; rw [restr_restr]
    rw [e2, e _ hr, e2]
  refine ⟨[⟨0, []⟩, ⟨0, []⟩, ⟨1, [[1]]⟩], [⟨[], true, 0, none, ⟨0, []⟩, false, none, none⟩,
    barsOnly [(0, 2)], barsOnly [(0, 2)]], ?_,
    ⟨[some ⟨[], true, 0, none, ⟨0, []⟩, false, none, none⟩, some (barsOnly [(0, 2)]),
      some ⟨[], false, 0, some 1, ⟨1, []⟩, true, none, none⟩],
      [some ⟨[], true, 0, none, ⟨0, []⟩, false, none, none⟩,
       some ⟨[(0, 2)], false, 1, some 1, ⟨1, [[1]]⟩, true, some [true], none⟩,
       some ⟨[], true, 0, some 1, ⟨1, []⟩, false, none, none⟩], [none, none, some ⟨1, [[1]]⟩]⟩,
    barsOnly [(0, 2)], by decide, rfl, rfl, ?_⟩
  · refine ⟨by decide, by decide, by decide, by decide, by decide, by decide, by decide, ?_, ?_, ?_⟩
    · intro X _ Y _ a _ b _ x _ y _ h
      exact h
    · intro d h1 h2
      rcases d with _ | _ | d
      · exact absurd rfl h1
      · exact ⟨_, rfl, m2⟩
      · exact absurd rfl h2
    · intro d t
      rcases d with _ | _ | d
      · rintro x ⟨y, -, rfl⟩
        exact ⟨_, rfl⟩
      · change imAt 5 [((0 : ℤ), (2 : ℤ))] [(0, 2)] ⟨1, [[1]]⟩ t ≤
          kerAt 5 [((0 : ℤ), (2 : ℤ))] [] ⟨0, []⟩ t
        rintro x ⟨y, -, rfl⟩
        refine ⟨⟨_, rfl⟩, ?_⟩
        change morAt 5 [((0 : ℤ), (2 : ℤ))] [] ⟨0, []⟩ t _ = 0
        unfold morAt
        rw [LinearMap.comp_apply]
        unfold barRestr
        rw [restr_eq_zero]
        rintro i ⟨b, hb, -⟩
        simp at hb
      · exact (imAt_bot_left rfl t).trans_le bot_le
  · unfold homRank quotRank
    have : (Submodule.map (Submodule.mkQ (imAt 5 [((0 : ℤ), (2 : ℤ))] [(0, 2)] ⟨1, [[1]]⟩ 0) ∘ₗ
        barRestr 5 [((0 : ℤ), (2 : ℤ))] 0) (kerAt 5 [((0 : ℤ), (2 : ℤ))] [] ⟨0, []⟩ 0)) = ⊥ := by
      rw [eq_bot_iff]
      rintro x ⟨y, hy, rfl⟩
      rw [Submodule.mem_bot, LinearMap.comp_apply, Submodule.mkQ_apply, Submodule.Quotient.mk_eq_zero]
      have hy' := hy
      obtain ⟨⟨z, rfl⟩, -⟩ := hy'
      have e2 : barRestr 5 [((0 : ℤ), (2 : ℤ))] 0 (barRestr 5 [((0 : ℤ), (2 : ℤ))] 0 z) =
          barRestr 5 [((0 : ℤ), (2 : ℤ))] 0 z := by
        unfold barRestr; rw [restr_restr]
      rw [e2]
      exact hcyc 0 _ hy
    have := Fact.mk (by decide : Nat.Prime 5)
    change Module.finrank (ZMod 5) (Submodule.map (Submodule.mkQ (imAt 5 [((0 : ℤ), (2 : ℤ))] [(0, 2)]
      ⟨1, [[1]]⟩ 0) ∘ₗ barRestr 5 [((0 : ℤ), (2 : ℤ))] 0) (kerAt 5 [((0 : ℤ), (2 : ℤ))] [] ⟨0, []⟩ 0)) = 0
    rw [‹Submodule.map _ _ = ⊥›, finrank_bot]

end Permaviss
