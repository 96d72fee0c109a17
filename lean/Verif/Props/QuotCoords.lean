import Verif.Lemmas.PlaneMph
import Verif.Props.ModuleHomology

/-!
# C35, C36: when the generators of a quotient are right
-/

namespace Permaviss

section
variable {α : Type} [LinearOrder α] [Zero α]

/-- **C35, coordinates, part.** `quotient(M, N, p)`: at every radius where all the generators of `N` are
born, the generators of the result which are alive form a basis of `M_t / N_t`.  Missing: the radii before,
where they may be wrong, see `C35_violated`. -/
theorem C35_quotient_late_partial {rnd : α → α} {p : ℕ} {M N amb : Basis α}
    {Mt Nt : α → Submodule (ZMod p) (ℕ → ZMod p)} (h : QInput rnd p M N amb Mt Nt) :
    ∃ Q, quotient rnd p M N amb true = .ok Q ∧ ∀ t, (∀ a ∈ N.barcode, a.1 ≤ t) →
      QuotBasisAt p amb.barcode Q (Mt t) (Nt t) t := by
  have := Fact.mk h.prime
  by_cases hN : N.barcode = []
  · refine ⟨M, ?_, fun t _ => ⟨fun i hi => ?_, ?_, ?_⟩⟩
    · unfold quotient
      rw [if_pos (by rw [h.dimN, hN]; rfl)]
    · rw [← h.basisM.span t]
      exact Submodule.subset_span ⟨⟨i, hi⟩, rfl⟩
    · rw [h.basisM.span t]; exact le_sup_right
    · refine (h.basisM.indep t).map' _ ?_
      rw [Submodule.ker_mkQ, ← bornSpan_self h.basisN, hN, bornSpan_nil]
  · obtain ⟨Q, hQ, -, -, -, -, hl⟩ := quotient_late (h.ok hN)
    refine ⟨Q, hQ, fun t ht => ?_⟩
    obtain ⟨k3, k4, k5⟩ := hl t ht
    rw [bornSpan_self h.basisN] at k3 k4 k5
    rw [bornSpan_self h.basisM] at k3 k4
    refine ⟨?_, k4, k5⟩
    rintro i ⟨b, hb, hbt, -⟩
    have := k3 i b hb hbt
    rwa [sup_eq_right.2 (h.sub t)] at this

/-- **C36, coordinates, part.** `module_persistence_homology` on a chain complex: in degree 0 the generators
of `Hom[0]` which are alive form a basis of the homology at every radius, and those which died are
boundaries.  In a positive degree whose module and the one before are not zero, the generators of `Hom[d]`
which are alive form a basis of the homology at every radius where the generators of the module in degree
`d + 1` are all born. -/
theorem C36_generators_partial {rnd : α → α} {p : ℕ} {D : List Mat} {Base : List (Basis α)}
    (h : ChainInput rnd p D Base) :
    ∃ out, modulePersistenceHomology rnd p D Base = .ok out ∧
      (∀ B, Base[0]? = some B → B.barcode ≠ [] → 1 < Base.length →
        (B.sorted = false ∨ B.barcode.Pairwise (barLE rnd)) →
        ∃ H, out.hom[0]? = some (some H) ∧ ∀ t,
          QuotBasisAt p (barsAt Base 0) H (modCycles p D Base 0 t) (modBounds p D Base 0 t) t ∧
          ∀ i b, H.barcode[i]? = some b → b.2 ≤ t →
            barRestr p (barsAt Base 0) t (H.coords.zcol p i) ∈ modBounds p D Base 0 t) ∧
      ∀ d, barsAt Base (d + 1) ≠ [] → barsAt Base d ≠ [] →
        ∃ H, out.hom[d + 1]? = some (some H) ∧ ∀ t, (∀ a ∈ barsAt Base (d + 2), a.1 ≤ t) →
          QuotBasisAt p (barsAt Base (d + 1)) H (modCycles p D Base (d + 1) t)
            (modBounds p D Base (d + 1) t) t := by
  have := Fact.mk h.prime
  obtain ⟨out, h1, h2, h3, h4⟩ := mph_all h
  have hget : ∀ d H, out.hom.getD d none = some H → out.hom[d]? = some (some H) := by
    intro d H e
    rw [List.getD_eq_getElem?_getD] at e
    cases e' : out.hom[d]? with
    | none => rw [e'] at e; cases e
    | some x => rw [e'] at e; exact congrArg some e
  have hne : ∀ d, barsAt Base d ≠ [] → ∃ B, Base[d]? = some B ∧ B.barcode = barsAt Base d := by
    intro d hd
    cases e : Base[d]? with
    | none => exact absurd (by unfold barsAt; rw [e]; rfl) hd
    | some B => exact ⟨B, rfl, (barsAt_eq e).symm⟩
  refine ⟨out, h1, fun B hB hB0 hl hs => ?_, fun d hA0 hB0 => ?_⟩
  · obtain ⟨Q, I, o1, o2, o3, o4, o5, o6, o7⟩ :=
      mph_first h (List.getElem?_eq_getElem hl) hB hB0 hs h1
    refine ⟨Q, hget 0 Q o1, fun t => ?_⟩
    rw [barsAt_eq hB]
    refine ⟨⟨fun i hi => ?_, ?_, o3.indep t⟩, fun i b hb ht => o3.dead t i b hb ht⟩
    · change _ ∈ barModule p (barsAt Base 0) t
      rw [barsAt_eq hB]
      exact ⟨_, rfl⟩
    · change barModule p (barsAt Base 0) t ≤ _
      rw [barsAt_eq hB]
      exact o3.span t
  · obtain ⟨A, hA, eA⟩ := hne _ hA0
    obtain ⟨B, hB, eB⟩ := hne _ hB0
    obtain ⟨Q, o1, o2⟩ := mph_late h hA hB (eA ▸ hA0) (eB ▸ hB0) h1
    exact ⟨Q, hget _ Q o1, fun t ht => eA ▸ o2 t ht⟩

end

/-- In the example of `C35_violated` the generators are right from radius 2 on; one of them is alive there,
so the quotient is not zero. -/
example : ∃ Q, quotient id 5 qM qN qAmb true = .ok Q ∧
    (∀ t, 2 ≤ t → QuotBasisAt 5 qAmb.barcode Q (genBy 5 qAmb.barcode qM t) (genBy 5 qAmb.barcode qN t) t) ∧
    AliveBar Q.barcode 0 3 := by
  obtain ⟨Q, h1, h2⟩ := C35_quotient_late_partial q_input
  refine ⟨Q, h1, fun t ht => h2 t ?_, ?_⟩
  · intro a ha
    obtain rfl : a = (2, 8) := by simpa [qN, barsIn] using ha
    exact ht
  · have e : quotient id 5 qM qN qAmb true = .ok ⟨[(0, 6), (1, 2)], false, 2, some 2,
        ⟨2, [[0, 4], [1, 1]]⟩, true, some [true, true], none⟩ := by decide
    rw [e] at h1
    cases h1
    exact ⟨(0, 6), rfl, by decide, by decide⟩

/-- In the complex of the example the generators of `Hom[0]` are right at every radius, and those of `Hom[1]`
from radius 3 on, where the boundary is born. -/
example : ∃ out, modulePersistenceHomology id 5 cxD cxBase = .ok out ∧
    (∃ H, out.hom[0]? = some (some H) ∧ ∀ t, QuotBasisAt 5 (barsAt cxBase 0) H
      (modCycles 5 cxD cxBase 0 t) (modBounds 5 cxD cxBase 0 t) t) ∧
    ∃ H, out.hom[1]? = some (some H) ∧ ∀ t, 3 ≤ t → QuotBasisAt 5 (barsAt cxBase 1) H
      (modCycles 5 cxD cxBase 1 t) (modBounds 5 cxD cxBase 1 t) t := by
  obtain ⟨out, h1, h2, h3⟩ := C36_generators_partial cx_input
  obtain ⟨H, a1, a2⟩ := h2 _ rfl (by decide) (by decide) (Or.inl rfl)
  obtain ⟨K, b1, b2⟩ := h3 0 (by decide) (by decide)
  refine ⟨out, h1, ⟨H, a1, fun t => (a2 t).1⟩, K, b1, fun t ht => b2 t fun a ha => ?_⟩
  obtain rfl : a = (3, 6) := by simpa [barsAt, cxBase, barsOnly] using ha
  exact ht

end Permaviss
