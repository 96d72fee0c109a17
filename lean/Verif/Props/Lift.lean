import Verif.Lemmas.ZigZag
import Verif.Props.Cech

/-!
# Lifts to the first page (C47)
-/

namespace Permaviss

open Finset

attribute [-instance] instMulZeroClassOfSemiring

section

variable {K : Type} [Field K] [LinearOrder K] [FloorRing K] [IsStrictOrderedRing K]
  {pdist : List (List K) → List (List K)} {d : List K → List K → K} {argsort : List K → List Nat}
  {rnd : K → K} {maxR : K} {maxDim maxDiv dim : ℕ} {overlap : K} {cloud : List (List K)} {p : ℕ}
  {lo hi : ℕ → K} {side : K} {E : SSEnv K}

/-- **C47.** When `first_page_local_lift` returns `(gammas, betas)` on some piece of the cover, column
`a` of `gammas` and `betas` are reduced mod `p` and give the chain `coord[a]` as `Im gammas + Hom betas`,
using only generators born at or before `radii[a]`. -/
theorem C47_lift_decomposes (h : MVInput pdist d argsort maxR maxDiv dim cloud p lo hi side)
    (hE : createEnv pdist argsort rnd maxR maxDim maxDiv overlap dim cloud p = .ok E)
    (n deg idx : ℕ) (hn : n < 2 ^ dim) (hk : idx < E.spx n) (hdeg : deg ≤ maxDim)
    (coord : List (List Int)) (radii : List K) (hl : radii.length = coord.length) (gammas betas : Mat)
    (hrun : firstPageLocalLift E n deg coord radii idx = .ok (some (gammas, betas))) :
    ∃ im hom, E.im0 n idx deg = .ok im ∧ E.hom0 n idx deg = .ok hom ∧
      (gammas.nrows = im.dim ∧ gammas.ncols = coord.length ∧ gammas.WellShaped ∧ gammas.Reduced E.p) ∧
      (betas.nrows = hom.dim ∧ betas.ncols = coord.length ∧ betas.WellShaped ∧ betas.Reduced E.p) ∧
      ∀ (a : ℕ) (row : List Int) (r : K), coord[a]? = some row → radii[a]? = some r →
        Decomposes E.p im hom (zv E.p row) r (fun k => gammas.z E.p k a)
          (fun k => betas.z E.p k a) := by
  obtain ⟨hS, rfl, rfl, rfl, h7⟩ := h.env hE
  obtain ⟨o, pts, v, im, hom, L⟩ := hS.liftData (n := n) (idx := idx) (deg := deg) (by omega) hk hdeg
  refine ⟨im, hom, L.im0, L.hom0, ?_⟩
  by_cases hnone : radii = [] ∨ (im.dim = 0 ∧ hom.dim = 0)
  · rw [L.none coord radii hnone] at hrun; cases hrun
  · push Not at hnone
    have h0 : ¬ (im.dim = 0 ∧ hom.dim = 0) := fun hc => hnone.2 hc.1 hc.2
    have hw : ∀ r ∈ coord, r.length = (E.G n idx deg).length := by
      rw [L.eq coord radii hnone.1 h0] at hrun
      by_cases hall : (coord.all fun r => r.length == (E.G n idx deg).length) = true
      · rw [List.all_eq_true] at hall
        intro r hr
        simpa using hall r hr
      · rw [if_neg hall] at hrun; cases hrun
    rcases L.lift hS.prime hl hnone.1 h0 hw with ⟨e, -⟩ | ⟨γ, β, e, e1, e2, e3⟩
    · rw [e] at hrun; cases hrun
    · rw [e] at hrun
      cases hrun
      exact ⟨e1, e2, e3⟩

/-- When it raises.  On chains of the right length and radii below `max_r`,
`first_page_local_lift` returns a decomposition exactly when every chain is a cycle whose simplices are
present at its radius, and raises `RuntimeError` otherwise; the one exception are the pieces with no
boundaries and no classes in that degree, where it returns nothing and where only the zero chain is
such a cycle.  A chain of another length raises `ValueError`. -/
theorem C47_lift_exact (h : MVInput pdist d argsort maxR maxDiv dim cloud p lo hi side)
    (hE : createEnv pdist argsort rnd maxR maxDim maxDiv overlap dim cloud p = .ok E)
    (n deg idx : ℕ) (hn : n < 2 ^ dim) (hk : idx < E.spx n) (hdeg : deg ≤ maxDim)
    (coord : List (List Int)) (radii : List K) (hl : radii.length = coord.length) (hne : radii ≠ [])
    (hr : ∀ r ∈ radii, r < maxR) :
    ∃ im hom, E.im0 n idx deg = .ok im ∧ E.hom0 n idx deg = .ok hom ∧
      (im.dim = 0 ∧ hom.dim = 0 → firstPageLocalLift E n deg coord radii idx = .ok none ∧
        ∀ z r, r < maxR → E.IsCycleAt (diam d fun v => cloud.getD v []) n idx deg z r → z = 0) ∧
      (¬ (im.dim = 0 ∧ hom.dim = 0) → (∃ row ∈ coord, row.length ≠ (E.G n idx deg).length) →
        firstPageLocalLift E n deg coord radii idx = .error .valueError) ∧
      (¬ (im.dim = 0 ∧ hom.dim = 0) → (∀ row ∈ coord, row.length = (E.G n idx deg).length) →
        ((∀ (a : ℕ) (row : List Int) (r : K), coord[a]? = some row → radii[a]? = some r →
            E.IsCycleAt (diam d fun v => cloud.getD v []) n idx deg (zv E.p row) r) →
          ∃ gb, firstPageLocalLift E n deg coord radii idx = .ok (some gb)) ∧
        ((∃ (a : ℕ) (row : List Int) (r : K), coord[a]? = some row ∧ radii[a]? = some r ∧
            ¬ E.IsCycleAt (diam d fun v => cloud.getD v []) n idx deg (zv E.p row) r) →
          firstPageLocalLift E n deg coord radii idx = .error .runtimeError)) := by
  obtain ⟨hS, rfl, rfl, rfl, h7⟩ := h.env hE
  obtain ⟨o, pts, v, im, hom, L⟩ := hS.liftData (n := n) (idx := idx) (deg := deg) (by omega) hk hdeg
  refine ⟨im, hom, L.im0, L.hom0, ?_, ?_, ?_⟩
  · intro h0
    refine ⟨L.none coord radii (Or.inr h0), fun z r hrm hz => ?_⟩
    obtain ⟨γ, β, hd⟩ := (L.decomposes_iff hS.prime hdeg z hrm).2 hz
    rw [hd.sum, h0.1, h0.2]
    simp
  · rintro h0 ⟨row, hrow, hlen⟩
    rw [L.eq coord radii hne h0, if_neg]
    intro hall
    rw [List.all_eq_true] at hall
    exact hlen (by simpa using hall row hrow)
  · intro h0 hw
    have hrad : ∀ (a : ℕ) (r : K), radii[a]? = some r → r < E.maxR :=
      fun a r ha => hr r (List.mem_of_getElem? ha)
    rcases L.lift hS.prime hl hne h0 hw with ⟨e, a, row, r, ha, hra, hnot⟩ | ⟨γ, β, e, -, -, e3⟩
    · refine ⟨fun hall => ?_, fun _ => e⟩
      exact absurd ((L.decomposes_iff hS.prime hdeg _ (hrad a r hra)).2 (hall a row r ha hra)) hnot
    · refine ⟨fun _ => ⟨_, e⟩, ?_⟩
      rintro ⟨a, row, r, ha, hra, hnot⟩
      exact absurd ((L.decomposes_iff hS.prime hdeg _ (hrad a r hra)).1 ⟨_, _, e3 a row r ha hra⟩) hnot

end

/-- The hypotheses of C47 are met: in degree `1` the first square of the cover of the rectangle has three
boundaries and one class. -/
example : (rectEnv.map fun E => ((E.hom0 0 0 1).toOption.map Basis.barcode,
    (E.im0 0 0 1).toOption.map Basis.barcode, E.G 0 0 1)) =
    .ok (some [(4, 5)], some [(5, 6), (5, 6), (5, 6)],
      [[0, 1], [2, 3], [1, 2], [0, 3], [0, 2], [1, 3]]) := by
  decide +kernel

/-- The boundary of a triangle at radius `5` and twice the boundary of the rectangle at radius `4` are
lifted. -/
example : (rectEnv.bind fun E => (firstPageLocalLift E 0 1 [[0, 1, 0, 4, 1, 0], [2, 2, 2, 3, 0, 0]] [5, 4]
    0).map fun o => o.map fun gb => [gb.1.cols, gb.2.cols]) =
    .ok (some [[[1, 0, 0], [0, 0, 0]], [[0], [2]]]) := by
  decide +kernel

/-- A boundary at a radius smaller than its birth, a chain that is not a cycle, and a chain of the wrong
length. -/
example : (rectEnv.map fun E => [([0, 1, 0, 4, 1, 0] : List Int), [1, 1, 0, 0, 0, 0], [1, 1]].map fun c =>
    match firstPageLocalLift E 0 1 [c] [4] 0 with
    | .ok _ => none
    | .error e => some e) =
    .ok [some .runtimeError, some .runtimeError, some .valueError] := by
  decide +kernel

end Permaviss
