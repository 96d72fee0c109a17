import Verif.Lemmas.Clique
import Verif.Lemmas.DegreeZero
import Verif.Props.LocalPH

/-!
# Clouds with few points have no bars in high degrees (C70)
-/

namespace Permaviss

section

variable {α : Type} [LinearOrder α] [Zero α] {Pt : Type} {p : ℕ}

/-- **C70.** A hole of dimension `e ≥ 1` needs at least `2 e + 2` points: the barcode in degree `e` of a cloud
with at most `2 e + 1` points is empty. -/
theorem C70_few_points (hp : p.Prime) (pdist : List Pt → List (List α)) (hd : IsPdist pdist)
    (argsort : List α → List Nat) (ha : IsArgsort argsort) (rnd : α → α) (cloud : List Pt) (maxR : α)
    (hmax : 0 < maxR) (maxDim : Int) (e : ℕ) (h1 : 1 ≤ e) (he : (e : Int) < maxDim)
    (hfew : cloud.length ≤ 2 * e + 1) :
    ∃ L B, localPersistentHomology pdist argsort rnd cloud maxR maxDim p = .ok L ∧
      L.ph.hom[e]? = some B ∧ B.barcode = [] := by
  have hF := Fact.mk hp
  obtain ⟨Dist, D, out, h0, hlen, hpos, hD, F, hout, hol, hDm, hDl, h3⟩ :=
    local_run hp hd ha rnd cloud hmax maxDim
  have hm : max maxDim 1 = maxDim := max_eq_left (by omega)
  rw [hm] at hDm
  obtain ⟨B, hB⟩ : ∃ B, out.hom[e]? = some B := ⟨_, List.getElem?_eq_getElem (by omega)⟩
  refine ⟨_, B, h3, hB, ?_⟩
  by_contra hne
  obtain ⟨b, hb⟩ := List.exists_mem_of_ne_nil _ hne
  obtain ⟨w1, w2⟩ := (C26_barcodes_well_formed hp rnd F out hout e B hB).1 b hb
  have hb0 : 0 ≤ b.1 := by
    have := birth_mem hp F hout hB b hb
    obtain ⟨-, -, hnn, -⟩ := C18_vietoris_rips_filtration argsort ha Dist maxR maxDim hpos
    obtain ⟨e', rfl⟩ : ∃ e', e = e' + 1 := ⟨e - 1, by omega⟩
    change b.1 ∈ ((_ :: (vietorisRips argsort Dist maxR maxDim).rads : List (List α))).getD (e' + 1) [] at this
    rw [List.getD_cons_succ, List.getD_eq_getElem?_getD] at this
    cases hR : (vietorisRips argsort Dist maxR maxDim).rads[e']? with
    | none => rw [hR] at this; simp at this
    | some R =>
      rw [hR] at this
      exact hnn R (List.mem_of_getElem? hR) _ this
  obtain ⟨B', hB', hr⟩ := C27_local_persistent_betti hp pdist hd argsort ha rnd cloud maxR hmax maxDim _ h3 e
    (by omega) b.1 b.1 hb0 le_rfl (lt_of_lt_of_le w1 w2)
  rw [hB] at hB'
  obtain rfl := Option.some.inj hB'
  have hz := vrMap_rank_zero (K := ZMod p) (le_refl b.1) (vrCycles_le_boundaries (K := ZMod p)
    (cloudDist pdist cloud) h1 hfew b.1)
  rw [hz] at hr
  have : b ∈ B.barcode.filter fun c => decide (c.1 ≤ b.1 ∧ b.1 < c.2) :=
    List.mem_filter.2 ⟨hb, by simpa using w1⟩
  rw [List.length_eq_zero_iff.1 hr.symm] at this
  simp at this

end

/-- The table of the sums of the differences of coordinates. -/
def fewDist (c : List (Int × Int)) : List (List Int) :=
  c.map fun a => c.map fun b => ((a.1 - b.1).natAbs : Int) + ((a.2 - b.2).natAbs : Int)

/-- The hypotheses are met by the corners of a square and its centre, in degree two.  The bound cannot be
improved: the four corners alone have a bar in degree one. -/
example : IsPdist fewDist ∧ [((0 : Int), (0 : Int)), (2, 0), (0, 2), (2, 2), (1, 1)].length ≤ 2 * 2 + 1 ∧
    [((0 : Int), (0 : Int)), (2, 0), (0, 2), (2, 2)].length = 2 * 1 + 2 ∧
    ((localPersistentHomology fewDist stableArgsort id [((0 : Int), (0 : Int)), (2, 0), (0, 2), (2, 2)] 3 2 5).map
      fun L => L.ph.hom.map fun B => B.barcode) =
        .ok [[(0, 3), (0, 2), (0, 2), (0, 2)], [(2, 3)], []] := by
  refine ⟨⟨fun c _ => by simp [fewDist], fun c _ row hr x hx => ?_⟩, by decide, by decide, by decide +kernel⟩
  obtain ⟨a, -, rfl⟩ := List.mem_map.1 hr
  obtain ⟨b, -, rfl⟩ := List.mem_map.1 hx
  positivity

end Permaviss
