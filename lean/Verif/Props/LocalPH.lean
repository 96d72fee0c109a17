import Verif.Lemmas.VRHomology
import Verif.Model.LocalPH

/-!
# Local persistent homology is Vietoris-Rips persistent homology (C27)
-/

namespace Permaviss

attribute [-instance] instMulZeroClassOfSemiring

variable {α : Type} [LinearOrder α] [Zero α] {p : ℕ} {Pt : Type}

/-- What is assumed of `dist.squareform(dist.pdist(cloud))`: one row per point and entries `≥ 0`. -/
structure IsPdist (pdist : List Pt → List (List α)) : Prop where
  len : ∀ c, c ≠ [] → (pdist c).length = c.length
  pos : ∀ c, c ≠ [] → ∀ row ∈ pdist c, ∀ x ∈ row, 0 ≤ x

theorem distAt_nonneg {M : List (List α)} (h : ∀ row ∈ M, ∀ x ∈ row, 0 ≤ x) (i j : ℕ) :
    0 ≤ distAt M i j := by
  unfold distAt
  by_cases hi : i < M.length
  · by_cases hj : j < (M.getD i []).length
    · exact h _ (getD_mem' hi) _ (getD_mem' hj)
    · rw [List.getD_eq_getElem?_getD (l := M.getD i []), List.getElem?_eq_none (not_lt.1 hj)]; simp
  · rw [List.getD_eq_getElem?_getD (l := M), List.getElem?_eq_none (not_lt.1 hi)]; simp

/-- The distance between points `i` and `j` of a cloud, as read in the distance matrix. -/
def cloudDist (pdist : List Pt → List (List α)) (cloud : List Pt) : ℕ → ℕ → α :=
  distAt (if cloud.length = 0 then [] else pdist cloud)

/-- The `k`-th representative of `Hom[e]` as a chain on lists of vertices. -/
noncomputable def LocalOut.rep (L : LocalOut α) (p e : ℕ) (B : Basis α) (k : ℕ) :
    List ℕ →₀ ZMod p :=
  toChain (ZMod p) (simplicesOf L.cpx.verts L.cpx.simplices e) (B.chain p k)

/-- Everything that is needed about a run. -/
theorem local_run (hp : p.Prime) {pdist : List Pt → List (List α)} (hd : IsPdist pdist)
    {argsort : List α → List Nat} (ha : IsArgsort argsort) (rnd : α → α) (cloud : List Pt) {maxR : α}
    (hmax : 0 < maxR) (maxDim : Int) :
    ∃ Dist D out, (if cloud.length = 0 then [] else pdist cloud) = Dist ∧ Dist.length = cloud.length ∧
      (∀ i j, 0 ≤ distAt Dist i j) ∧
      complexDifferentials Dist.length (vietorisRips argsort Dist maxR maxDim).simplices p =
        .ok (Dist.length, D) ∧
      FiltComplex p D (vietorisRips argsort Dist maxR maxDim).allRads maxR ∧
      persistentHomology rnd p ((vietorisRips argsort Dist maxR maxDim).allRads.getD 0 []).length D
        (vietorisRips argsort Dist maxR maxDim).allRads maxR = .ok out ∧
      out.hom.length = D.length + 1 ∧ ((D.length : ℕ) : Int) = max maxDim 1 ∧
      D.length = (vietorisRips argsort Dist maxR maxDim).simplices.length ∧
      localPersistentHomology pdist argsort rnd cloud maxR maxDim p =
        .ok { cpx := vietorisRips argsort Dist maxR maxDim, diff := D, ph := out } := by
  set Dist := (if cloud.length = 0 then [] else pdist cloud) with hDist
  have hlen : Dist.length = cloud.length := by
    rw [hDist]
    split
    · next h => rw [h]; rfl
    · next h => exact hd.len _ (by rintro rfl; exact h rfl)
  have hpos : ∀ i j, 0 ≤ distAt Dist i j := by
    apply distAt_nonneg
    rw [hDist]
    split
    · simp
    · next h => exact hd.pos _ (by rintro rfl; exact h rfl)
  obtain ⟨hC, -⟩ := C18_vietoris_rips_filtration argsort ha Dist maxR maxDim hpos
  obtain ⟨-, hsl, -⟩ := C16_vietoris_rips_simplices argsort ha Dist maxR maxDim
  obtain ⟨D, hD, hDl⟩ := C19_differentials_total (p := p) hC (by
    intro h0; rw [h0] at hsl; simp at hsl; omega)
  have F := vr_filtComplex hp.two_le ha hpos hmax (n' := Dist.length) hD
  obtain ⟨out, hout, hol, -⟩ := C26_persistent_homology_total hp rnd F
  have hv : ((vietorisRips argsort Dist maxR maxDim).allRads.getD 0 []).length = Dist.length := by
    simp [VRComplex.allRads, vietorisRips]
  refine ⟨Dist, D, out, rfl, hlen, hpos, hD, F, hout, hol, by rw [hDl]; exact hsl, hDl, ?_⟩
  unfold localPersistentHomology
  simp only [← hDist]
  have hD' : complexDifferentials (vietorisRips argsort Dist maxR maxDim).verts
      (vietorisRips argsort Dist maxR maxDim).simplices p = .ok (Dist.length, D) := hD
  rw [hD']
  dsimp only
  have hout' : persistentHomology rnd p Dist.length D
      ((vietorisRips argsort Dist maxR maxDim).rad0 :: (vietorisRips argsort Dist maxR maxDim).rads)
      maxR = .ok out := by rw [← hv]; exact hout
  rw [hout']

/-- **C27.** For every finite point cloud (also the empty one), every prime `p`, every `max_r > 0` and
every `max_dim`, `local_persistent_homology` does not raise, and it returns `Hom` up to degree
`max(max_dim, 1)`. -/
theorem C27_local_persistent_homology_total (hp : p.Prime) (pdist : List Pt → List (List α))
    (hd : IsPdist pdist) (argsort : List α → List Nat) (ha : IsArgsort argsort) (rnd : α → α)
    (cloud : List Pt) (maxR : α) (hmax : 0 < maxR) (maxDim : Int) :
    ∃ L, localPersistentHomology pdist argsort rnd cloud maxR maxDim p = .ok L ∧
      (L.ph.hom.length : Int) = max maxDim 1 + 1 := by
  obtain ⟨Dist, D, out, -, -, -, -, -, -, h1, h2, -, h3⟩ :=
    local_run hp hd ha rnd cloud hmax maxDim
  refine ⟨_, h3, ?_⟩
  have : out.hom.length = D.length + 1 := h1
  push_cast [this]; omega

/-- **C27.** In every degree `e < max(max_dim, 1)` and at every radius `0 ≤ t < max_r`, the classes of
the representatives of the bars of `Hom[e]` that contain `t` form a basis of the simplicial homology
`H_e(VR_t; Z/p)` of the Vietoris-Rips complex of the cloud. -/
theorem C27_local_homology_basis (hp : p.Prime) (pdist : List Pt → List (List α))
    (hd : IsPdist pdist) (argsort : List α → List Nat) (ha : IsArgsort argsort) (rnd : α → α)
    (cloud : List Pt) (maxR : α) (hmax : 0 < maxR) (maxDim : Int) (L : LocalOut α)
    (hL : localPersistentHomology pdist argsort rnd cloud maxR maxDim p = .ok L)
    (e : ℕ) (he : (e : Int) < max maxDim 1) (t : α) (ht : 0 ≤ t) (ht' : t < maxR) :
    ∃ B, L.ph.hom[e]? = some B ∧
      ∃ β : Module.Basis {k // AliveBar B.barcode k t} (ZMod p)
          (vrHomology (ZMod p) (cloudDist pdist cloud) cloud.length e t),
        ∀ k, ∃ hz, β k = vrClass (L.rep p e B k.1) hz := by
  obtain ⟨Dist, D, out, h0, hlen, hpos, hD, F, hout, hol, hDm, hDl, h3⟩ :=
    local_run hp hd ha rnd cloud hmax maxDim
  rw [hL] at h3
  cases h3
  unfold cloudDist
  rw [h0, ← hlen]
  have he' : e < (vietorisRips argsort Dist maxR maxDim).simplices.length := by omega
  obtain ⟨B, hB⟩ : ∃ B, out.hom[e]? = some B := ⟨_, List.getElem?_eq_getElem (by omega)⟩
  obtain ⟨β, hβ⟩ := C23_alive_bars_basis_of_homology hp rnd F out hout e B hB t ht'
  refine ⟨B, hB, β.map (homologyEquiv ha hpos hp hmax hD ht ht' he'), fun k => ?_⟩
  obtain ⟨hz, hk⟩ := hβ k
  refine ⟨toChain_cycles ha hpos hp hmax hD ht he' hz, ?_⟩
  rw [Module.Basis.map_apply, hk, homologyEquiv_class]
  rfl

/-- **C27.** In every degree `e < max(max_dim, 1)` and for all radii `0 ≤ s ≤ t < max_r`, the number of
bars with `birth ≤ s` and `t < death` is the rank of `H_e(VR_s; Z/p) → H_e(VR_t; Z/p)`. -/
theorem C27_local_persistent_betti (hp : p.Prime) (pdist : List Pt → List (List α))
    (hd : IsPdist pdist) (argsort : List α → List Nat) (ha : IsArgsort argsort) (rnd : α → α)
    (cloud : List Pt) (maxR : α) (hmax : 0 < maxR) (maxDim : Int) (L : LocalOut α)
    (hL : localPersistentHomology pdist argsort rnd cloud maxR maxDim p = .ok L)
    (e : ℕ) (he : (e : Int) < max maxDim 1) (s t : α) (hs : 0 ≤ s) (hst : s ≤ t) (ht' : t < maxR) :
    ∃ B, L.ph.hom[e]? = some B ∧
      Module.finrank (ZMod p) (LinearMap.range
        (vrMap (ZMod p) (cloudDist pdist cloud) cloud.length e hst)) =
      (B.barcode.filter fun b => decide (b.1 ≤ s ∧ t < b.2)).length := by
  obtain ⟨Dist, D, out, h0, hlen, hpos, hD, F, hout, hol, hDm, hDl, h3⟩ :=
    local_run hp hd ha rnd cloud hmax maxDim
  rw [hL] at h3
  cases h3
  unfold cloudDist
  rw [h0, ← hlen]
  have he' : e < (vietorisRips argsort Dist maxR maxDim).simplices.length := by omega
  obtain ⟨B, hB⟩ : ∃ B, out.hom[e]? = some B := ⟨_, List.getElem?_eq_getElem (by omega)⟩
  refine ⟨B, hB, ?_⟩
  rw [← C24_persistent_betti hp rnd F out hout e B hB s t hst ht']
  have ht := hs.trans hst
  have hs' := lt_of_le_of_lt hst ht'
  have hcomm : (vrMap (ZMod p) (distAt Dist) Dist.length e hst).comp
      (homologyEquiv ha hpos hp hmax hD hs hs' he').toLinearMap =
      (homologyEquiv ha hpos hp hmax hD ht ht' he').toLinearMap.comp
        (homMap p D (vietorisRips argsort Dist maxR maxDim).allRads e hst) := by
    apply LinearMap.ext
    intro x
    obtain ⟨z, hz, rfl⟩ := homClass_surj x
    rfl
  have hr : LinearMap.range (vrMap (ZMod p) (distAt Dist) Dist.length e hst) =
      (LinearMap.range (homMap p D (vietorisRips argsort Dist maxR maxDim).allRads e hst)).map
        (homologyEquiv ha hpos hp hmax hD ht ht' he').toLinearMap := by
    rw [← LinearMap.range_comp, ← hcomm, LinearMap.range_comp, LinearEquiv.range, Submodule.map_top]
  rw [hr]
  exact LinearEquiv.finrank_map_eq (homologyEquiv ha hpos hp hmax hD ht ht' he') _

/-! ## A concrete case: four points on a line, with the usual distance -/

def exPdist (c : List Int) : List (List Int) := c.map fun x => c.map fun y => ((x - y).natAbs : Int)

example : IsPdist exPdist := by
  refine ⟨fun c _ => by simp [exPdist], fun c _ row hr x hx => ?_⟩
  obtain ⟨a, -, rfl⟩ := List.mem_map.1 hr
  obtain ⟨b, -, rfl⟩ := List.mem_map.1 hx
  positivity

example : (localPersistentHomology exPdist stableArgsort id [0, 1, 3, 6] 5 2 3).map
    (fun L => L.ph.hom.map fun B => B.barcode) =
    .ok [[(0, 5), (0, 3), (0, 2), (0, 1)], [], []] := by decide

/-- The empty cloud. -/
example : (localPersistentHomology exPdist stableArgsort id [] 5 2 3).map
    (fun L => L.ph.hom.map fun B => B.barcode) = .ok [[], [], []] := by decide

/-- A square with side `1` and diagonal `2`: one loop. -/
example : (localPersistentHomology (fun _ : List Nat => [[0, 1, 2, 1], [1, 0, 1, 2], [2, 1, 0, 1],
    [1, 2, 1, (0 : Int)]]) stableArgsort id [0, 1, 2, 3] 5 2 3).map
    (fun L => L.ph.hom.map fun B => B.barcode) =
    .ok [[(0, 5), (0, 1), (0, 1), (0, 1)], [(1, 2)], [(2, 5)]] := by decide

end Permaviss
