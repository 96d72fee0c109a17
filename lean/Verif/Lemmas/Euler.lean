import Verif.Props.LocalPH
import Mathlib.LinearAlgebra.Dimension.Constructions
import Mathlib.LinearAlgebra.FiniteDimensional.Lemmas
import Mathlib.SetTheory.Cardinal.Finite

/-!
# Counting simplices and bars
-/

namespace Permaviss

open Finset

attribute [-instance] instMulZeroClassOfSemiring

section

variable {α : Type} [LinearOrder α] [Zero α] {p : ℕ} {D : List Mat} {R : List (List α)} {maxRad : α}

omit [Zero α] in
theorem born_finite (R : List (List α)) (e : ℕ) (t : α) : Finite {i // Born R e i t} := by
  refine Finite.of_injective (fun i : {i // Born R e i t} =>
    (⟨i.1, (List.getElem?_eq_some_iff.1 i.2.choose_spec.1).1⟩ : Fin (R.getD e []).length)) ?_
  intro i j h
  exact Subtype.ext (Fin.mk.inj h)

open Classical in
/-- Chains are functions on the simplices that are present. -/
noncomputable def chainsEquiv (p : ℕ) (R : List (List α)) (e : ℕ) (t : α) :
    chainsAt p R e t ≃ₗ[ZMod p] ({i // Born R e i t} → ZMod p) where
  toFun c i := c.1 i.1
  map_add' _ _ := rfl
  map_smul' _ _ := rfl
  invFun f := ⟨fun i => if h : Born R e i t then f ⟨i, h⟩ else 0, fun i hi => by
    by_contra h
    exact hi (dif_neg h)⟩
  left_inv c := by
    refine Subtype.ext (funext fun i => ?_)
    by_cases h : Born R e i t
    · exact dif_pos h
    · refine (dif_neg h).trans ?_
      by_contra hc
      exact h (c.2 i (Ne.symm hc))
  right_inv f := by
    funext i
    exact dif_pos i.2

theorem finrank_chains (hp : p.Prime) (R : List (List α)) (e : ℕ) (t : α) :
    Module.finrank (ZMod p) (chainsAt p R e t) = Nat.card {i // Born R e i t} ∧
    Module.Finite (ZMod p) (chainsAt p R e t) := by
  have := Fact.mk hp
  have := born_finite R e t
  have := Fintype.ofFinite {i // Born R e i t}
  refine ⟨?_, Module.Finite.equiv (chainsEquiv p R e t).symm⟩
  rw [(chainsEquiv p R e t).finrank_eq, Module.finrank_fintype_fun_eq_card, Nat.card_eq_fintype_card]

/-- Rank and nullity of the boundary, and the dimension of the homology. -/
theorem betti_relations (hp : p.Prime) (F : FiltComplex p D R maxRad) (e : ℕ) (t : α) :
    Nat.card {i // Born R e i t} = Module.finrank (ZMod p) (cyclesAt p D R e t) +
      Module.finrank (ZMod p) ((chainsAt p R e t).map (bdry p D e)) ∧
    Module.finrank (ZMod p) (cyclesAt p D R e t) = Module.finrank (ZMod p) (homologyAt p D R e t) +
      Module.finrank (ZMod p) (boundariesAt p D R e t) := by
  have := Fact.mk hp
  obtain ⟨h1, h2⟩ := finrank_chains hp R e t
  constructor
  · have h3 := LinearMap.finrank_range_add_finrank_ker ((bdry p D e).domRestrict (chainsAt p R e t))
    rw [h1] at h3
    rw [← h3, add_comm]
    congr 1
    · have e1 : LinearMap.ker ((bdry p D e).domRestrict (chainsAt p R e t)) =
          (cyclesAt p D R e t).submoduleOf (chainsAt p R e t) := by
        ext x
        constructor
        · intro hx
          exact ⟨x.2, hx⟩
        · intro hx
          exact hx.2
      rw [e1]
      exact (Submodule.submoduleOfEquivOfLe (show cyclesAt p D R e t ≤ chainsAt p R e t from inf_le_left)).finrank_eq
    · rw [LinearMap.range_domRestrict]
  · have hbc : boundariesAt p D R e t ≤ cyclesAt p D R e t := by
      rintro _ ⟨c, hc, rfl⟩
      exact ⟨(F.filt hp).face e t c hc, F.bdry_bdry e c⟩
    have : Module.Finite (ZMod p) (cyclesAt p D R e t) :=
      Module.Finite.of_injective (Submodule.inclusion (show cyclesAt p D R e t ≤ chainsAt p R e t from inf_le_left))
        (Submodule.inclusion_injective _)
    have h3 := Submodule.finrank_quotient_add_finrank ((boundariesAt p D R e t).submoduleOf (cyclesAt p D R e t))
    rw [(Submodule.submoduleOfEquivOfLe hbc).finrank_eq] at h3
    exact h3.symm

/-- The alternating sum of the numbers of simplices minus the dimensions of the homology. -/
theorem morse_sum (hp : p.Prime) (F : FiltComplex p D R maxRad) (t : α) : ∀ m : ℕ,
    ∑ e ∈ range (m + 1), (-1 : Int) ^ (m + e) * ((Nat.card {i // Born R e i t} : Int) -
      Module.finrank (ZMod p) (homologyAt p D R e t)) = Module.finrank (ZMod p) (boundariesAt p D R m t) := by
  have := Fact.mk hp
  intro m
  induction m with
  | zero =>
    obtain ⟨h1, h2⟩ := betti_relations hp F 0 t
    have h3 : (chainsAt p R 0 t).map (bdry p D 0) = ⊥ := Submodule.map_zero _
    rw [h3, finrank_bot] at h1
    rw [Finset.sum_range_one]
    simp only [Nat.add_zero, pow_zero, one_mul]
    omega
  | succ m ih =>
    obtain ⟨h1, h2⟩ := betti_relations hp F (m + 1) t
    have h3 : (chainsAt p R (m + 1) t).map (bdry p D (m + 1)) = boundariesAt p D R m t := rfl
    rw [h3] at h1
    rw [Finset.sum_range_succ]
    have h4 : ∀ x ∈ range (m + 1), (-1 : Int) ^ (m + 1 + x) * ((Nat.card {i // Born R x i t} : Int) -
        Module.finrank (ZMod p) (homologyAt p D R x t)) = -((-1 : Int) ^ (m + x) *
        ((Nat.card {i // Born R x i t} : Int) - Module.finrank (ZMod p) (homologyAt p D R x t))) := by
      intro x _
      rw [show m + 1 + x = m + x + 1 by omega, pow_succ]
      ring
    rw [Finset.sum_congr rfl h4, Finset.sum_neg_distrib, ih,
      show (-1 : Int) ^ (m + 1 + (m + 1)) = 1 from Even.neg_one_pow ⟨m + 1, rfl⟩, one_mul]
    omega

/-- There are no boundaries in the top degree. -/
theorem boundaries_top (hp : p.Prime) (e : ℕ) (he : D.length ≤ e) (t : α) :
    Module.finrank (ZMod p) (boundariesAt p D R e t) = 0 := by
  have := Fact.mk hp
  have : bdry p D (e + 1) = 0 := by
    show ((D[e]?).map (Mat.mulVecL p)).getD 0 = 0
    rw [List.getElem?_eq_none he]
    rfl
  have h3 : boundariesAt p D R e t = ⊥ := by
    unfold boundariesAt
    rw [this]
    exact Submodule.map_zero _
  rw [h3]
  have hz : Subsingleton (⊥ : Submodule (ZMod p) (ℕ → ZMod p)) := inferInstance
  exact Module.finrank_zero_of_subsingleton

/-- The bars through a radius are as many as the dimension of the homology. -/
theorem finrank_homologyAt (hp : p.Prime) {rnd : α → α} (F : FiltComplex p D R maxRad) {out : PHOut α}
    (h : persistentHomology rnd p (R.getD 0 []).length D R maxRad = .ok out) {e : ℕ} {B : Basis α}
    (hB : out.hom[e]? = some B) {t : α} (ht : t < maxRad) :
    Module.finrank (ZMod p) (homologyAt p D R e t) =
      (B.barcode.filter fun b => decide (b.1 ≤ t ∧ t < b.2)).length := by
  rw [← C24_persistent_betti hp rnd F out h e B hB t t le_rfl ht]
  have : homMap p D R e (le_refl t) = LinearMap.id := by
    refine Submodule.linearMap_qext _ (LinearMap.ext fun z => ?_)
    rfl
  rw [this, LinearMap.range_id, finrank_top]

/-- The simplices listed up to a radius are the simplices of the Vietoris-Rips complex at that radius. -/
theorem card_vr {argsort : List α → List Nat} (ha : IsArgsort argsort) {Dist : List (List α)}
    (hpos : ∀ i j, 0 ≤ distAt Dist i j) {maxR : α} {maxDim : Int} {e : ℕ} {t : α} (ht : 0 ≤ t) (ht' : t < maxR)
    (he : e ≤ (vietorisRips argsort Dist maxR maxDim).simplices.length) :
    Nat.card {i // Born (vietorisRips argsort Dist maxR maxDim).allRads e i t} =
      Nat.card {s // VRSimplex (distAt Dist) Dist.length e t s} := by
  have hlt : ∀ i, Born (vietorisRips argsort Dist maxR maxDim).allRads e i t →
      i < (simplicesOf Dist.length (vietorisRips argsort Dist maxR maxDim).simplices e).length := by
    rintro i ⟨r, hr, -⟩
    rw [← vr_rads_length ha]
    exact (List.getElem?_eq_some_iff.1 hr).1
  have hnd : (simplicesOf Dist.length (vietorisRips argsort Dist maxR maxDim).simplices e).Nodup := by
    cases e with
    | zero => exact List.nodup_range.map fun a b h => by simpa using h
    | succ e =>
      obtain ⟨-, -, hS⟩ := C16_vietoris_rips_simplices argsort ha Dist maxR maxDim
      simp only [simplicesOf]
      rw [List_getD_eq_getElem _ _ (by omega)]
      exact (hS e _ (List.getElem?_eq_getElem (by omega))).1
  refine Nat.card_congr (Equiv.ofBijective (fun i => ⟨_, (vr_born ha hpos ht (hlt i.1 i.2)).1 i.2⟩) ⟨?_, ?_⟩)
  · intro i j hij
    have h := Subtype.mk.inj hij
    rw [List_getD_eq_getElem _ _ (hlt i.1 i.2), List_getD_eq_getElem _ _ (hlt j.1 j.2)] at h
    exact Subtype.ext ((List.Nodup.getElem_inj_iff hnd).1 h)
  · rintro ⟨s, hs⟩
    obtain ⟨i, hi, rfl⟩ := List.getElem_of_mem (vr_listed ha he ht' hs)
    refine ⟨⟨i, (vr_born ha hpos ht hi).2 ?_⟩, Subtype.ext (List_getD_eq_getElem _ _ hi)⟩
    rw [List_getD_eq_getElem _ _ hi]
    exact hs

end

end Permaviss
