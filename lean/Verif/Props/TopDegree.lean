import Verif.Props.LocalPH

/-!
# The last degree of `local_persistent_homology` (C104)
-/

namespace Permaviss

attribute [-instance] instMulZeroClassOfSemiring

section

variable {α : Type} [LinearOrder α] [Zero α] {p : ℕ} {Pt : Type} {D : List Mat} {R : List (List α)} {maxRad : α}

/-- There are no boundaries in the last degree. -/
theorem boundariesAt_top (p : ℕ) (D : List Mat) (R : List (List α)) (t : α) :
    boundariesAt p D R D.length t = ⊥ := by
  unfold boundariesAt
  have : bdry p D (D.length + 1) = 0 := by
    show ((D[D.length]?).map (Mat.mulVecL p)).getD 0 = 0
    rw [List.getElem?_eq_none le_rfl]
    rfl
  rw [this, Submodule.map_zero]

/-- The last bars of `persistent_homology` end at `maxRad`. -/
theorem bars_top (hp : p.Prime) (rnd : α → α) (F : FiltComplex p D R maxRad) {out : PHOut α}
    (h : persistentHomology rnd p (R.getD 0 []).length D R maxRad = .ok out) {B : Basis α}
    (hB : out.hom[D.length]? = some B) : ∀ b ∈ B.barcode, b.2 = maxRad := by
  intro b hb
  obtain ⟨k, hk⟩ := List.mem_iff_getElem?.1 hb
  obtain ⟨h1, h2⟩ := (C26_barcodes_well_formed hp rnd F out h D.length B hB).1 b hb
  refine le_antisymm h2 (not_lt.1 fun hlt => ?_)
  obtain ⟨g1, g2⟩ := C22_finite_bars_die_as_boundaries hp rnd F out h D.length B hB k b hk
  have := g1 hlt
  rw [boundariesAt_top, Submodule.mem_bot] at this
  exact g2 b.1 h1 (this ▸ Submodule.zero_mem _)

/-- **C104.** In degree `max(max_dim, 1)`, the last one, `local_persistent_homology` returns cycles and not classes of
cycles: all bars end at `max_r`, and at every radius `t` the representatives of the bars that contain `t` form a basis of
the cycles of the Vietoris-Rips complex. -/
theorem C104_top_degree (hp : p.Prime) (pdist : List Pt → List (List α))
    (hd : IsPdist pdist) (argsort : List α → List Nat) (ha : IsArgsort argsort) (rnd : α → α)
    (cloud : List Pt) (maxR : α) (hmax : 0 < maxR) (maxDim : Int) (L : LocalOut α)
    (hL : localPersistentHomology pdist argsort rnd cloud maxR maxDim p = .ok L)
    (e : ℕ) (he : (e : Int) = max maxDim 1) :
    ∃ B, L.ph.hom[e]? = some B ∧ (∀ b ∈ B.barcode, b.2 = maxR) ∧
      ∀ t, 0 ≤ t → t < maxR → ∃ β : Module.Basis {k // AliveBar B.barcode k t} (ZMod p)
          (vrCycles (ZMod p) (cloudDist pdist cloud) cloud.length e t),
        ∀ k, (β k : List ℕ →₀ ZMod p) = L.rep p e B k.1 := by
  obtain ⟨Dist, D, out, h0, hlen, hpos, hD, F, hout, hol, hDm, hDl, h3⟩ :=
    local_run hp hd ha rnd cloud hmax maxDim
  rw [hL] at h3
  cases h3
  unfold cloudDist
  rw [h0, ← hlen]
  obtain rfl : e = D.length := by omega
  obtain ⟨B, hB⟩ : ∃ B, out.hom[D.length]? = some B := ⟨_, List.getElem?_eq_getElem (by omega)⟩
  refine ⟨B, hB, bars_top hp rnd F hout hB, fun t ht ht' => ?_⟩
  obtain ⟨β, hβ⟩ := C23_alive_bars_basis_of_homology hp rnd F out hout D.length B hB t ht'
  have hbot : (boundariesAt p D (vietorisRips argsort Dist maxR maxDim).allRads D.length t).submoduleOf
      (cyclesAt p D (vietorisRips argsort Dist maxR maxDim).allRads D.length t) = ⊥ := by
    rw [boundariesAt_top, Submodule.submoduleOf, Submodule.comap_bot, Submodule.ker_subtype]
  obtain ⟨hC, -⟩ := C18_vietoris_rips_filtration argsort ha Dist maxR maxDim hpos
  have hiff : ∀ c ∈ chainsAt p (vietorisRips argsort Dist maxR maxDim).allRads D.length t,
      bdry p D D.length c = 0 ↔ simplicialBdry (ZMod p) (toChain (ZMod p) (simplicesOf Dist.length
        (vietorisRips argsort Dist maxR maxDim).simplices D.length) c) = 0 := by
    intro c hc
    obtain ⟨m, hm⟩ : ∃ m, D.length = m + 1 := ⟨D.length - 1, by omega⟩
    rw [hm] at hc ⊢
    have hb := toChain_bdry hp.two_le (n := Dist.length) hC hD (by omega : m < _) c
    constructor
    · intro h0
      rw [h0, map_zero] at hb
      have := congrArg (fun x => bdrySign p m • x) hb.symm
      simpa [smul_smul, bdrySign_mul] using this
    · intro h0
      rw [h0, smul_zero] at hb
      have := Fact.mk hp
      exact toChain_inj ha hpos (t := t) ((F.filt hp).face m t c hc) hb
  let φ : cyclesAt p D (vietorisRips argsort Dist maxR maxDim).allRads D.length t →ₗ[ZMod p]
      vrCycles (ZMod p) (distAt Dist) Dist.length D.length t :=
    (toChain (ZMod p) (simplicesOf Dist.length (vietorisRips argsort Dist maxR maxDim).simplices D.length)).restrict
      fun c hc => ⟨toChain_mem ha hpos ht hc.1, (hiff c hc.1).1 hc.2⟩
  have hφ : Function.Bijective φ := by
    refine ⟨?_, ?_⟩
    · rw [injective_iff_map_eq_zero]
      rintro ⟨c, hc⟩ h0
      apply Subtype.ext
      exact toChain_inj ha hpos (t := t) hc.1 (congrArg Subtype.val h0)
    · rintro ⟨x, hx⟩
      obtain ⟨c, hc, rfl⟩ := toChain_surj ha hpos ht ht' hDl.le hx.1
      exact ⟨⟨c, hc, (hiff c hc).2 hx.2⟩, Subtype.ext rfl⟩
  refine ⟨β.map ((Submodule.quotEquivOfEqBot _ hbot).trans (LinearEquiv.ofBijective φ hφ)), fun k => ?_⟩
  obtain ⟨hz, hk⟩ := hβ k
  rw [Module.Basis.map_apply, hk]
  rfl

/-- **C104.** So the last degree may have too many bars, never too few: the number of bars that contain `t` is at least
the Betti number of the Vietoris-Rips complex. -/
theorem C104_at_least (hp : p.Prime) (pdist : List Pt → List (List α))
    (hd : IsPdist pdist) (argsort : List α → List Nat) (ha : IsArgsort argsort) (rnd : α → α)
    (cloud : List Pt) (maxR : α) (hmax : 0 < maxR) (maxDim : Int) (L : LocalOut α)
    (hL : localPersistentHomology pdist argsort rnd cloud maxR maxDim p = .ok L)
    (e : ℕ) (he : (e : Int) = max maxDim 1) (t : α) (ht : 0 ≤ t) (ht' : t < maxR) :
    ∃ B, L.ph.hom[e]? = some B ∧
      Module.finrank (ZMod p) (vrHomology (ZMod p) (cloudDist pdist cloud) cloud.length e t) ≤
        Nat.card {k // AliveBar B.barcode k t} := by
  have := Fact.mk hp
  obtain ⟨B, h1, -, h3⟩ := C104_top_degree hp pdist hd argsort ha rnd cloud maxR hmax maxDim L hL e he
  obtain ⟨β, -⟩ := h3 t ht ht'
  have hfin : Finite {k // AliveBar B.barcode k t} := by
    refine Finite.of_injective (fun k => (⟨k.1, ?_⟩ : Fin B.barcode.length)) fun a b h => ?_
    · obtain ⟨b, hb, -⟩ := k.2
      exact (List.getElem?_eq_some_iff.1 hb).1
    · exact Subtype.ext (congrArg Fin.val h)
  have : Module.Finite (ZMod p) (vrCycles (ZMod p) (cloudDist pdist cloud) cloud.length e t) := Module.Finite.of_basis β
  refine ⟨B, h1, ?_⟩
  rw [← Module.finrank_eq_nat_card_basis β]
  exact Submodule.finrank_quotient_le _

end

/-- The hypotheses of C104 are met by three points on a line.  With `max_dim = 1` there is a bar in degree one, the
boundary of the triangle, and with `max_dim = 2` there is none. -/
example : Nat.Prime 3 ∧ IsPdist exPdist ∧ IsArgsort (stableArgsort (α := Int)) ∧
    (localPersistentHomology exPdist stableArgsort id [0, 1, 3] 5 1 3).map
      (fun L => L.ph.hom.map fun B => B.barcode) = .ok [[(0, 5), (0, 2), (0, 1)], [(3, 5)]] ∧
    (localPersistentHomology exPdist stableArgsort id [0, 1, 3] 5 2 3).map
      (fun L => L.ph.hom.map fun B => B.barcode) = .ok [[(0, 5), (0, 2), (0, 1)], [], []] := by
  refine ⟨Nat.prime_three, ⟨fun c _ => by simp [exPdist], fun c _ row hr x hx => ?_⟩, stableArgsort_isArgsort, by decide,
    by decide⟩
  obtain ⟨a, -, rfl⟩ := List.mem_map.1 hr
  obtain ⟨b, -, rfl⟩ := List.mem_map.1 hx
  positivity

end Permaviss
