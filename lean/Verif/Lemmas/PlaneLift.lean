import Verif.Lemmas.PlaneTwo
import Verif.Lemmas.StripExt

/-!
# Extensions at a position where both of the first differentials act

The rounds of `extension` on the first column when the first two differentials reach it.
-/

namespace Permaviss

open Finset

attribute [-instance] instMulZeroClassOfSemiring

section

variable {α : Type} [LinearOrder α] [Zero α] {rnd : α → α} {E : SSEnv α} {ρ : List ℕ → α}

/-- A round of `lift_to_page` at a position which is not zero gives coefficients. -/
theorem liftStep_some {S : SSt α} {n deg k : ℕ} {bars : List (α × α)} {cols : List (List ℤ)} {im : Basis α}
    {prev : List (α × α)} (him : S.im k n deg = some im) (hprev : (S.hom k n deg).prev = some prev)
    (hwf : ∀ b ∈ prev, b.1 < b.2) (h0 : (S.hom k n deg).basis.dim ≠ 0) {o : Option (Mat × Mat)}
    (h : liftStep rnd E S n deg bars k cols = .ok o) : ∃ βγ, o = some βγ := by
  cases o with
  | some x => exact ⟨x, rfl⟩
  | none =>
    exfalso
    unfold liftStep at h
    rw [him, hprev] at h
    dsimp only at h
    rw [if_neg h0] at h
    split at h
    · rw [basisOfBars_eq hwf] at h
      simp only [bind_ok] at h
      obtain ⟨_, _, _, _, _, _, h⟩ := h
      cases h
    · cases h

theorem liftStep_none {S : SSt α} {n deg k : ℕ} {bars : List (α × α)} {cols : List (List ℤ)}
    (h0 : (S.hom k n deg).basis.dim = 0) : liftStep rnd E S n deg bars k cols = .ok none := by
  unfold liftStep
  dsimp only
  rw [if_pos h0]

/-- Position `(n, deg)` of the pages: `H` and `I1` are the homology and the image of page one, `Q` and `I2`
those of page two, and the later pages repeat `Q`. -/
structure LiftTwo (E : SSEnv α) (S : SSt α) (n deg : ℕ) (prev : List (α × α)) (H I1 Q I2 : Basis α) : Prop where
  hom1 : (S.hom 1 n deg).basis = H
  prev1 : H.dim ≠ 0 → (S.hom 1 n deg).prev = some prev
  im1 : H.dim ≠ 0 → S.im 1 n deg = some I1
  wf : ∀ b ∈ prev, b.1 < b.2
  wfH : ∀ b ∈ H.barcode, b.1 < b.2
  liftH : LiftIn E.p prev.length H
  liftI1 : LiftIn E.p prev.length I1
  hom2 : (S.hom 2 n deg).basis = Q
  prev2 : Q.dim ≠ 0 → (S.hom 2 n deg).prev = some H.barcode
  im2 : Q.dim ≠ 0 → S.im 2 n deg = some I2
  wfQ : ∀ b ∈ Q.barcode, b.1 < b.2
  liftQ : LiftIn E.p H.barcode.length Q
  liftI2 : LiftIn E.p H.barcode.length I2
  sub : H.dim = 0 → Q.dim = 0
  kept : ∀ k, 3 ≤ k → k < E.noPages → KeptPage S n deg k Q

/-- `lift_to_page` at such a position. -/
theorem liftToPage_two (hp : E.p.Prime) {S : SSt α} {n deg target : ℕ} {prev : List (α × α)} {H I1 Q I2 : Basis α}
    (P : LiftTwo E S n deg prev H I1 Q I2) (ht : 2 ≤ target) (htp : target ≤ E.noPages) {bars : List (α × α)}
    {rows : List (List ℤ)} (hred : ∀ c ∈ rows, RedL E.p c) {out : Option (Mat × Mat)}
    (h : liftToPage rnd E S n deg target rows bars = .ok out) :
    (out = none ∧ (3 ≤ target → Q.dim = 0)) ∨ ∃ β γ, out = some (β, γ) ∧ H.dim ≠ 0 ∧
      (target = 2 → MatOK E.p I1.dim rows.length γ ∧ ∀ j < rows.length, ∃ b, bars[j]? = some b ∧
        ∀ i, ¬ AliveBar I1.barcode i b.1 → γ.zcol E.p j i = 0) ∧
      (3 ≤ target → Q.dim ≠ 0) ∧
      (target = 3 → MatOK E.p I2.dim rows.length γ ∧ ∀ j < rows.length, ∃ b, bars[j]? = some b ∧
        ∀ i, ¬ AliveBar I2.barcode i b.1 → γ.zcol E.p j i = 0) ∧
      (3 < target → ∀ c ∈ γ.cols, c = []) ∧
      (3 ≤ target → MatOK E.p Q.dim rows.length β ∧ ∀ j < rows.length, ∃ b, bars[j]? = some b ∧
        ∀ i, ¬ AliveBar Q.barcode i b.1 → β.zcol E.p j i = 0) := by
  unfold liftToPage at h
  rw [if_neg (by omega)] at h
  obtain ⟨m, hm⟩ : ∃ m, target - 1 = m + 1 := ⟨target - 2, by omega⟩
  rw [hm] at h
  unfold liftLoop at h
  dsimp only at h
  by_cases hH0 : H.dim = 0
  · left
    rw [liftStep_none (by rw [P.hom1]; exact hH0)] at h
    cases h
    exact ⟨rfl, fun _ => P.sub hH0⟩
  have hpr := P.prev1 hH0
  split at h
  · cases h
  · next hs =>
    obtain ⟨x, hx⟩ := liftStep_some (P.im1 hH0) hpr P.wf (by rw [P.hom1]; exact hH0) hs
    cases hx
  next o hs =>
  obtain ⟨β1, γ1⟩ := o
  obtain ⟨s1, s2, s3⟩ := liftStep_spec hp (P.im1 hH0) hpr P.wf P.liftI1 (by rw [P.hom1]; exact P.liftH) hred hs
  rw [P.hom1] at s1 s3
  cases m with
  | zero =>
    right
    cases h
    refine ⟨β1, γ1, rfl, hH0, fun _ => ⟨s2, fun j hj => ?_⟩, fun _ => by omega, fun _ => by omega,
      fun _ => by omega, fun _ => by omega⟩
    obtain ⟨b, hb, -, -, h5, -⟩ := s3 j hj
    exact ⟨b, hb, h5⟩
  | succ m =>
    unfold liftLoop at h
    dsimp only at h
    by_cases hQ0 : Q.dim = 0
    · left
      rw [liftStep_none (by rw [P.hom2]; exact hQ0)] at h
      cases h
      exact ⟨rfl, fun _ => hQ0⟩
    right
    have hpr2 := P.prev2 hQ0
    split at h
    · cases h
    · next hs2 =>
      obtain ⟨x, hx⟩ := liftStep_some (P.im2 hQ0) hpr2 P.wfH (by rw [P.hom2]; exact hQ0) hs2
      cases hx
    next o hs2 =>
    obtain ⟨β2, γ2⟩ := o
    obtain ⟨t1, t2, t3⟩ := liftStep_spec hp (P.im2 hQ0) hpr2 P.wfH P.liftI2 (by rw [P.hom2]; exact P.liftQ)
      s1.red hs2
    rw [show β1.cols.length = rows.length from s1.ncols] at t1 t2 t3
    rw [P.hom2] at t1 t3
    obtain ⟨β, γ, rfl, r1, r2, r3, r4⟩ := liftLoop_kept hp P.kept P.wfQ P.liftQ.dim hQ0 m 3 (last := (β2, γ2))
      le_rfl (by omega) t1 (by
        intro j hj
        obtain ⟨b, hb, -, h4, -⟩ := t3 j hj
        exact ⟨b, hb, h4⟩) h
    refine ⟨β, γ, rfl, hH0, fun _ => by omega, fun _ => hQ0, fun h3 => ?_, fun h3 => r4 (by omega),
      fun _ => ⟨r1, fun j hj => ?_⟩⟩
    · obtain rfl := r3 (by omega)
      refine ⟨t2, fun j hj => ?_⟩
      obtain ⟨b, hb, -, -, h5, -⟩ := t3 j hj
      exact ⟨b, hb, h5⟩
    · obtain ⟨b, hb, -, h4, -⟩ := t3 j hj
      rw [r2 j hj]
      exact ⟨b, hb, h4⟩

/-- The classes which a round of `extension` subtracts. -/
theorem round_classes {p : ℕ} {I : Basis α} {m nc : ℕ} (hI : MatOK p m I.dim I.coords) {γ : Mat}
    (hγ : MatOK p I.dim nc γ) {j : ℕ} (hj : j < nc) :
    zv p ((γ.cols.map fun g => mulVec I.coords (scale (-1) g)).getD j []) =
      - ∑ i ∈ range I.dim, γ.zcol p j i • I.coords.zcol p i := by
  have hj' : j < γ.cols.length := by rw [show γ.cols.length = nc from hγ.ncols]; exact hj
  rw [getD_map_lt hj', zv_mulVec (fun c hc => by rw [hI.len c hc, hI.rows]), ← Finset.sum_neg_distrib,
    show I.coords.ncols = I.dim from hI.ncols]
  refine Finset.sum_congr rfl fun i _ => ?_
  rw [zv_scale]
  unfold Mat.zcol
  rw [List_getD_eq_getElem γ.cols _ hj']
  simp

/-- A round of the loop of `extension` over the pages. -/
theorem extRound_two (h : SSOK rnd E ρ) {S : SSt α} {n deg t : ℕ} (hn : n < E.columns.length)
    (hpos : 0 < E.spx n) (hdeg : deg < E.rows) {prev : List (α × α)} {H I1 Q I2 : Basis α}
    (P : LiftTwo E S n deg prev H I1 Q I2) (hreps : H.dim ≠ 0 → ∃ X, S.reps 1 n deg = [X] ∧
      ChainIs E n deg H.dim (fun k i => E.fam n deg k (H.coords.zcol E.p i)) X)
    (ht : 2 ≤ t) (htp : t ≤ E.noPages)
    {deaths : List α} {C X : LChains} {f : ℕ → ℕ → ℕ → ZMod E.p}
    (hC : ChainIs E n deg deaths.length f C) (hr : extRound rnd E S n deg deaths C t = .ok X) :
    ∃ g1 g2 : ℕ → ℕ → ZMod E.p,
      (∀ j d, deaths[j]? = some d → Comb E.p I1 d (g1 j) ∧ Comb E.p I2 d (g2 j)) ∧
      ChainIs E n deg deaths.length (fun k j => f k j -
        E.fam n deg k (g1 j + linOf (H.coords.zcol E.p) H.barcode.length (g2 j))) X := by
  have triv : ∃ g1 g2 : ℕ → ℕ → ZMod E.p,
      (∀ j d, deaths[j]? = some d → Comb E.p I1 d (g1 j) ∧ Comb E.p I2 d (g2 j)) ∧
      ChainIs E n deg deaths.length (fun k j => f k j -
        E.fam n deg k (g1 j + linOf (H.coords.zcol E.p) H.barcode.length (g2 j))) C :=
    ⟨fun _ => 0, fun _ => 0, fun _ _ _ => ⟨Comb.zero, Comb.zero⟩, hC.congr fun k _ g _ => by
      rw [map_zero, add_zero, map_zero, sub_zero]⟩
  unfold extRound at hr
  rw [bind_ok] at hr
  obtain ⟨out, hout, hr⟩ := hr
  obtain ⟨o1, o2, -⟩ := firstPageLift_spec h hn hpos hdeg hC.wf hC.refs hout
  rw [bind_ok] at hr
  obtain ⟨lo, hlo, hr⟩ := hr
  rcases liftToPage_two h.prime P ht htp (fun c hc => fun x hx => (o2 c hc).2 x hx) hlo with
    ⟨rfl, -⟩ | ⟨β, γ, rfl, hH0, g2, g3, g3', g4, -⟩
  · cases hr
    exact triv
  dsimp only at hr
  split at hr
  · cases hr
  split at hr
  · cases hr
    exact triv
  next hany =>
  by_cases ht2 : t = 2
  · subst ht2
    obtain ⟨hγ, hs⟩ := g2 rfl
    rw [o1] at hγ hs
    rw [show (2 : ℕ) - 1 = 1 from rfl, P.im1 hH0] at hr
    dsimp only at hr
    rw [if_pos rfl] at hr
    have hI0 : I1.dim ≠ 0 := by
      intro h0
      refine hany (anyRows_false.2 fun c hc i => ?_)
      have := hγ.len c hc
      rw [h0] at this
      rw [List.length_eq_zero_iff.1 this]; rfl
    have hIm := P.liftI1.mat (by omega)
    rw [bind_ok] at hr
    obtain ⟨cyc, hcyc, hr⟩ := hr
    rw [bind_ok] at hr
    obtain ⟨J, hJ, hr⟩ := hr
    have hcls : ChainIs E n deg deaths.length (fun k g => E.fam n deg k (zv E.p
        ((γ.cols.map fun g => mulVec I1.coords (scale (-1) g)).getD g []))) J := by
      have := classFold_spec h hn hpos hdeg (nr := I1.coords.nrows) (m := γ.ncols)
        (cols := γ.cols.map fun g => mulVec I1.coords (scale (-1) g)) (by
          intro c hc
          obtain ⟨x, -, rfl⟩ := List.mem_map.1 hc
          exact mulVec_length _ _) (by rw [List.length_map]; rfl) hcyc hJ
      rw [show γ.ncols = deaths.length from hγ.ncols] at this
      exact this
    refine ⟨fun j => ∑ i ∈ range I1.dim, γ.zcol E.p j i • I1.coords.zcol E.p i, fun _ => 0, ?_, ?_⟩
    · intro j d hd
      have hj : j < deaths.length := (List.getElem?_eq_some_iff.1 hd).1
      obtain ⟨b, hb, hs⟩ := hs j hj
      rw [List.getElem?_map, hd] at hb
      have hb' : (d, E.maxR) = b := Option.some.inj hb
      rw [← hb'] at hs
      exact ⟨⟨γ.zcol E.p j, hs, rfl⟩, Comb.zero⟩
    · refine (hC.add hcls hr).congr fun k _ j hj => ?_
      rw [round_classes hIm hγ hj, map_neg, map_zero, add_zero, sub_eq_add_neg]
  by_cases ht3 : t = 3
  · subst ht3
    obtain ⟨hγ, hs⟩ := g3' rfl
    rw [o1] at hγ hs
    rw [show (3 : ℕ) - 1 = 2 from rfl, P.im2 (g3 le_rfl)] at hr
    dsimp only at hr
    rw [if_neg (by omega)] at hr
    have hI0 : I2.dim ≠ 0 := by
      intro h0
      refine hany (anyRows_false.2 fun c hc i => ?_)
      have := hγ.len c hc
      rw [h0] at this
      rw [List.length_eq_zero_iff.1 this]; rfl
    have hIm := P.liftI2.mat (by omega)
    rw [bind_ok] at hr
    obtain ⟨R0, hR0, hr⟩ := hr
    rw [bind_ok] at hr
    obtain ⟨J, hJ, hr⟩ := hr
    obtain ⟨Y, hY, hYc⟩ := hreps hH0
    rw [show (3 : ℕ) - 2 = 1 from rfl, hY] at hR0
    obtain rfl : Y = R0 := Except.ok.inj hR0
    rw [hIm.rows, ← P.liftH.dim] at hJ
    have hsum := hYc.sums hJ
    rw [List.length_map, show γ.cols.length = deaths.length from hγ.ncols] at hsum
    refine ⟨fun _ => 0, fun j => ∑ i ∈ range I2.dim, γ.zcol E.p j i • I2.coords.zcol E.p i, ?_, ?_⟩
    · intro j d hd
      have hj : j < deaths.length := (List.getElem?_eq_some_iff.1 hd).1
      obtain ⟨b, hb, hs⟩ := hs j hj
      rw [List.getElem?_map, hd] at hb
      have hb' : (d, E.maxR) = b := Option.some.inj hb
      rw [← hb'] at hs
      exact ⟨Comb.zero, ⟨γ.zcol E.p j, hs, rfl⟩⟩
    · refine (hC.add hsum hr).congr fun k _ j hj => ?_
      rw [round_classes hIm hγ hj, zero_add, linOf_apply, ← P.liftH.dim, sub_eq_add_neg, fam_smulsum]
      congr 1
      refine Eq.trans (Finset.sum_congr rfl fun g _ => ?_) (Finset.sum_neg_distrib ..)
      exact neg_smul _ _
  · exfalso
    refine hany (anyRows_false.2 fun c hc i => ?_)
    rw [g4 (by omega) c hc]; rfl

/-- The loop of `extension` over the pages. -/
theorem extRounds_two (h : SSOK rnd E ρ) {S : SSt α} {n deg : ℕ} (hn : n < E.columns.length)
    (hpos : 0 < E.spx n) (hdeg : deg < E.rows) {prev : List (α × α)} {H I1 Q I2 : Basis α}
    (P : LiftTwo E S n deg prev H I1 Q I2) (hreps : H.dim ≠ 0 → ∃ X, S.reps 1 n deg = [X] ∧
      ChainIs E n deg H.dim (fun k i => E.fam n deg k (H.coords.zcol E.p i)) X)
    {deaths : List α} {C X : LChains} {f : ℕ → ℕ → ℕ → ZMod E.p}
    (hC : ChainIs E n deg deaths.length f C)
    (hr : ((List.range (E.noPages - 1)).map fun i => E.noPages - i).foldlM
      (extRound rnd E S n deg deaths) C = .ok X) :
    ∃ g1 g2 : ℕ → ℕ → ZMod E.p,
      (∀ j d, deaths[j]? = some d → Comb E.p I1 d (g1 j) ∧ Comb E.p I2 d (g2 j)) ∧
      ChainIs E n deg deaths.length (fun k j => f k j -
        E.fam n deg k (g1 j + linOf (H.coords.zcol E.p) H.barcode.length (g2 j))) X := by
  refine foldlM_ok_inv (fun X => ∃ g1 g2 : ℕ → ℕ → ZMod E.p,
      (∀ j d, deaths[j]? = some d → Comb E.p I1 d (g1 j) ∧ Comb E.p I2 d (g2 j)) ∧
      ChainIs E n deg deaths.length (fun k j => f k j -
        E.fam n deg k (g1 j + linOf (H.coords.zcol E.p) H.barcode.length (g2 j))) X) ?_ hr
    ⟨fun _ => 0, fun _ => 0, fun _ _ _ => ⟨Comb.zero, Comb.zero⟩, hC.congr fun k _ g _ => by
      rw [map_zero, add_zero, map_zero, sub_zero]⟩
  rintro Y t Y' htm hY ⟨g1, g2, hg, i2⟩
  obtain ⟨i, hi, rfl⟩ := List.mem_map.1 htm
  have hi' := List.mem_range.1 hi
  obtain ⟨g1', g2', hg', e2⟩ := extRound_two h hn hpos hdeg P hreps (by omega) (by omega) i2 hY
  refine ⟨fun j => g1 j + g1' j, fun j => g2 j + g2' j,
    fun j d hd => ⟨(hg j d hd).1.add (hg' j d hd).1, (hg j d hd).2.add (hg' j d hd).2⟩,
    e2.congr fun k _ j _ => ?_⟩
  rw [map_add (linOf (H.coords.zcol E.p) H.barcode.length), sub_sub, ← map_add]
  congr 2
  exact add_add_add_comm _ _ _ _

end

end Permaviss
