import Verif.Lemmas.PlaneMid

/-!
# The second differential

The second differential from column two to the first column, and the entry of the third page there.
-/

namespace Permaviss

open Finset

attribute [-instance] instMulZeroClassOfSemiring

section

variable {α : Type} [LinearOrder α] [Zero α] {rnd : α → α} {E : SSEnv α} {ρ : List ℕ → α}

/-- `cech_diff_and_lift` on chains whose Čech differential is a cycle. -/
theorem cech_lift_of (h : SSOK rnd E ρ) {n deg : ℕ} {D : Mat} (hD : E.nerveDiff[n]? = some D)
    (hn : n + 1 < E.columns.length) (hpos : 0 < E.spx (n + 1)) (hdeg : deg < E.rows) {C : LChains} {R : List α}
    {f : ℕ → ℕ → ℕ → ZMod E.p} (hC : ChainIs E (n + 1) deg R.length f C) (hR : ∀ r ∈ R, r < E.maxR)
    (hcyc : ∀ g r, R[g]? = some r → ∀ k < E.spx n,
      E.PresentAt ρ n k deg (E.cechSum D n deg k fun l => f l g) r ∧
        E.bd n k deg (E.cechSum D n deg k fun l => f l g) = 0) {out : List (List ℤ) × LChains}
    (hrun : cechDiffAndLift E n deg C R = .ok out) :
    out.1.length = R.length ∧
      (∀ row ∈ out.1, row.length = (E.firstBars deg n).length ∧ ∀ x ∈ row, 0 ≤ x ∧ x < (E.p : ℤ)) ∧
      ∀ g r, R[g]? = some r → E.BornBy n deg (zv E.p (out.1.getD g [])) r ∧
        ∃ w : ℕ → ℕ → ZMod E.p, ∀ k < E.spx n, E.PresentAt ρ n k (deg + 1) (w k) r ∧
          E.cechSum D n deg k (fun l => f l g) =
            E.fam n deg k (zv E.p (out.1.getD g [])) + E.bd n k (deg + 1) (w k) := by
  obtain ⟨C0, t1, -⟩ := cechDiff_spec h hD hn hpos hdeg.le hC.wf
  have hC0 := cechDiff_chain h hD hn hpos hdeg.le hC t1
  have hloc : ∀ k < E.spx n, ∀ e, cechDiffLocal E C n deg k = .ok e → C0.getD k LEntry.empty = e := by
    intro k hk e he
    unfold cechDiff at t1
    obtain ⟨m1, m2⟩ := mapM_ok_spec t1
    rw [List.length_range] at m1
    have := m2 k (by simpa using hk) (by omega)
    rw [List.getElem_range, he] at this
    rw [List_getD_eq_getElem C0 _ (by omega)]
    exact (Except.ok.inj this).symm
  obtain ⟨C', B, lift, c1, c2, c3, c4, c5, c6, c7, c8, -⟩ := cechDiffAndLift_spec_of h hD hn hpos hdeg hC.wf
    hR hC.refs (by
      intro k hk e he g r hr
      have hg : g < R.length := (List.getElem?_eq_some_iff.1 hr).1
      have hv := hC0.val k hk g hg
      unfold LChains.val at hv
      rw [hloc k hk e he] at hv
      rw [hv]
      obtain ⟨f1, f2⟩ := hcyc g r hr k hk
      obtain ⟨o, pts, ho, -⟩ := h.piece n (by omega) k hk
      rw [bd_eq ho] at f2
      exact ⟨⟨o, ho, f2⟩, f1⟩)
  rw [hrun] at c2
  obtain rfl := Except.ok.inj c2
  rw [t1] at c1
  obtain rfl := Except.ok.inj c1
  dsimp only
  have hbars : (E.firstBars deg n).length = E.classStart n deg (E.spx n) := by
    rw [h.firstBars_length' (by omega) hdeg, h.pageOne_eq (by omega) hdeg]
  refine ⟨c3, fun row hr => ⟨by rw [hbars]; exact (c4 row hr).1, (c4 row hr).2⟩, fun g r hr => ⟨?_, ?_⟩⟩
  · have hg : g < R.length := (List.getElem?_eq_some_iff.1 hr).1
    intro i hi
    have hlt : i < E.classStart n deg (E.spx n) := by
      by_contra hc
      refine hi (zv_of_le _ ?_)
      rw [List_getD_eq_getElem B _ (by omega), (c4 _ (List.getElem_mem _)).1]
      omega
    obtain ⟨k, hk, a, ha, rfl⟩ := class_index n deg _ i hlt
    obtain ⟨hom, hh, hl, hc⟩ := h.hom0_ok (by omega) hdeg hk
    obtain ⟨o, hom', ho, hh', -, hb⟩ := (c8 k hk (by omega) g r hr).closes
    obtain rfl : hom = hom' := Except.ok.inj (hh.symm.trans hh')
    obtain ⟨b, hb, hbt⟩ := hb a (by omega) hi
    exact ⟨b, by rw [h.firstBars_get (by omega) hdeg hk hh (by omega)]; exact hb, hbt⟩
  · have hg : g < R.length := (List.getElem?_eq_some_iff.1 hr).1
    have hrm : r < E.maxR := hR r (List.mem_of_getElem? hr)
    obtain ⟨x, w', -, hw'⟩ := exists_fam h (n := n) (by omega) hdeg hrm
      (z := fun k => E.cechSum D n deg k fun l => f l g) (hcyc g r hr)
    refine ⟨fun k => if E.classes n deg k = 0 then - w' k else - fun j => (lift.val k g j : ZMod E.p), fun k hk => ?_⟩
    dsimp only
    split
    · next h0 =>
      obtain ⟨p1, p2⟩ := hw' k hk
      refine ⟨PresentAt.neg p1, ?_⟩
      have hf : ∀ y, E.fam n deg k y = 0 := by
        intro y
        change ∑ a ∈ range (E.classes n deg k), _ = _
        rw [h0]; rfl
      rw [hf] at p2 ⊢
      rw [map_neg, zero_add, eq_neg_iff_add_eq_zero, add_comm]
      exact p2
    · next h0 =>
      have zz := c8 k hk (Nat.pos_of_ne_zero h0) g r hr
      refine ⟨PresentAt.neg zz.present, ?_⟩
      obtain ⟨o, hom, ho, hh, hcl, -⟩ := zz.closes
      rw [hC0.val k hk g hg] at hcl
      rw [bd_eq ho, fam_eq hh, ← hcl, map_neg]
      abel

/-- What a state has at position `(0, deg)` of the second page. -/
structure FirstPos (E : SSEnv α) (rnd : α → α) (S : SSt α) (deg : ℕ) (M : Mat) (H I : Basis α) : Prop where
  hom : (S.hom 1 0 deg).basis = H
  prev1 : H.dim ≠ 0 → (S.hom 1 0 deg).prev = some (E.firstBars deg 0)
  im : H.dim ≠ 0 → S.im 1 0 deg = some I
  liftH : LiftIn E.p (E.firstBars deg 0).length H
  liftI : LiftIn E.p (E.firstBars deg 0).length I
  gens : Gens E 0 deg H.barcode (H.coords.zcol E.p) (barModule E.p (E.firstBars deg 0))
    (imAt E.p (E.firstBars deg 1) (E.firstBars deg 0) M)
  srt : H.barcode.Pairwise (barLE rnd)
  flat : H.flat = true → H.barcode = []
  unbroken : H.dim ≠ 0 → H.brokenDiff = none
  birth : ∀ b ∈ H.barcode, ∃ c ∈ E.firstBars deg 0, b.1 = c.1
  bornI : ∀ i b, I.barcode[i]? = some b → E.BornBy 0 deg (I.coords.zcol E.p i) b.1
  memI : ∀ d g, Comb E.p I d g → barRestr E.p (E.firstBars deg 0) d g ∈
    imAt E.p (E.firstBars deg 1) (E.firstBars deg 0) M d
  reps : H.dim ≠ 0 → ∃ X, S.reps 1 0 deg = [X] ∧
    ChainIs E 0 deg H.dim (fun k i => E.fam 0 deg k (H.coords.zcol E.p i)) X

theorem first_pos (h : SSOK rnd E ρ) (hlen : 2 ≤ E.columns.length) {deg : ℕ} (hdeg : deg < E.rows)
    (hround : ∀ n m, ∀ a ∈ E.firstBars deg n, ∀ b ∈ E.firstBars deg m,
      ∀ x, x = a.1 ∨ x = a.2 → ∀ y, y = b.1 ∨ y = b.2 → rnd x ≤ rnd y → x ≤ y)
    {S0 S1 : SSt α} (hrun : pageOneRow rnd E E.columns.length S0 deg = .ok S1)
    {M : Mat} (hM : firstDifferential E 0 deg = .ok M) : ∃ H I, FirstPos E rnd S1 deg M H I := by
  have := Fact.mk h.prime
  obtain ⟨base, diffs, R⟩ := row_input h (by omega) hdeg hround
  obtain ⟨base', diffs', out, w1, w2, w3, W⟩ := pageOneRow_written hrun
  rw [R.run_base] at w1
  rw [R.run_diffs] at w2
  obtain rfl := Except.ok.inj w1
  obtain rfl := Except.ok.inj w2
  have g0 := R.get h hdeg (n := 0) (by omega)
  have g1 := R.get h hdeg (n := 1) (by omega)
  have b0 : barsAt base 0 = E.firstBars deg 0 := by rw [R.bars, if_pos (by omega)]
  have hN : modBounds E.p (⟨0, []⟩ :: diffs) base 0 =
      imAt E.p (E.firstBars deg 1) (E.firstBars deg 0) M := by
    rw [R.bounds (by omega), rowBounds_eq (by omega) hM]
  obtain ⟨Q, q1, q2, q3, -⟩ := W.new 0 (0, deg) (by
    rw [List.getElem?_map, List.getElem?_range (by omega)]; rfl)
  dsimp only at q2 q3
  by_cases hne : E.firstBars deg 0 = []
  · obtain ⟨z1, z2⟩ := mph_zero_at w3 g0 ⟨by rw [hne]; rfl, by rw [hne]; rfl⟩ q1
    have hL : LiftIn E.p (E.firstBars deg 0).length Q := ⟨by rw [z1, z2]; rfl, fun hc => by omega⟩
    refine ⟨Q, Q, by rw [q2], fun hc => absurd z1 hc, fun hc => absurd z1 hc, hL, hL, ?_,
      by rw [z2]; exact List.Pairwise.nil, fun _ => z2, fun hc => absurd z1 hc, by rw [z2]; simp, by rw [z2]; simp, ?_,
      fun hc => absurd z1 hc⟩
    · rw [z2]
      refine Gens.nil fun t => ?_
      rw [hne]
      rintro z ⟨y, rfl⟩
      have : barRestr E.p [] t y = 0 := by
        funext j
        refine restr_apply_neg ?_
        rintro ⟨c, hc1, -⟩
        simp at hc1
      rw [this]; exact Submodule.zero_mem _
    · rintro d g ⟨γ, -, rfl⟩
      rw [z1, Finset.sum_range_zero, map_zero]
      exact Submodule.zero_mem _
  · obtain ⟨Q', I, m1, m2, m3, m4, m5, m6, i2⟩ := mph_first R.input g1 g0 hne (Or.inl rfl) w3
    rw [q1] at m1
    obtain rfl := Option.some.inj m1
    rw [hN] at m3
    have m3' : QuotGen E.p (E.firstBars deg 0) Q (imAt E.p (E.firstBars deg 1) (E.firstBars deg 0) M) := m3
    have hIin : I.barcode ≠ [] → BasisIn E.p (E.firstBars deg 0) I := by rw [← b0]; exact i2.isIn
    have hm : MatOK E.p (E.firstBars deg 0).length Q.dim Q.coords := by rw [m3.dim]; exact m3'.mat
    have hpos : 0 < E.spx 0 := by
      by_contra h0
      exact hne (h.firstBars_empty (by omega) (by omega))
    refine ⟨Q, I, by rw [q2], fun hd => ?_, fun _ => by rw [q3, m2], ⟨m3.dim, fun _ => hm⟩,
      ⟨i2.dim, fun hp => (hIin ?_).liftIn.mat hp⟩, m3'.gens, m4, (fun hf => by rw [m3.flat] at hf; cases hf),
      fun _ => m5.1, m6, ?_, ?_, ?_⟩
    · rw [q2]
      unfold prevOf
      rw [List.getElem?_map, g0]
      dsimp only [Option.map_some]
      rw [if_pos rfl, if_neg]
      · rfl
      · change (E.firstBars deg 0).length ≠ 0
        simpa using hne
    · rw [i2.dim] at hp
      exact List.length_pos_iff.1 hp
    · intro i b hib
      have hI := hIin (by rintro h0; rw [h0] at hib; simp at hib)
      exact BornBy.of_born hI.born hI.len hib
    · intro d g hg
      have := hg.mem i2.gen
      rwa [hN, b0] at this
    · intro hQ0
      obtain ⟨T, T', t1, t2, t3⟩ := pageOneRow_two (n := 0) (by omega) hrun
      rw [← t3]
      unfold computeTwoPage at t1
      rw [t2, q2] at t1
      dsimp only at t1
      rw [if_neg hQ0, bind_ok] at t1
      obtain ⟨cyc, c1, t1⟩ := t1
      rw [bind_ok] at t1
      obtain ⟨C, c2, t1⟩ := t1
      rw [if_pos rfl] at t1
      cases t1
      exact ⟨C, by simp [upd], classFold_spec h (by omega) hpos hdeg (by rw [hm.rows]; exact hm.len)
        hm.ncols.symm c1 c2⟩

/-- Combinations of generators alive at `t` are born by `t`. -/
theorem BornBy.comb {n deg : ℕ} {bars : List (α × α)} {x : ℕ → ℕ → ZMod E.p}
    (hb : ∀ i b, bars[i]? = some b → E.BornBy n deg (x i) b.1) {t : α} {c : ℕ → ZMod E.p}
    (hc : ∀ i, ¬ AliveBar bars i t → c i = 0) (m : ℕ) : E.BornBy n deg (∑ i ∈ range m, c i • x i) t := by
  refine BornBy.sum _ _ fun i _ => ?_
  by_cases h0 : c i = 0
  · rw [h0, zero_smul]; exact BornBy.zero
  have : AliveBar bars i t := by by_contra hn; exact h0 (hc i hn)
  obtain ⟨b, hb', hb1, -⟩ := this
  exact BornBy.smul _ (BornBy.mono hb1 (hb i b hb'))

/-- Classes of column two which are boundaries of the second page. -/
theorem third_bounds (h : SSOK rnd E ρ) (hlen : 2 < E.columns.length) (hrow : 0 < E.rows) {D' : Mat}
    (hD' : E.nerveDiff[1]? = some D') {t : α} (ht : t < E.maxR) {z : ℕ → ZMod E.p} (hz : E.BornBy 2 0 z t)
    (hzb : barRestr E.p (E.firstBars 0 2) t z ∈ E.rowBounds 0 2 t) :
    ∃ w : ℕ → ℕ → ZMod E.p, (∀ m < E.spx 2, E.PresentAt ρ 2 m 1 (w m) t) ∧ ∀ l < E.spx 1,
      E.cechSum D' 1 0 l (fun m => E.fam 2 0 m z) = E.cechSum D' 1 0 l (fun m => E.bd 2 m 1 (w m)) := by
  by_cases h3 : 3 < E.columns.length
  · obtain ⟨D3, hD3⟩ := h.hasDiff 2 (by omega)
    obtain ⟨M3, hM3, -⟩ := firstDifferential_spec h hD3 h3 (show 0 < E.rows by omega)
    rw [rowBounds_eq h3 hM3] at hzb
    obtain ⟨κ, w, -, k2⟩ := bounds_fam h hD3 h3 (by omega) hM3 ht hz hzb
    refine ⟨w, fun m hm => (k2 m hm).1, fun l hl => ?_⟩
    rw [cechSum_congr fun m hm => (k2 m hm).2, cechSum_add, cechSum_cechSum h hD' hD3 (by omega) (by omega) hl,
      zero_add]
  · rw [rowBounds_last h3, Submodule.mem_bot] at hzb
    obtain ⟨w, d3⟩ := dead_fam h (n := 2) hlen (by omega) ht hz hzb
    exact ⟨w, fun m hm => (d3 m hm).1, fun l hl => cechSum_congr fun m hm => (d3 m hm).2⟩

/-- The second differential. -/
theorem second_diff (h : SSOK rnd E ρ) (hlen : 2 < E.columns.length) (he : 1 < E.rows) {D D' M1 M2 : Mat}
    (hD : E.nerveDiff[0]? = some D) (hD' : E.nerveDiff[1]? = some D')
    (hM1 : firstDifferential E 0 1 = .ok M1) {S : SSt α} {H I A IA : Basis α} (P : FirstPos E rnd S 1 M1 H I)
    (R : MidPos E ρ rnd S 1 D' M2 A IA) (hA0 : A.dim ≠ 0) (hH0 : H.dim ≠ 0) {F : Mat}
    (hF : highDifferential rnd E S 0 0 2 = .ok F) :
    MatOK E.p H.barcode.length A.barcode.length F ∧
      ∃ L, PageTwoData E ρ D D' M1 M2 (E.rowBounds 0 2) H.barcode A.barcode (H.coords.zcol E.p)
        (A.coords.zcol E.p) L F := by
  have := Fact.mk h.prime
  obtain ⟨hpos2, C, Lc, L, r1, r2, r3, r4⟩ := R.reps hA0
  have hpos1 : 0 < E.spx 1 := Nat.pos_of_ne_zero (h.spx_pos (by omega) hpos2)
  have hR := R.gens.le_maxR h hlen (by omega)
  unfold highDifferential at hF
  rw [show (2 : ℕ) - 1 = 1 from rfl, show 0 + 2 = 2 from rfl, R.hom] at hF
  dsimp only at hF
  rw [if_neg hA0, r1, bind_ok] at hF
  obtain ⟨L', l1, hF⟩ := hF
  obtain rfl : Lc = L' := by
    unfold atE at l1
    simpa using l1
  rw [bind_ok] at hF
  obtain ⟨out, o1, hF⟩ := hF
  rw [bind_ok] at hF
  obtain ⟨lift, o2, hF⟩ := hF
  rw [R.liftH.dim] at r3
  obtain ⟨c1, c2, c3⟩ := cech_lift_of h hD (by omega) hpos1 he (R := A.barcode.map Prod.fst)
    (f := fun k j => L j k) (C := Lc) (by rw [List.length_map]; exact r3) (by
      intro r hr
      obtain ⟨b, hb, rfl⟩ := List.mem_map.1 hr
      exact (R.gens.wf b hb).trans_le (hR b hb)) (by
      intro g r hr k hk
      rw [List.getElem?_map] at hr
      obtain ⟨b, hb, rfl⟩ := Option.map_eq_some_iff.1 hr
      refine ⟨PresentAt.cechSum fun l hl => (r4 g b hb l hl).1, ?_⟩
      have e1 := cechSum_bd h hD (deg := 0) (by omega) (by omega) hk (L g)
      rw [eq_neg_iff_add_eq_zero] at e1
      have e2 : E.cechSum D 0 0 k (fun l => E.bd 1 l 1 (L g l)) = 0 := by
        have := cechSum_add (E := E) (D := D) (n := 0) (deg := 0) (k := k) (fun l => E.bd 1 l 1 (L g l))
          (fun l => E.cechSum D' 1 0 l (fun m => E.fam 2 0 m (A.coords.zcol E.p g)))
        rw [cechSum_cechSum h hD hD' (by omega) (by omega) hk, add_zero] at this
        rw [← this]
        refine (cechSum_congr fun l hl => ?_).trans cechSum_zero
        exact (r4 g b hb l hl).2
      rw [e2, zero_add] at e1
      exact e1) o1
  rw [List.length_map] at c1
  unfold liftToPage at o2
  rw [if_neg (by omega), show (2 : ℕ) - 1 = 1 from rfl] at o2
  unfold liftLoop at o2
  dsimp only at o2
  split at o2
  · cases o2
  · next hls =>
    exfalso
    unfold liftStep at hls
    rw [P.hom] at hls
    dsimp only at hls
    rw [if_neg hH0, P.im hH0, P.prev1 hH0] at hls
    dsimp only at hls
    split at hls
    · rw [bind_ok] at hls
      obtain ⟨rb, -, hls⟩ := hls
      rw [bind_ok] at hls
      obtain ⟨⟨_, ord⟩, -, hls⟩ := hls
      rw [bind_ok] at hls
      obtain ⟨cf, -, hls⟩ := hls
      cases hls
    · cases hls
  next bg hls =>
  obtain rfl : lift = some bg := by
    unfold liftLoop at o2
    exact (Except.ok.inj o2).symm
  obtain ⟨β, γ⟩ := bg
  obtain rfl : F = β := (Except.ok.inj hF).symm
  obtain ⟨s1, s2, s3⟩ := liftStep_spec h.prime (P.im hH0) (P.prev1 hH0)
    (fun b hb => (h.firstBars_lt (by omega) he b hb).1) P.liftI (by rw [P.hom]; exact P.liftH)
    (fun c hc => (c2 c hc).2) hls
  rw [P.hom] at s1 s3
  rw [P.liftH.dim, c1] at s1
  refine ⟨s1, L, P.gens, R.gens, ?_, r4, ?_, ?_⟩
  · exact fun t ht z => third_bounds h hlen (by omega) hD' ht
  · intro i j b hb hne
    obtain ⟨b', hb', -, t2, -⟩ := s3 j (by rw [c1]; exact (List.getElem?_eq_some_iff.1 hb).1)
    rw [hb] at hb'
    obtain rfl := Option.some.inj hb'
    have : AliveBar H.barcode i b.1 := by by_contra hn; exact hne (t2 i hn)
    obtain ⟨c, hc, hc1, -⟩ := this
    exact ⟨c, hc, hc1⟩
  · intro j b hb
    have hj : j < A.barcode.length := (List.getElem?_eq_some_iff.1 hb).1
    have hbm : b.1 < E.maxR := (R.gens.wf b (List.mem_of_getElem? hb)).trans_le (hR b (List.mem_of_getElem? hb))
    obtain ⟨b', hb', -, t2, t3, t4⟩ := s3 j (by rw [c1]; exact hj)
    rw [hb] at hb'
    obtain rfl := Option.some.inj hb'
    obtain ⟨d1, w1, d2⟩ := c3 j b.1 (by rw [List.getElem?_map, hb]; rfl)
    have hg : Comb E.p I b.1 (∑ i ∈ range I.dim, γ.zcol E.p j i • I.coords.zcol E.p i) := ⟨_, t3, rfl⟩
    have hgb : E.BornBy 0 1 (∑ i ∈ range I.dim, γ.zcol E.p j i • I.coords.zcol E.p i) b.1 :=
      BornBy.comb P.bornI t3 _
    have hHb : E.BornBy 0 1 (linOf (H.coords.zcol E.p) H.barcode.length (F.zcol E.p j)) b.1 :=
      BornBy.comb P.gens.born t2 _
    obtain ⟨κ, w2, k1, k2⟩ := bounds_fam h hD (by omega) he hM1 hbm hgb (P.memI _ _ hg)
    rw [P.liftH.dim] at t4
    obtain ⟨w3, d3⟩ := dead_fam h (n := 0) (by omega) he hbm (BornBy.sub d1 (BornBy.add hgb hHb)) (by
      rw [map_sub, sub_eq_zero]; exact t4)
    refine ⟨κ, fun k => w1 k + w2 k + w3 k, k1, fun k hk => ?_⟩
    obtain ⟨p1, q1⟩ := d2 k hk
    obtain ⟨p2, q2⟩ := k2 k hk
    obtain ⟨p3, q3⟩ := d3 k hk
    refine ⟨PresentAt.add (PresentAt.add p1 p2) p3, ?_⟩
    rw [map_sub, map_add, sub_eq_iff_eq_add] at q3
    dsimp only at q1 ⊢
    rw [q1, q3, q2, map_add, map_add]
    abel

/-- The representatives of the first position of a sequence. -/
theorem pageSequence_sums {N cp n deg : ℕ} (hcp : 2 ≤ cp) (hn : n < cp) (hnN : n < N) {S S' : SSt α}
    (h : pageSequence rnd E N cp S (n, deg) = .ok S') (h0 : (S'.hom cp n deg).basis.dim ≠ 0) :
    (S.reps (cp - 1) n deg).mapM (fun C => C.sums (S'.hom cp n deg).basis.coords.cols
      (S'.hom cp n deg).basis.coords.nrows) = .ok (S'.reps cp n deg) := by
  obtain ⟨rest, hsw, hrest⟩ := sweep_cons (cp := cp) (N := N) (deg := deg) hcp hnN
  unfold pageSequence at h
  simp only [] at h
  rw [bind_ok] at h
  obtain ⟨diffs', h2, h⟩ := h
  rw [bind_ok] at h
  obtain ⟨out', h3, h⟩ := h
  rw [bind_ok] at h
  obtain ⟨S1, h4, h⟩ := h
  have hsame : S1.SameHom S' := foldlM_ok_inv (fun s => S1.SameHom s)
      (fun s n s' _ hs hI => hI.trans (computeHigher_same hs)) h (.refl _)
  rw [hsw, List.foldlM_cons, bind_ok] at h
  obtain ⟨S2, h5, h6⟩ := h
  have hr : S'.reps cp n deg = S2.reps cp n deg := by
    refine foldlM_ok_inv (fun T => T.reps cp n deg = S2.reps cp n deg) ?_ h6 rfl
    intro T x T' hx hT hI
    rw [computeHigher_reps hT (by rintro ⟨-, rfl, -⟩; have := hrest x hx; omega)]; exact hI
  rw [hr]
  have c1 : S'.hom cp n deg = S1.hom cp n deg := by rw [hsame.hom]
  rw [c1] at h0 ⊢
  unfold computeHigher at h5
  dsimp only at h5
  rw [if_neg h0, bind_ok] at h5
  obtain ⟨tot, h7, h8⟩ := h5
  rw [if_pos hn] at h8
  cases h8
  dsimp only [upd]
  rw [if_pos ⟨rfl, rfl, rfl⟩]
  rw [addOutputHigher_reps h4] at h7
  exact h7

/-- What a state has at position `(0, 1)` of the third page. -/
structure ThirdPos (E : SSEnv α) (ρ : List ℕ → α) (N : ℕ) (rnd : α → α) (S : SSt α) (H Q I : Basis α) : Prop where
  hom : (S.hom 2 0 1).basis = Q
  prev2 : Q.dim ≠ 0 → (S.hom 2 0 1).prev = some H.barcode
  im : Q.dim ≠ 0 → S.im 2 0 1 = some I
  liftH : LiftIn E.p H.barcode.length Q
  liftI : LiftIn E.p H.barcode.length I
  gens : GensR E 0 1 Q.barcode (fun i => linOf (H.coords.zcol E.p) H.barcode.length (Q.coords.zcol E.p i))
    (barModule E.p (E.firstBars 1 0)) (E.NI ρ N 1)
  srt : Q.barcode.Pairwise (barLE rnd)
  flat : Q.flat = true → Q.barcode = []
  birth : ∀ b ∈ Q.barcode, ∃ c ∈ H.barcode, b.1 = c.1
  bornQ : ∀ i r b, Q.barcode[i]? = some b → Q.coords.zcol E.p i r ≠ 0 → ∃ c, H.barcode[r]? = some c ∧ c.1 ≤ b.1
  bornI : ∀ i r b, I.barcode[i]? = some b → I.coords.zcol E.p i r ≠ 0 → ∃ c, H.barcode[r]? = some c ∧ c.1 ≤ b.1
  memI : ∀ d < E.maxR, ∀ g, Comb E.p I d g →
    E.whole 1 (linOf (H.coords.zcol E.p) H.barcode.length g) ∈ E.BG ρ N 1 d
  reps : Q.dim ≠ 0 → ∃ X, S.reps 2 0 1 = [X] ∧ ChainIs E 0 1 Q.dim (fun k i =>
    E.fam 0 1 k (linOf (H.coords.zcol E.p) H.barcode.length (Q.coords.zcol E.p i))) X
  endR : ∀ b ∈ Q.barcode, b.2 ≤ E.maxR

/-- The bars of a quotient end with those of the module. -/
theorem QuotGen.le_of_amb {p : ℕ} [Fact p.Prime] {amb : List (α × α)} {X : Basis α}
    {Nt : α → Submodule (ZMod p) (ℕ → ZMod p)} (h : QuotGen p amb X Nt) {R : α} (hR : ∀ c ∈ amb, c.2 ≤ R) :
    ∀ b ∈ X.barcode, b.2 ≤ R := by
  intro b hb
  by_contra hc
  push Not at hc
  obtain ⟨i, hi⟩ := List.mem_iff_getElem?.1 hb
  have hal : AliveBar X.barcode i (max b.1 R) := ⟨b, hi, le_max_left _ _, max_lt (h.bars b hb) hc⟩
  refine (h.indep (max b.1 R)).ne_zero ⟨i, hal⟩ ?_
  have : barRestr p amb (max b.1 R) (X.coords.zcol p i) = 0 := by
    funext j
    refine restr_apply_neg ?_
    rintro ⟨c, hc1, -, hc2⟩
    exact absurd (hc2.trans_le (hR c (List.mem_of_getElem? hc1))) (not_lt.2 (le_max_right _ _))
  dsimp only
  rw [this, map_zero]

theorem born_of_time {p : ℕ} {amb : List (α × α)} {X : Basis α} (hb : BornInTime p amb X)
    (hm : ∀ c ∈ X.coords.cols, c.length = amb.length) {i r : ℕ} {b : α × α} (hi : X.barcode[i]? = some b)
    (hr : X.coords.zcol p i r ≠ 0) : ∃ c, amb[r]? = some c ∧ c.1 ≤ b.1 := by
  have hlt : r < amb.length := by
    by_contra hc
    refine hr ?_
    unfold Mat.zcol
    refine zv_of_le _ ?_
    rcases Nat.lt_or_ge i X.coords.cols.length with h1 | h1
    · rw [List_getD_eq_getElem X.coords.cols _ h1, hm _ (List.getElem_mem h1)]; omega
    · rw [List.getD_eq_getElem?_getD (l := X.coords.cols), List.getElem?_eq_none h1]; simp
  exact ⟨_, List.getElem?_eq_getElem hlt, hb r i b _ hi (List.getElem?_eq_getElem hlt) hr⟩

theorem third_pos (h : SSOK rnd E ρ) {N : ℕ} {D D' M1 M2 : Mat} (C : CoverOK E ρ N D)
    (hI : E.CechEx ρ D D') (hlen : 2 < E.columns.length) (he : 1 < E.rows)
    (hD' : E.nerveDiff[1]? = some D') (hM1 : firstDifferential E 0 1 = .ok M1)
    (hM2 : firstDifferential E 1 0 = .ok M2)
    (hround : ∀ deg < 2, ∀ n m, ∀ a ∈ E.firstBars deg n, ∀ b ∈ E.firstBars deg m,
      ∀ x, x = a.1 ∨ x = a.2 → ∀ y, y = b.1 ∨ y = b.2 → rnd x ≤ rnd y → x ≤ y)
    {S S' : SSt α} {H I1 A IA : Basis α} (P : FirstPos E rnd S 1 M1 H I1)
    (R : MidPos E ρ rnd S 1 D' M2 A IA) (hrun : pageHigher rnd E E.columns.length S 2 = .ok S') :
    ∃ Q I, ThirdPos E ρ N rnd S' H Q I := by
  have := Fact.mk h.prime
  have hD : E.nerveDiff[0]? = some D := C.diff
  obtain ⟨S1, S2, hst, hS1, hR1, hI1, a1, a2, a3⟩ := pageHigher_at (by omega) (by omega) (n := 0) (by omega)
    (by omega) he hrun
  rw [show (2 : ℕ) - 1 = 1 from rfl] at hS1 hR1 hI1
  obtain ⟨diffs, out, r1, r2, W⟩ := pageSequence_written (by omega) (s := (0, 1)) (by dsimp only; omega) hst
  dsimp only at r1 r2 W
  have hsw : sweep 2 E.columns.length E.columns.length 0 1 = [(0, 1), (2, 0)] := by
    refine List.ext_getElem? fun i => ?_
    rw [sweep_get (by omega) _ _ _ _ (by omega) (by omega)]
    match i with
    | 0 => rw [if_pos (by omega)]; rfl
    | 1 => rw [if_pos (by omega)]; rfl
    | i + 2 => rw [if_neg (by omega)]; simp
  rw [hsw] at r1 r2 W
  obtain ⟨Q, q1, q2, q3, -⟩ := W.new 0 (0, 1) rfl
  dsimp only at q2 q3
  have e1 : (S'.hom 2 0 1).basis = Q := by rw [a1, q2]
  rw [List.tail_cons, List.mapM_cons, bind_ok] at r1
  obtain ⟨F, f1, r1⟩ := r1
  rw [List.mapM_nil, bind_ok] at r1
  obtain ⟨_, r0, r1⟩ := r1
  cases r0
  obtain rfl : diffs = [F] := by cases r1; rfl
  dsimp only at f1
  rw [show (2 : ℕ) - 2 = 0 from rfl] at f1
  have P1 : FirstPos E rnd S1 1 M1 H I1 := { P with
    hom := by rw [hS1]; exact P.hom
    prev1 := fun h0 => by rw [hS1]; exact P.prev1 h0
    im := fun h0 => by rw [hI1]; exact P.im h0
    reps := fun h0 => by rw [hR1]; exact P.reps h0 }
  have R1 : MidPos E ρ rnd S1 1 D' M2 A IA := { R with
    hom := by rw [hS1]; exact R.hom
    prev1 := fun h0 => by rw [hS1]; exact R.prev1 h0
    im := by rw [hI1]; exact R.im
    reps := fun h0 => by rw [hR1]; exact R.reps h0 }
  simp only [List.map_cons, List.map_nil, show (2 : ℕ) - 1 = 1 from rfl] at r2 W q2 q3
  rw [P1.hom, show (S1.hom 1 2 0).basis = A from R1.hom] at r2
  by_cases hH0 : H.dim = 0
  · have hH : H.barcode = [] := List.length_eq_zero_iff.1 (by rw [← P.liftH.dim]; exact hH0)
    obtain ⟨z1, z2⟩ := mph_zero_at (i := 0) r2 rfl ⟨hH0, hH⟩ q1
    have hL : LiftIn E.p H.barcode.length Q := ⟨by rw [z1, z2]; rfl, fun hc => by omega⟩
    refine ⟨Q, Q, e1, fun hc => absurd z1 hc, fun hc => absurd z1 hc, hL, hL, ?_,
      by rw [z2]; exact List.Pairwise.nil, fun _ => z2, by rw [z2]; simp, by rw [z2]; simp, by rw [z2]; simp, ?_,
      fun hc => absurd z1 hc, by rw [z2]; simp⟩
    · rw [z2]
      refine ⟨by simp, by simp, by simp, fun t z ht hz => ⟨0, fun _ _ => rfl, ?_⟩, fun t c _ hc _ i =>
        hc i (by rintro ⟨b, hb, -⟩; simp at hb)⟩
      obtain ⟨c, -, hc⟩ := P.gens.span t z hz
      rw [hH] at hc
      simp only [List.length_nil, Finset.sum_range_zero, map_zero, sub_zero] at hc ⊢
      obtain ⟨y, rfl⟩ := hz
      have hu : E.BornBy 0 1 (barRestr E.p (E.firstBars 1 0) t y) t := by
        intro i hi
        have : AliveBar (E.firstBars 1 0) i t := by
          by_contra hn; exact hi (restr_apply_neg hn)
        obtain ⟨b, hb, hb1, -⟩ := this
        exact ⟨b, hb, hb1⟩
      have hrr : barRestr E.p (E.firstBars 1 0) t (barRestr E.p (E.firstBars 1 0) t y) =
        barRestr E.p (E.firstBars 1 0) t y := restr_restr _
      rw [← hrr]
      exact (mem_NI h C he ht hu).2 (whole_of_bounds h C he hM1 ht hu (by rw [hrr]; exact hc))
    · rintro d - g ⟨γ, -, rfl⟩
      rw [z1, Finset.sum_range_zero, map_zero, map_zero]
      exact Submodule.zero_mem _
  have hHne : H.barcode ≠ [] := fun hc => hH0 (by rw [P.liftH.dim, hc]; rfl)
  have hfl : H.flat = false := by
    cases hf : H.flat
    · rfl
    · exact absurd (P.flat hf) hHne
  have hdata : (A.barcode ≠ [] → HalfInput rnd E.p A H F) ∧ ∃ L, PageTwoData E ρ D D' M1 M2 (E.rowBounds 0 2)
      H.barcode A.barcode (H.coords.zcol E.p) (A.coords.zcol E.p) L F := by
    by_cases hA0 : A.dim = 0
    · have hA : A.barcode = [] := List.length_eq_zero_iff.1 (by rw [← R.liftH.dim]; exact hA0)
      refine ⟨fun hc => absurd hA hc, 0, P.gens, R.gens, fun t ht z => third_bounds h hlen (by omega) hD' ht, ?_, ?_,
        ?_⟩ <;> rw [hA] <;> simp
    · obtain ⟨m1, L, m2⟩ := second_diff h hlen he hD hD' hM1 P1 R1 hA0 hH0 f1
      refine ⟨fun hA => ⟨h.prime, ?_, hfl, R.liftH.dim, P.liftH.dim, R.gens.wf, P.gens.wf, hA, P.unbroken hH0, m1,
        ?_, fun _ => ?_, fun hs => ?_⟩, L, m2⟩
      · cases hf : A.flat
        · rfl
        · exact absurd (R.flat hf) hA
      · intro r i a b ha hb hne
        obtain ⟨c, c1, c2⟩ := m2.birth r i a ha hne
        rw [hb] at c1
        obtain rfl := Option.some.inj c1
        exact c2
      · refine R.srt.imp_of_mem ?_
        intro a b ha hb hab
        obtain ⟨c, c1, c2⟩ := R.birth a ha
        obtain ⟨c', c1', c2'⟩ := R.birth b hb
        have hle : rnd a.1 ≤ rnd b.1 := by
          rcases hab with hab | hab
          · exact hab.le
          · exact hab.1.le
        rcases List.mem_append.1 c1 with c1 | c1 <;> rcases List.mem_append.1 c1' with c1' | c1' <;>
          exact hround 0 (by omega) _ _ c c1 c' c1' _ c2 _ c2' hle
      · rw [R.flag hA0] at hs; cases hs
  obtain ⟨hHalf, L, hPT⟩ := hdata
  obtain ⟨Q', I, m1, m2, m3, m4, m5, m6, m7, -, m9⟩ := mph_pair h.prime hHne P.liftH.dim hfl P.gens.wf
    (P.unbroken hH0) P.srt (by
      intro a ha b hb hle
      obtain ⟨c, c1, c2⟩ := P.birth a ha
      obtain ⟨c', c1', c2'⟩ := P.birth b hb
      exact hround 1 (by omega) _ _ c c1 c' c1' _ (Or.inl c2) _ (Or.inl c2') hle) R.liftH.dim hHalf r2
  rw [q1] at m1
  obtain rfl := Option.some.inj m1
  have hIlen : ∀ c ∈ I.coords.cols, I.barcode ≠ [] → c.length = H.barcode.length := fun c hc hne => (m4 hne).len c hc
  have hbI : ∀ i r b, I.barcode[i]? = some b → I.coords.zcol E.p i r ≠ 0 →
      ∃ c, H.barcode[r]? = some c ∧ c.1 ≤ b.1 := by
    intro i r b hi hr
    have hne : I.barcode ≠ [] := by rintro h0; rw [h0] at hi; simp at hi
    exact born_of_time (m4 hne).born (fun c hc => hIlen c hc hne) hi hr
  have hm : MatOK E.p H.barcode.length Q.dim Q.coords := by rw [m6.dim]; exact m6.mat
  refine ⟨Q, I, e1, fun _ => ?_, fun _ => by rw [a2, q3, m2], ⟨m6.dim, fun _ => hm⟩,
    ⟨m3, fun hp => (m4 ?_).liftIn.mat hp⟩, hPT.gens h C hD' hI hlen he hM1 hM2 m6, m7,
    (fun hf => by rw [m6.flat] at hf; cases hf), m9, ?_, hbI, ?_, ?_,
    m6.le_of_amb (P.gens.le_maxR h (by omega) he)⟩
  · rw [a1, q2]
    unfold prevOf
    simp only [List.getElem?_cons_zero, if_true]
    rw [P1.hom, if_neg hH0]
  · rw [m3] at hp
    exact List.length_pos_iff.1 hp
  · intro i r b hi hr
    exact born_of_time m6.born (fun c hc => m6.mat.len c hc) hi hr
  · rintro d hd g ⟨γ, hγ, rfl⟩
    refine hPT.zero_of_mem h C he hM1 hd ?_ ?_
    · intro r hr
      rw [Finset.sum_apply] at hr
      obtain ⟨i, -, hi⟩ := Finset.exists_ne_zero_of_sum_ne_zero hr
      rw [Pi.smul_apply, smul_eq_mul] at hi
      have hal : AliveBar I.barcode i d := by
        by_contra hn; rw [hγ i hn, zero_mul] at hi; exact hi rfl
      obtain ⟨b, hb, hb1, -⟩ := hal
      obtain ⟨c, c1, c2⟩ := hbI i r b hb (right_ne_zero_of_mul hi)
      exact ⟨c, c1, c2.trans hb1⟩
    · rw [← m5 d, barRestr_smulsum]
      refine Submodule.sum_mem _ fun i _ => ?_
      by_cases hal : AliveBar I.barcode i d
      · refine Submodule.smul_mem _ _ (Submodule.subset_span ⟨i, ?_, rfl⟩)
        obtain ⟨b, hb, hb1, -⟩ := hal
        exact ⟨b, hb, hb1⟩
      · rw [hγ i hal, zero_smul]; exact Submodule.zero_mem _
  · intro hQ0
    obtain ⟨X, x1, x2⟩ := P1.reps hH0
    have hs := pageSequence_sums (by omega) (by omega) (by omega) hst (by rw [q2]; exact hQ0)
    rw [show (2 : ℕ) - 1 = 1 from rfl, x1, q2] at hs
    dsimp only at hs
    rw [List.mapM_cons, bind_ok] at hs
    obtain ⟨X', x3, hs⟩ := hs
    rw [List.mapM_nil, bind_ok] at hs
    obtain ⟨_, r0, hs⟩ := hs
    cases r0
    refine ⟨X', by rw [a3]; exact (Except.ok.inj hs).symm, ?_⟩
    rw [hm.rows, ← P.liftH.dim] at x3
    have := ChainIs.sums x2 x3
    rw [show Q.coords.cols.length = Q.dim from hm.ncols] at this
    refine ⟨this.wf, this.refs, fun k hk i hi => ?_⟩
    rw [this.val k hk i hi, linOf_apply, map_sum, ← P.liftH.dim]
    exact Finset.sum_congr rfl fun g _ => (map_smul _ _ _).symm

end

end Permaviss
