import Verif.Lemmas.PlaneQuot
import Verif.Lemmas.PlaneMph
import Verif.Lemmas.StripLine

/-!
# The second page away from the first column

The classes of the second page in the lowest row, with their lifts.
-/

namespace Permaviss

open Finset

attribute [-instance] instMulZeroClassOfSemiring

section

variable {α : Type} [LinearOrder α] [Zero α] {rnd : α → α} {E : SSEnv α} {ρ : List ℕ → α}

/-- The generators of a quotient of a submodule. -/
theorem QuotGenM.gensW {n deg : ℕ} {Q : Basis α} {Z N : α → Submodule (ZMod E.p) (ℕ → ZMod E.p)}
    [Fact E.p.Prime] (h : QuotGenM E.p (E.firstBars deg n) Q Z N) :
    GensW E n deg Q.barcode (Q.coords.zcol E.p) Z N where
  wf := h.bars
  born i b hi := BornBy.of_born h.born (fun c hc => h.mat.len c hc) hi
  span t z hz := by
    obtain ⟨y, hy, s, hs, rfl⟩ := Submodule.mem_sup.1 (h.span t hz)
    obtain ⟨c, h1, rfl⟩ := coef_of_span (f := fun i => barRestr E.p (E.firstBars deg n) t (Q.coords.zcol E.p i))
      (fun i hi => aliveBar_lt hi) hs
    refine ⟨c, h1, ?_⟩
    rw [barRestr_smulsum, add_sub_cancel_right]
    exact hy
  indep t c hc hs := by
    refine coef_of_indep (m := Q.barcode.length)
      (f := fun i => (N t).mkQ (barRestr E.p (E.firstBars deg n) t (Q.coords.zcol E.p i)))
      (fun i hi => aliveBar_lt hi) (h.indep t) hc ?_
    rw [barRestr_smulsum] at hs
    have := (Submodule.Quotient.mk_eq_zero (N t)).2 hs
    rw [← this, ← Submodule.mkQ_apply, map_sum]
    exact Finset.sum_congr rfl fun i _ => (map_smul _ _ _).symm

theorem GensW.nil {n deg : ℕ} {x : ℕ → ℕ → ZMod E.p} {Z N : α → Submodule (ZMod E.p) (ℕ → ZMod E.p)}
    (h : ∀ t, Z t ≤ N t) : GensW E n deg [] x Z N where
  wf := by simp
  born := by simp
  span t z hz := ⟨0, fun _ _ => rfl, by simpa using h t hz⟩
  indep t c hc _ i := hc i (by rintro ⟨b, hb, -⟩; simp at hb)

/-- The bars of generators end with those of the module. -/
theorem GensW.le_maxR (h : SSOK rnd E ρ) {n deg : ℕ} (hn : n < E.columns.length) (hdeg : deg < E.rows)
    {bars : List (α × α)} {x : ℕ → ℕ → ZMod E.p}
    {Z N : α → Submodule (ZMod E.p) (ℕ → ZMod E.p)} (X : GensW E n deg bars x Z N) :
    ∀ b ∈ bars, b.2 ≤ E.maxR := by
  have := Fact.mk h.prime
  intro b hb
  by_contra hc
  push Not at hc
  obtain ⟨i, hi⟩ := List.mem_iff_getElem?.1 hb
  have hal : AliveBar bars i (max b.1 E.maxR) := ⟨b, hi, le_max_left _ _, max_lt (X.wf b hb) hc⟩
  have := X.indep (max b.1 E.maxR) (Pi.single i 1)
    (fun j hj => Pi.single_eq_of_ne (by rintro rfl; exact hj hal) _) (by
      have : ∀ y, barRestr E.p (E.firstBars deg n) (max b.1 E.maxR) y = 0 := by
        intro y
        funext j
        refine restr_apply_neg ?_
        rintro ⟨c, hc1, -, hc2⟩
        have := (h.firstBars_lt hn hdeg c (List.mem_of_getElem? hc1)).2
        exact absurd (hc2.trans_le this) (not_lt.2 (le_max_right _ _))
      rw [this]; exact Submodule.zero_mem _) i
  rw [Pi.single_eq_same] at this
  exact one_ne_zero this

/-- The lifts of classes of column `n + 1` to column `n`. -/
theorem mid_lift (h : SSOK rnd E ρ) {n : ℕ} (hn : n + 1 < E.columns.length) (hpos : 0 < E.spx (n + 1)) {e : ℕ}
    (he : e < E.rows) {D : Mat} (hD : E.nerveDiff[n]? = some D)
    (hskip : ∀ k < E.spx n, E.classes n e k = 0 → E.G n k e = []) {bars : List (α × α)}
    {y : ℕ → ℕ → ZMod E.p} (hwf : ∀ b ∈ bars, b.1 < E.maxR)
    (hborn : ∀ i b, bars[i]? = some b → E.BornBy (n + 1) e (y i) b.1) {C : LChains}
    (hC : ChainIs E (n + 1) e bars.length (fun k j => E.fam (n + 1) e k (y j)) C)
    {out : List (List ℤ) × LChains}
    (hrun : cechDiffAndLift E n e C (bars.map Prod.fst) = .ok out) (hany : anyRows out.1 = false) :
    ∃ v : ℕ → ℕ → ℕ → ZMod E.p, ChainIs E n (e + 1) bars.length (fun k j => v j k) out.2 ∧
      ∀ j b, bars[j]? = some b → ∀ k < E.spx n, E.PresentAt ρ n k (e + 1) (v j k) b.1 ∧
        E.bd n k (e + 1) (v j k) + E.cechSum D n e k (fun l => E.fam (n + 1) e l (y j)) = 0 := by
  obtain ⟨C', B, lift, c1, c2, c3, c4, c5, c6, c7, c8, -⟩ := cechDiffAndLift_spec h hD hn hpos he hC.wf
    (R := bars.map Prod.fst) (by
      intro r hr
      obtain ⟨b, hb, rfl⟩ := List.mem_map.1 hr
      exact hwf b hb) (by rw [List.length_map]; exact hC.refs) (by
      intro g r hr l hl
      rw [List.getElem?_map] at hr
      obtain ⟨b, hb, rfl⟩ := Option.map_eq_some_iff.1 hr
      have hg : g < bars.length := (List.getElem?_eq_some_iff.1 hb).1
      rw [hC.val l hl g hg]
      obtain ⟨f1, f2⟩ := fam_cycle h hn he (hborn g b hb) hl
      obtain ⟨o, pts, ho, -⟩ := h.piece (n + 1) hn l hl
      rw [bd_eq ho] at f2
      exact ⟨⟨o, ho, f2⟩, f1⟩)
  have hrefs := cechDiffAndLift_refs hrun
  rw [hrun] at c2
  obtain rfl := Except.ok.inj c2
  rw [List.length_map] at hrefs
  have hC' := cechDiff_chain h hD hn hpos he.le hC c1
  refine ⟨fun j k i => (lift.val k j i : ZMod E.p), ⟨c5, hrefs, fun _ _ _ _ => rfl⟩, fun j b hb k hk => ?_⟩
  have hj : j < bars.length := (List.getElem?_eq_some_iff.1 hb).1
  by_cases h0 : E.classes n e k = 0
  · have hv : (fun i => (lift.val k j i : ZMod E.p)) = 0 := by
      funext i
      unfold LChains.val
      rw [c7 k hk h0]
      simp [LEntry.val, LEntry.empty, LEntry.row]
    dsimp only
    rw [hv]
    refine ⟨fun i hi => absurd rfl hi, ?_⟩
    rw [map_zero, zero_add]
    unfold SSEnv.cechSum
    refine Finset.sum_eq_zero fun l _ => ?_
    funext i
    exact cechOf_of_le D _ (by rw [hskip k hk h0]; exact Nat.zero_le _)
  · have zz := c8 k hk (Nat.pos_of_ne_zero h0) j b.1 (by rw [List.getElem?_map, hb]; rfl)
    refine ⟨zz.present, ?_⟩
    obtain ⟨o, hom, ho, -, hcl, -⟩ := zz.closes
    rw [bd_eq ho]
    rw [hC'.val k hk j hj] at hcl
    rw [hcl]
    refine Finset.sum_eq_zero fun a _ => ?_
    rw [anyRows_zv hany j]
    exact zero_smul _ _

/-- The boundaries of a row of the first page at column `n`. -/
noncomputable def SSEnv.rowBounds (E : SSEnv α) (deg n : ℕ) : α → Submodule (ZMod E.p) (ℕ → ZMod E.p) :=
  if n + 1 < E.columns.length then
    match firstDifferential E n deg with
    | .ok M => imAt E.p (E.firstBars deg (n + 1)) (E.firstBars deg n) M
    | .error _ => fun _ => ⊥
  else fun _ => ⊥

theorem rowBounds_eq {deg n : ℕ} (hn : n + 1 < E.columns.length) {M : Mat}
    (hM : firstDifferential E n deg = .ok M) :
    E.rowBounds deg n = imAt E.p (E.firstBars deg (n + 1)) (E.firstBars deg n) M := by
  unfold SSEnv.rowBounds
  rw [if_pos hn, hM]

theorem rowBounds_last {deg n : ℕ} (hn : ¬ n + 1 < E.columns.length) : E.rowBounds deg n = fun _ => ⊥ := by
  unfold SSEnv.rowBounds
  rw [if_neg hn]

theorem RowInput.bounds {deg : ℕ} {base : List (Basis α)} {diffs : List Mat}
    (R : RowInput rnd E deg base diffs) {n : ℕ} (hn : n < E.columns.length) :
    modBounds E.p (⟨0, []⟩ :: diffs) base n = E.rowBounds deg n := by
  funext t
  unfold modBounds
  rw [R.bars n, if_pos hn]
  by_cases h1 : n + 1 < E.columns.length
  · rw [rowBounds_eq h1 (R.diff n h1), R.bars, if_pos h1]
  · rw [rowBounds_last h1, R.bars, if_neg h1]
    exact imAt_bot_left rfl t

/-- What a state has at position `(n + 1, 0)` of the second page. -/
structure MidPos (E : SSEnv α) (ρ : List ℕ → α) (rnd : α → α) (S : SSt α) (n : ℕ) (D M : Mat) (Q I : Basis α) :
    Prop where
  hom : (S.hom 1 (n + 1) 0).basis = Q
  prev1 : Q.dim ≠ 0 → (S.hom 1 (n + 1) 0).prev = some (E.firstBars 0 (n + 1))
  im : S.im 1 (n + 1) 0 = some I
  liftH : LiftIn E.p (E.firstBars 0 (n + 1)).length Q
  liftI : LiftIn E.p (E.firstBars 0 (n + 1)).length I
  gens : GensW E (n + 1) 0 Q.barcode (Q.coords.zcol E.p)
    (kerAt E.p (E.firstBars 0 (n + 1)) (E.firstBars 0 n) M) (E.rowBounds 0 (n + 1))
  srt : Q.barcode.Pairwise (barLE rnd)
  flat : Q.flat = true → Q.barcode = []
  flag : Q.dim ≠ 0 → Q.sorted = true
  birth : ∀ b ∈ Q.barcode, ∃ c ∈ E.firstBars 0 (n + 1) ++ E.firstBars 0 n, b.1 = c.1 ∨ b.1 = c.2
  bornI : ∀ i b, I.barcode[i]? = some b → E.BornBy (n + 1) 0 (I.coords.zcol E.p i) b.1
  memI : ∀ d g, Comb E.p I d g → barRestr E.p (E.firstBars 0 (n + 1)) d g ∈ E.rowBounds 0 (n + 1) d
  reps : Q.dim ≠ 0 → 0 < E.spx (n + 1) ∧ ∃ (C L : LChains) (v : ℕ → ℕ → ℕ → ZMod E.p),
    S.reps 1 (n + 1) 0 = [C, L] ∧
    ChainIs E (n + 1) 0 Q.dim (fun k j => E.fam (n + 1) 0 k (Q.coords.zcol E.p j)) C ∧
    ChainIs E n 1 Q.dim (fun k j => v j k) L ∧
    ∀ j b, Q.barcode[j]? = some b → ∀ k < E.spx n, E.PresentAt ρ n k 1 (v j k) b.1 ∧
      E.bd n k 1 (v j k) + E.cechSum D n 0 k (fun l => E.fam (n + 1) 0 l (Q.coords.zcol E.p j)) = 0
  birthI : ∀ c ∈ I.barcode, c.1 ≤ 0 ∧ c.1 < c.2

theorem mid_position (h : SSOK rnd E ρ) {n : ℕ} (hn : n + 1 < E.columns.length) (hrow : 0 < E.rows)
    (hg : ∀ d, E.firstBars 0 d = [] → E.firstBars 0 (d + 1) = [])
    (hb0 : ∀ d < E.columns.length, ∀ b ∈ E.firstBars 0 d, b.1 = 0)
    (hround : ∀ n m, ∀ a ∈ E.firstBars 0 n, ∀ b ∈ E.firstBars 0 m,
      ∀ x, x = a.1 ∨ x = a.2 → ∀ y, y = b.1 ∨ y = b.2 → rnd x ≤ rnd y → x ≤ y)
    {S0 S1 : SSt α} (hrun : pageOneRow rnd E E.columns.length S0 0 = .ok S1)
    {D : Mat} (hD : E.nerveDiff[n]? = some D) {M : Mat} (hM : firstDifferential E n 0 = .ok M) :
    ∃ Q I, MidPos E ρ rnd S1 n D M Q I := by
  have := Fact.mk h.prime
  obtain ⟨base, diffs, R⟩ := row_input h (by omega) hrow hround
  obtain ⟨base', diffs', out, w1, w2, w3, W⟩ := pageOneRow_written hrun
  rw [R.run_base] at w1
  rw [R.run_diffs] at w2
  obtain rfl := Except.ok.inj w1
  obtain rfl := Except.ok.inj w2
  have g0 := R.get h hrow (n := n) (by omega)
  have g1 := R.get h hrow (n := n + 1) (by omega)
  have b0 : barsAt base n = E.firstBars 0 n := by rw [R.bars, if_pos (by omega)]
  have b1 : barsAt base (n + 1) = E.firstBars 0 (n + 1) := by rw [R.bars, if_pos (by omega)]
  have hM' : diffAt (⟨0, []⟩ :: diffs) (n + 1) = M := by
    have := R.diff n (by omega)
    rw [hM] at this
    exact (Except.ok.inj this).symm
  have hZ : modCycles E.p (⟨0, []⟩ :: diffs) base (n + 1) =
      kerAt E.p (E.firstBars 0 (n + 1)) (E.firstBars 0 n) M := by
    funext t
    change kerAt E.p (barsAt base (n + 1)) (barsAt base n) (diffAt (⟨0, []⟩ :: diffs) (n + 1)) t = _
    rw [b0, b1, hM']
  have hN := R.bounds (n := n + 1) (by omega)
  obtain ⟨Q, q1, q2, q3, -⟩ := W.new (n + 1) (n + 1, 0) (by
    rw [List.getElem?_map, List.getElem?_range (by omega)]; rfl)
  dsimp only at q2 q3
  obtain ⟨I, i1, i2⟩ : ∃ I, out.im.getD (n + 1) none = some I ∧ ImGood E.p (⟨0, []⟩ :: diffs) base (n + 1) I := by
    obtain ⟨out', o1, -, -, o2⟩ := mph_all R.input
    rw [w3] at o1
    obtain rfl := Except.ok.inj o1
    obtain ⟨-, I, o3, o4⟩ := o2 (n + 1) (by rw [R.len]; omega)
    exact ⟨I, by rw [List.getD_eq_getElem?_getD, o3]; rfl, o4⟩
  have hIin : I.barcode ≠ [] → BasisIn E.p (E.firstBars 0 (n + 1)) I := by rw [← b1]; exact i2.isIn
  have hLI : LiftIn E.p (E.firstBars 0 (n + 1)).length I :=
    ⟨i2.dim, fun hp => (hIin (by rw [i2.dim] at hp; exact List.length_pos_iff.1 hp)).liftIn.mat hp⟩
  have hbI : ∀ i b, I.barcode[i]? = some b → E.BornBy (n + 1) 0 (I.coords.zcol E.p i) b.1 := by
    intro i b hib
    have hI := hIin (by rintro h0; rw [h0] at hib; simp at hib)
    exact BornBy.of_born hI.born hI.len hib
  have hbirth : ∀ c ∈ I.barcode, c.1 ≤ 0 ∧ c.1 < c.2 := by
    intro c hc
    refine ⟨i2.births 0 (fun a ha => ?_) c hc, (hIin (List.ne_nil_of_mem hc)).bars c hc⟩
    rw [R.bars] at ha
    split at ha
    · next hc' => exact (hb0 _ hc' a ha).le
    · simp at ha
  have hmI : ∀ d g, Comb E.p I d g →
      barRestr E.p (E.firstBars 0 (n + 1)) d g ∈ E.rowBounds 0 (n + 1) d := by
    intro d g hg
    have := hg.mem i2.gen
    rwa [hN, b1] at this
  by_cases hne : E.firstBars 0 (n + 1) = []
  · obtain ⟨z1, z2⟩ := mph_zero_at w3 g1 ⟨by rw [hne]; rfl, by rw [hne]; rfl⟩ q1
    refine ⟨Q, I, by rw [q2], fun hc => absurd z1 hc, by rw [q3, i1], ⟨by rw [z1, z2]; rfl, fun hc => by omega⟩,
      hLI, ?_, by rw [z2]; exact List.Pairwise.nil, fun _ => z2, fun hc => absurd z1 hc, by rw [z2]; simp, hbI, hmI,
      fun hc => absurd z1 hc, hbirth⟩
    rw [z2]
    refine GensW.nil fun t => ?_
    rw [hne]
    rintro z ⟨⟨y, rfl⟩, -⟩
    have : barRestr E.p [] t y = 0 := by
      funext j
      refine restr_apply_neg ?_
      rintro ⟨c, hc1, -⟩
      simp at hc1
    rw [this]; exact Submodule.zero_mem _
  · have hne0 : E.firstBars 0 n ≠ [] := fun h0 => hne (hg n h0)
    obtain ⟨Q', I', m1, m2, m3, m4, m5, m6, -⟩ := mph_mid R.input (n := n) g1 g0 hne hne0 (by
        intro a ha b hb
        rw [R.bars] at ha
        split at ha
        · next hc =>
          rw [hb0 _ hc a ha]
          rcases List.mem_append.1 hb with hb | hb
          · exact (hb0 _ hn b hb).ge
          · exact (hb0 _ (by omega) b hb).ge
        · simp at ha) w3
    rw [q1] at m1
    obtain rfl := Option.some.inj m1
    rw [hZ, hN] at m3
    have m3' : QuotGenM E.p (E.firstBars 0 (n + 1)) Q (kerAt E.p (E.firstBars 0 (n + 1)) (E.firstBars 0 n) M)
      (E.rowBounds 0 (n + 1)) := m3
    have hG := m3'.gensW
    have hpos : 0 < E.spx (n + 1) := by
      by_contra h0
      exact hne (h.firstBars_empty (by omega) (by omega))
    have hprev : prevOf (base.map fun b => (⟨b, none⟩ : HomEntry α)) (n + 1) = some (E.firstBars 0 (n + 1)) := by
      unfold prevOf
      rw [List.getElem?_map, g1]
      dsimp only [Option.map_some]
      rw [if_neg (by omega), List.getElem?_map, show n + 1 - 1 = n from rfl, g0]
      dsimp only [Option.map_some]
      rw [if_neg]
      · rfl
      · rintro ⟨-, hc⟩
        change (E.firstBars 0 n).length = 0 at hc
        exact hne0 (List.length_eq_zero_iff.1 hc)
    have hm : MatOK E.p (E.firstBars 0 (n + 1)).length Q.dim Q.coords := by rw [m3.dim]; exact m3'.mat
    refine ⟨Q, I, by rw [q2], fun _ => by rw [q2]; exact hprev, by rw [q3, i1], ⟨m3.dim, fun _ => hm⟩, hLI, hG, m4,
      (fun hf => by rw [m3.flat] at hf; cases hf), fun _ => m5.2, m6, hbI, hmI, fun hK0 => ⟨hpos, ?_⟩, hbirth⟩
    obtain ⟨T, T', t1, t2, t3⟩ := pageOneRow_two (n := n + 1) (by omega) hrun
    unfold computeTwoPage at t1
    rw [t2, q2] at t1
    dsimp only at t1
    rw [if_neg hK0, bind_ok] at t1
    obtain ⟨cyc, c1, t1⟩ := t1
    rw [bind_ok] at t1
    obtain ⟨C, c2, t1⟩ := t1
    rw [if_neg (by omega), bind_ok] at t1
    obtain ⟨o, c3, t1⟩ := t1
    split at t1
    · cases t1
    next hany =>
    cases t1
    have hC := classFold_spec h (by omega) hpos hrow (by rw [hm.rows]; exact hm.len) hm.ncols.symm c1 c2
    rw [m3.dim] at hC
    have hR := hG.le_maxR h hn hrow
    obtain ⟨v, v1, v2⟩ := mid_lift h (n := n) (by omega) hpos hrow hD (fun k hk => skip_zero h hrow (by omega) hk)
      (fun b hb => (hG.wf b hb).trans_le (hR b hb)) hG.born hC c3 (by simpa using hany)
    rw [← m3.dim] at hC v1
    exact ⟨C, o.2, v, by rw [← t3]; simp [upd], hC, v1, v2⟩

end

end Permaviss
