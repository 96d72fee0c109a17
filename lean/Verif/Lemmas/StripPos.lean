import Verif.Lemmas.StripPages
import Verif.Lemmas.StripExt
import Verif.Lemmas.DegreeZero

/-!
# Generators of the second page

The classes of the second page of a nerve with two columns, as generators of the homology of the rows of
the first page.
-/

namespace Permaviss

open Finset

attribute [-instance] instMulZeroClassOfSemiring

theorem coef_of_indep {K V : Type*} [Field K] [AddCommGroup V] [Module K V] {f : ℕ → V} {P : ℕ → Prop}
    {m : ℕ} (hP : ∀ i, P i → i < m) (hli : LinearIndependent K fun i : {i // P i} => f i) {c : ℕ → K}
    (hc : ∀ i, ¬ P i → c i = 0) (hs : ∑ i ∈ range m, c i • f i = 0) (i : ℕ) : c i = 0 := by
  classical
  by_cases hi : P i
  swap
  · exact hc i hi
  refine linearIndependent_iff'.1 hli ((range m).subtype P) (fun i => c i) ?_ ⟨i, hi⟩
    (Finset.mem_subtype.2 (mem_range.2 (hP i hi)))
  rw [Finset.sum_subtype_eq_sum_filter (f := fun i => c i • f i), ← hs]
  refine Finset.sum_subset (Finset.filter_subset _ _) fun j hj hj' => ?_
  rw [hc j fun h => hj' (Finset.mem_filter.2 ⟨hj, h⟩), zero_smul]

theorem coef_of_span {K V : Type*} [Field K] [AddCommGroup V] [Module K V] {f : ℕ → V} {P : ℕ → Prop}
    {m : ℕ} (hP : ∀ i, P i → i < m) {z : V} (hz : z ∈ Submodule.span K (Set.range fun i : {i // P i} => f i)) :
    ∃ c : ℕ → K, (∀ i, ¬ P i → c i = 0) ∧ z = ∑ i ∈ range m, c i • f i := by
  classical
  induction hz using Submodule.span_induction with
  | mem x hx =>
    obtain ⟨⟨i, hi⟩, rfl⟩ := hx
    refine ⟨Pi.single i 1, fun j hj => Pi.single_eq_of_ne (by rintro rfl; exact hj hi) _, ?_⟩
    rw [Finset.sum_eq_single i]
    · simp
    · intro j _ hne; rw [Pi.single_eq_of_ne hne, zero_smul]
    · intro h; exact absurd (mem_range.2 (hP i hi)) h
  | zero => exact ⟨0, fun _ _ => rfl, by simp⟩
  | add x y _ _ ihx ihy =>
    obtain ⟨c, h1, rfl⟩ := ihx
    obtain ⟨c', h1', rfl⟩ := ihy
    refine ⟨c + c', fun i hi => by rw [Pi.add_apply, h1 i hi, h1' i hi, add_zero], ?_⟩
    rw [← Finset.sum_add_distrib]
    exact Finset.sum_congr rfl fun i _ => by rw [Pi.add_apply, add_smul]
  | smul a x _ ih =>
    obtain ⟨c, h1, rfl⟩ := ih
    refine ⟨a • c, fun i hi => by rw [Pi.smul_apply, h1 i hi, smul_zero], ?_⟩
    rw [Finset.smul_sum]
    exact Finset.sum_congr rfl fun i _ => by rw [Pi.smul_apply, smul_assoc]

theorem aliveBar_lt {α : Type} [LinearOrder α] {bars : List (α × α)} {i : ℕ} {t : α} (h : AliveBar bars i t) :
    i < bars.length := by
  obtain ⟨b, hb, -⟩ := h
  exact (List.getElem?_eq_some_iff.1 hb).1

section

variable {α : Type} [LinearOrder α] [Zero α] {rnd : α → α} {E : SSEnv α} {ρ : List ℕ → α}

theorem barRestr_smulsum {p : ℕ} {amb : List (α × α)} {t : α} {m : ℕ} (c : ℕ → ZMod p) (x : ℕ → ℕ → ZMod p) :
    barRestr p amb t (∑ i ∈ range m, c i • x i) = ∑ i ∈ range m, c i • barRestr p amb t (x i) := by
  rw [map_sum]
  exact Finset.sum_congr rfl fun i _ => map_smul _ _ _

/-- Coordinates on bars which are born in time. -/
theorem BornBy.of_born {n deg : ℕ} {X : Basis α} (hb : BornInTime E.p (E.firstBars deg n) X)
    (hm : ∀ c ∈ X.coords.cols, c.length = (E.firstBars deg n).length) {i : ℕ} {b : α × α}
    (hi : X.barcode[i]? = some b) : E.BornBy n deg (X.coords.zcol E.p i) b.1 := by
  intro r hr
  have hlt : r < (E.firstBars deg n).length := by
    by_contra hc
    refine hr ?_
    unfold Mat.zcol
    refine zv_of_le _ ?_
    rcases Nat.lt_or_ge i X.coords.cols.length with h1 | h1
    · rw [List_getD_eq_getElem X.coords.cols _ h1, hm _ (List.getElem_mem h1)]; omega
    · rw [List.getD_eq_getElem?_getD (l := X.coords.cols), List.getElem?_eq_none h1]; simp
  exact ⟨_, List.getElem?_eq_getElem hlt, hb r i b _ hi (List.getElem?_eq_getElem hlt) hr⟩

/-- The generators of a quotient of a whole module. -/
theorem QuotGen.gens {n deg : ℕ} {Q : Basis α} {N : α → Submodule (ZMod E.p) (ℕ → ZMod E.p)}
    [Fact E.p.Prime] (h : QuotGen E.p (E.firstBars deg n) Q N) :
    Gens E n deg Q.barcode (Q.coords.zcol E.p) (barModule E.p (E.firstBars deg n)) N where
  wf := h.bars
  born i b hi := BornBy.of_born h.born (fun c hc => h.mat.len c hc) hi
  dead i b t hi ht := h.dead t i b hi ht
  span t z hz := by
    obtain ⟨y, hy, s, hs, rfl⟩ := Submodule.mem_sup.1 (h.span t hz)
    obtain ⟨c, h1, rfl⟩ := coef_of_span (f := fun i => barRestr E.p (E.firstBars deg n) t (Q.coords.zcol E.p i))
      (fun i hi => aliveBar_lt hi) hs
    refine ⟨c, h1, ?_⟩
    rw [barRestr_smulsum, add_sub_cancel_right]
    exact hy
  indep t c hc hs := by
    refine coef_of_indep (m := Q.barcode.length)
      (f := fun i => (N t).mkQ (barRestr E.p (E.firstBars deg n) t (Q.coords.zcol E.p i)))
      (fun i hi => aliveBar_lt hi) (h.indep t) hc ?_
    rw [barRestr_smulsum] at hs
    have := (Submodule.Quotient.mk_eq_zero (N t)).2 hs
    rw [← this, ← Submodule.mkQ_apply, map_sum]
    exact Finset.sum_congr rfl fun i _ => (map_smul _ _ _).symm

/-- The generators of a submodule. -/
theorem IsBasisOf.gens {n deg : ℕ} {K : Basis α} {Z : α → Submodule (ZMod E.p) (ℕ → ZMod E.p)}
    [Fact E.p.Prime] (hI : BasisIn E.p (E.firstBars deg n) K) (h : IsBasisOf E.p (E.firstBars deg n) K Z) :
    Gens E n deg K.barcode (K.coords.zcol E.p) Z fun _ => ⊥ where
  wf := h.bars
  born i b hi := BornBy.of_born hI.born hI.len hi
  dead i b t hi ht := (Submodule.mem_bot _).2 (h.dead t i b hi ht)
  span t z hz := by
    rw [← h.span t] at hz
    obtain ⟨c, h1, rfl⟩ := coef_of_span (f := fun i => barRestr E.p (E.firstBars deg n) t (K.coords.zcol E.p i))
      (fun i hi => aliveBar_lt hi) hz
    refine ⟨c, h1, ?_⟩
    rw [barRestr_smulsum, sub_self]
    exact Submodule.zero_mem _
  indep t c hc hs := by
    refine coef_of_indep (m := K.barcode.length)
      (f := fun i => barRestr E.p (E.firstBars deg n) t (K.coords.zcol E.p i))
      (fun i hi => aliveBar_lt hi) (h.indep t) hc ?_
    rw [barRestr_smulsum] at hs
    exact (Submodule.mem_bot _).1 hs

theorem Gens.nil {n deg : ℕ} {x : ℕ → ℕ → ZMod E.p} {Z N : α → Submodule (ZMod E.p) (ℕ → ZMod E.p)}
    (h : ∀ t, Z t ≤ N t) : Gens E n deg [] x Z N where
  wf := by simp
  born := by simp
  dead := by simp
  span t z hz := ⟨0, fun _ _ => rfl, by simpa using h t hz⟩
  indep t c hc _ i := hc i (by rintro ⟨b, hb, -⟩; simp at hb)

/-- The bars of generators end with those of the module. -/
theorem Gens.le_maxR (h : SSOK rnd E ρ) {n deg : ℕ} (hn : n < E.columns.length) (hdeg : deg < E.rows)
    {bars : List (α × α)} {x : ℕ → ℕ → ZMod E.p}
    {Z N : α → Submodule (ZMod E.p) (ℕ → ZMod E.p)} (X : Gens E n deg bars x Z N) :
    ∀ b ∈ bars, b.2 ≤ E.maxR := by
  have := Fact.mk h.prime
  intro b hb
  by_contra hc
  push Not at hc
  obtain ⟨i, hi⟩ := List.mem_iff_getElem?.1 hb
  have hal : AliveBar bars i (max b.1 E.maxR) := ⟨b, hi, le_max_left _ _, max_lt (X.wf b hb) hc⟩
  have := X.indep (max b.1 E.maxR) (Pi.single i 1)
    (fun j hj => Pi.single_eq_of_ne (by rintro rfl; exact hj hal) _) (by
      have : ∀ y, barRestr E.p (E.firstBars deg n) (max b.1 E.maxR) y = 0 := by
        intro y
        funext j
        refine restr_apply_neg ?_
        rintro ⟨c, hc1, -, hc2⟩
        have := (h.firstBars_lt hn hdeg c (List.mem_of_getElem? hc1)).2
        exact absurd (hc2.trans_le this) (not_lt.2 (le_max_right _ _))
      rw [this]; exact Submodule.zero_mem _) i
  rw [Pi.single_eq_same] at this
  exact one_ne_zero this

theorem BasisIn.liftIn {p : ℕ} {amb : List (α × α)} {X : Basis α} (h : BasisIn p amb X) :
    LiftIn p amb.length X :=
  ⟨h.dim, fun _ => ⟨h.rows, by rw [h.dim]; exact h.cols, h.len, h.red⟩⟩

theorem RowInput.get {deg : ℕ} {base : List (Basis α)} {diffs : List Mat} (h : SSOK rnd E ρ) (hdeg : deg < E.rows)
    (R : RowInput rnd E deg base diffs) {n : ℕ} (hn : n < E.columns.length) :
    base[n]? = some (barsBasis (E.firstBars deg n)) := by
  have hb : (List.range E.columns.length).mapM (fun n => basisOfBars (E.firstBars deg n)) =
      .ok ((List.range E.columns.length).map fun n => barsBasis (E.firstBars deg n)) := by
    refine mapM_ok_map ?_
    intro n hn
    exact basisOfBars_eq fun b hb => (h.firstBars_lt (List.mem_range.1 hn) hdeg b hb).1
  have := R.run_base
  rw [hb] at this
  rw [← Except.ok.inj this, List.getElem?_map, List.getElem?_range hn]
  rfl

/-- Combinations of generators of the image are in the image. -/
theorem Comb.mem {p : ℕ} {amb : List (α × α)} {I : Basis α} {N : α → Submodule (ZMod p) (ℕ → ZMod p)}
    (h : GeneratesAt p amb I N) {d : α} {g : ℕ → ZMod p} (hg : Comb p I d g) : barRestr p amb d g ∈ N d := by
  obtain ⟨γ, h1, rfl⟩ := hg
  rw [barRestr_smulsum]
  refine Submodule.sum_mem _ fun i _ => ?_
  by_cases h0 : AliveBar I.barcode i d
  · refine Submodule.smul_mem _ _ ?_
    by_cases hz : barRestr p amb d (I.coords.zcol p i) = 0
    · rw [hz]; exact Submodule.zero_mem _
    · rw [← h.span d]
      exact Submodule.subset_span ⟨⟨i, h0, hz⟩, rfl⟩
  · rw [h1 i h0, zero_smul]; exact Submodule.zero_mem _

theorem Comb.of_mem {p : ℕ} {amb : List (α × α)} {I : Basis α} {N : α → Submodule (ZMod p) (ℕ → ZMod p)}
    (h : GeneratesAt p amb I N) (hd : I.dim = I.barcode.length) {d : α} {z : ℕ → ZMod p} (hz : z ∈ N d) :
    ∃ g, Comb p I d g ∧ barRestr p amb d g = z := by
  rw [← h.span d] at hz
  induction hz using Submodule.span_induction with
  | mem x hx =>
    obtain ⟨⟨i, hi, -⟩, rfl⟩ := hx
    have hi0 := hi
    obtain ⟨b, hb, -⟩ := hi0
    have hil : i < I.dim := by rw [hd]; exact (List.getElem?_eq_some_iff.1 hb).1
    refine ⟨I.coords.zcol p i, ⟨Pi.single i 1, fun j hj => Pi.single_eq_of_ne (by rintro rfl; exact hj hi) _, ?_⟩, rfl⟩
    rw [Finset.sum_eq_single i]
    · rw [Pi.single_eq_same, one_smul]
    · intro j _ hj; rw [Pi.single_eq_of_ne hj, zero_smul]
    · intro hc; exact absurd (Finset.mem_range.2 hil) hc
  | zero => exact ⟨0, Comb.zero, map_zero _⟩
  | add x y _ _ hx hy =>
    obtain ⟨g, h1, rfl⟩ := hx
    obtain ⟨g', h2, rfl⟩ := hy
    exact ⟨g + g', h1.add h2, map_add _ _ _⟩
  | smul a x _ hx =>
    obtain ⟨g, ⟨γ, h1, rfl⟩, rfl⟩ := hx
    refine ⟨a • ∑ i ∈ range I.dim, γ i • I.coords.zcol p i, ⟨fun i => a * γ i, fun i hi => ?_, ?_⟩, map_smul _ _ _⟩
    · dsimp only; rw [h1 i hi, mul_zero]
    · rw [Finset.smul_sum]
      exact Finset.sum_congr rfl fun i _ => by rw [smul_smul]

/-- The first column of a row of the second page. -/
theorem first_position (h : SSOK rnd E ρ) (hlen : 2 ≤ E.columns.length) (hpos : 0 < E.spx 0)
    (hNp : E.noPages ≤ E.columns.length + 1) (h2 : 2 ≤ E.noPages)
    (hz : ∀ n deg, 2 ≤ n → E.firstBars deg n = []) {S : SSt α}
    (hS : allPages rnd E E.columns.length = .ok S) {deg : ℕ} (hdeg : deg < E.rows)
    (hround : ∀ n m, ∀ a ∈ E.firstBars deg n, ∀ b ∈ E.firstBars deg m,
      ∀ x, x = a.1 ∨ x = a.2 → ∀ y, y = b.1 ∨ y = b.2 → rnd x ≤ rnd y → x ≤ y)
    {M : Mat} (hM : firstDifferential E 0 deg = .ok M) :
    ∃ Q I, LiftPos E S 0 deg (E.firstBars deg 0) Q I ∧
      Gens E 0 deg Q.barcode (Q.coords.zcol E.p) (barModule E.p (E.firstBars deg 0))
        (imAt E.p (E.firstBars deg 1) (E.firstBars deg 0) M) ∧
      (∀ i b, I.barcode[i]? = some b → E.BornBy 0 deg (I.coords.zcol E.p i) b.1) ∧
      (∀ d g, Comb E.p I d g → barRestr E.p (E.firstBars deg 0) d g ∈
        imAt E.p (E.firstBars deg 1) (E.firstBars deg 0) M d) ∧
      (∀ d, ∀ z ∈ imAt E.p (E.firstBars deg 1) (E.firstBars deg 0) M d,
        ∃ g, Comb E.p I d g ∧ barRestr E.p (E.firstBars deg 0) d g = z) ∧
      (Q.dim ≠ 0 → ∃ X, S.reps (E.noPages - 1) 0 deg = [X] ∧
        ChainIs E 0 deg Q.dim (fun k i => E.fam 0 deg k (Q.coords.zcol E.p i)) X) := by
  have := Fact.mk h.prime
  obtain ⟨base, diffs, R⟩ := row_input h (by omega) hdeg hround
  obtain ⟨S0, S1, hrun, s1, s2, hk⟩ := allPages_kept hNp h2 (n := 0) (by omega) (by omega) hdeg hz hS
  obtain ⟨base', diffs', out, w1, w2, w3, W⟩ := pageOneRow_written hrun
  rw [R.run_base] at w1
  rw [R.run_diffs] at w2
  obtain rfl := Except.ok.inj w1
  obtain rfl := Except.ok.inj w2
  have g0 := R.get h hdeg (n := 0) (by omega)
  have g1 := R.get h hdeg (n := 1) (by omega)
  have hzb : ∀ d, 1 < d → barsAt base d = [] := by
    intro d hd
    rw [R.bars]
    split
    · exact hz d deg hd
    · rfl
  have b0 : barsAt base 0 = E.firstBars deg 0 := by rw [R.bars, if_pos (by omega)]
  have b1 : barsAt base 1 = E.firstBars deg 1 := by rw [R.bars, if_pos (by omega)]
  have hM' : diffAt (⟨0, []⟩ :: diffs) 1 = M := by
    have := R.diff 0 (by omega)
    rw [hM] at this
    exact (Except.ok.inj this).symm
  have hN : modBounds E.p (⟨0, []⟩ :: diffs) base 0 =
      imAt E.p (E.firstBars deg 1) (E.firstBars deg 0) M := by
    funext t
    unfold modBounds
    rw [b0, b1, hM']
  obtain ⟨mq, mq0, -, -⟩ := mph_two R.input hzb g1 g0 rfl w3
  obtain ⟨Q, q1, q2, q3, -⟩ := W.new 0 (0, deg) (by
    rw [List.getElem?_map, List.getElem?_range (by omega)]; rfl)
  obtain ⟨-, I, i1, i2⟩ := second_page h (by omega) hNp hS hdeg hround R (by
    intro d _ hne t
    have hd : d = 0 := by
      by_contra hc
      exact hne (hzb (d + 1) (by omega))
    subst hd
    exact imAt_bot_left (hzb 2 (by omega)) t) (n := 0) (by omega)
  have hprev : E.firstBars deg 0 ≠ [] →
      prevOf (base.map fun b => (⟨b, none⟩ : HomEntry α)) 0 = some (E.firstBars deg 0) := by
    intro hne
    unfold prevOf
    rw [List.getElem?_map, g0]
    dsimp only [Option.map_some]
    rw [if_pos rfl, if_neg]
    · rfl
    · change (E.firstBars deg 0).length ≠ 0
      simpa using hne
  have e1 : (S1.hom 1 0 deg).basis = Q := by rw [q2]
  suffices H : LiftIn E.p (E.firstBars deg 0).length Q ∧
      Gens E 0 deg Q.barcode (Q.coords.zcol E.p) (barModule E.p (E.firstBars deg 0))
        (imAt E.p (E.firstBars deg 1) (E.firstBars deg 0) M) ∧ Q.barcode.Pairwise (barLE rnd) ∧
      (Q.flat = true → Q.barcode = []) ∧ (Q.dim ≠ 0 → E.firstBars deg 0 ≠ []) by
    obtain ⟨H1, H2, H3, H4, H5⟩ := H
    rw [e1] at hk
    obtain ⟨k1, k2, -⟩ := hk H1.dim H2.wf H3 H4
    have hIin : I.barcode ≠ [] → BasisIn E.p (E.firstBars deg 0) I := by rw [← b0]; exact i2.isIn
    refine ⟨Q, I, ⟨?_, ?_, i1, fun b hb => (h.firstBars_lt (by omega) hdeg b hb).1, H2.wf, H1,
      ⟨i2.dim, fun hp => (hIin ?_).liftIn.mat hp⟩, k1⟩, H2, ?_, ?_, ?_, ?_⟩
    · rw [s1, e1]
    · intro hd
      rw [s1, q2]
      exact hprev (H5 hd)
    · rw [i2.dim] at hp
      exact List.length_pos_iff.1 hp
    · intro i b hib
      have hI := hIin (by rintro h0; rw [h0] at hib; simp at hib)
      exact BornBy.of_born hI.born hI.len hib
    · intro d g hg
      have := hg.mem i2.gen
      rwa [hN, b0] at this
    · intro d z hz
      have := Comb.of_mem i2.gen i2.dim (d := d) (z := z) (by rw [hN]; exact hz)
      rwa [b0] at this
    · intro hQ0
      refine k2 _ (stable_one _) hQ0 ?_
      obtain ⟨T, T', t1, t2, t3⟩ := pageOneRow_two (n := 0) (by omega) hrun
      rw [← t3]
      unfold computeTwoPage at t1
      rw [t2, e1] at t1
      dsimp only at t1
      rw [if_neg hQ0, bind_ok] at t1
      obtain ⟨cyc, c1, t1⟩ := t1
      rw [bind_ok] at t1
      obtain ⟨C, c2, t1⟩ := t1
      rw [if_pos rfl] at t1
      cases t1
      have hm := H1.mat (Nat.pos_of_ne_zero hQ0)
      refine ⟨C, by simp [upd], classFold_spec h (by omega) hpos hdeg (by rw [hm.rows]; exact hm.len)
        hm.ncols.symm c1 c2⟩
  by_cases hne : E.firstBars deg 0 = []
  · have hQ : Q = barsBasis [] := by
      have := mq0 hne
      rw [q1, hne] at this
      exact Option.some.inj this
    subst hQ
    refine ⟨⟨rfl, fun hp => absurd hp (Nat.lt_irrefl 0)⟩, ?_, List.Pairwise.nil, fun _ => rfl,
      fun hd => absurd rfl hd⟩
    refine Gens.nil fun t => ?_
    rw [hne]
    rintro z ⟨y, rfl⟩
    have : barRestr E.p [] t y = 0 := by
      funext j
      refine restr_apply_neg ?_
      rintro ⟨c, hc1, -⟩
      simp at hc1
    rw [this]; exact Submodule.zero_mem _
  · obtain ⟨Q', I', m1, -, m3, m4, -⟩ := mq hne
    rw [q1] at m1
    obtain rfl := Option.some.inj m1
    rw [hN] at m3
    refine ⟨⟨m3.dim, fun _ => ?_⟩, m3.gens, m4, ?_, fun _ => hne⟩
    · rw [m3.dim]; exact m3.mat
    · intro hf; rw [m3.flat] at hf; cases hf

/-- The lifts of the classes of the second column. -/
theorem second_lift (h : SSOK rnd E ρ) (hn : 1 < E.columns.length) (hpos : 0 < E.spx 1) {e : ℕ}
    (he : e < E.rows) {D : Mat} (hD : E.nerveDiff[0]? = some D)
    (hskip : ∀ k < E.spx 0, E.classes 0 e k = 0 → E.G 0 k e = []) {bars : List (α × α)}
    {y : ℕ → ℕ → ZMod E.p} {Z : α → Submodule (ZMod E.p) (ℕ → ZMod E.p)}
    (hG : Gens E 1 e bars y Z fun _ => ⊥) {C : LChains}
    (hC : ChainIs E 1 e bars.length (fun k j => E.fam 1 e k (y j)) C) {out : List (List ℤ) × LChains}
    (hrun : cechDiffAndLift E 0 e C (bars.map Prod.fst) = .ok out) (hany : anyRows out.1 = false) :
    ∃ v : ℕ → ℕ → ℕ → ZMod E.p, ChainIs E 0 (e + 1) bars.length (fun k j => v j k) out.2 ∧
      ∀ j b, bars[j]? = some b → ∀ k < E.spx 0, E.PresentAt ρ 0 k (e + 1) (v j k) b.1 ∧
        E.bd 0 k (e + 1) (v j k) + E.cechSum D 0 e k (fun l => E.fam 1 e l (y j)) = 0 := by
  have hR := hG.le_maxR h hn he
  obtain ⟨C', B, lift, c1, c2, c3, c4, c5, c6, c7, c8, -⟩ := cechDiffAndLift_spec h hD hn hpos he hC.wf
    (R := bars.map Prod.fst) (by
      intro r hr
      obtain ⟨b, hb, rfl⟩ := List.mem_map.1 hr
      exact (hG.wf b hb).trans_le (hR b hb)) (by rw [List.length_map]; exact hC.refs) (by
      intro g r hr l hl
      rw [List.getElem?_map] at hr
      obtain ⟨b, hb, rfl⟩ := Option.map_eq_some_iff.1 hr
      have hg : g < bars.length := (List.getElem?_eq_some_iff.1 hb).1
      rw [hC.val l hl g hg]
      obtain ⟨f1, f2⟩ := fam_cycle h hn he (hG.born g b hb) hl
      obtain ⟨o, pts, ho, -⟩ := h.piece 1 hn l hl
      rw [bd_eq ho] at f2
      exact ⟨⟨o, ho, f2⟩, f1⟩)
  have hrefs := cechDiffAndLift_refs hrun
  rw [hrun] at c2
  obtain rfl := Except.ok.inj c2
  rw [List.length_map] at hrefs
  have hC' := cechDiff_chain h hD hn hpos he.le hC c1
  refine ⟨fun j k i => (lift.val k j i : ZMod E.p), ⟨c5, hrefs, fun _ _ _ _ => rfl⟩, fun j b hb k hk => ?_⟩
  have hj : j < bars.length := (List.getElem?_eq_some_iff.1 hb).1
  by_cases h0 : E.classes 0 e k = 0
  · have hv : (fun i => (lift.val k j i : ZMod E.p)) = 0 := by
      funext i
      unfold LChains.val
      rw [c7 k hk h0]
      simp [LEntry.val, LEntry.empty, LEntry.row]
    dsimp only
    rw [hv]
    refine ⟨fun i hi => absurd rfl hi, ?_⟩
    rw [map_zero, zero_add]
    unfold SSEnv.cechSum
    refine Finset.sum_eq_zero fun l _ => ?_
    funext i
    exact cechOf_of_le D _ (by rw [hskip k hk h0]; exact Nat.zero_le _)
  · have zz := c8 k hk (Nat.pos_of_ne_zero h0) j b.1 (by rw [List.getElem?_map, hb]; rfl)
    refine ⟨zz.present, ?_⟩
    obtain ⟨o, hom, ho, -, hcl, -⟩ := zz.closes
    rw [bd_eq ho]
    rw [hC'.val k hk j hj] at hcl
    rw [hcl]
    refine Finset.sum_eq_zero fun a _ => ?_
    rw [anyRows_zv hany j]
    exact zero_smul _ _

/-- The second column of a row of the second page. -/
theorem second_position (h : SSOK rnd E ρ) (hlen : 2 ≤ E.columns.length)
    (hNp : E.noPages ≤ E.columns.length + 1) (h2 : 2 ≤ E.noPages)
    (hz : ∀ n deg, 2 ≤ n → E.firstBars deg n = []) {S : SSt α}
    (hS : allPages rnd E E.columns.length = .ok S) {e : ℕ} (he : e < E.rows)
    (hround : ∀ n m, ∀ a ∈ E.firstBars e n, ∀ b ∈ E.firstBars e m,
      ∀ x, x = a.1 ∨ x = a.2 → ∀ y, y = b.1 ∨ y = b.2 → rnd x ≤ rnd y → x ≤ y)
    (hgap : E.firstBars e 0 = [] → E.firstBars e 1 = [])
    (hskip : E.firstBars e 1 ≠ [] → ∀ k < E.spx 0, E.classes 0 e k = 0 → E.G 0 k e = [])
    {D : Mat} (hD : E.nerveDiff[0]? = some D) {M : Mat} (hM : firstDifferential E 0 e = .ok M) :
    ∃ K, (S.hom 1 1 e).basis = K ∧ K.dim = K.barcode.length ∧
      Gens E 1 e K.barcode (K.coords.zcol E.p) (kerAt E.p (E.firstBars e 1) (E.firstBars e 0) M)
        (fun _ => ⊥) ∧
      (∀ b ∈ K.barcode, ∃ c ∈ E.firstBars e 1 ++ E.firstBars e 0, b.1 = c.1 ∨ b.1 = c.2) ∧
      (∀ k, 2 ≤ k → k < E.noPages → KeptPage S 1 e k K) ∧
      (K.dim ≠ 0 → 0 < E.spx 1 ∧ ∃ I, LiftPos E S 1 e (E.firstBars e 1) K I ∧ I.dim = 0 ∧
        ∃ (C L : LChains) (v : ℕ → ℕ → ℕ → ZMod E.p), S.reps (E.noPages - 1) 1 e = [C, L] ∧
          ChainIs E 1 e K.dim (fun k j => E.fam 1 e k (K.coords.zcol E.p j)) C ∧
          ChainIs E 0 (e + 1) K.dim (fun k j => v j k) L ∧
          (3 ≤ E.noPages → Summed K.dim [C, L]) ∧
          ∀ j b, K.barcode[j]? = some b → ∀ k < E.spx 0, E.PresentAt ρ 0 k (e + 1) (v j k) b.1 ∧
            E.bd 0 k (e + 1) (v j k) +
              E.cechSum D 0 e k (fun l => E.fam 1 e l (K.coords.zcol E.p j)) = 0) := by
  have := Fact.mk h.prime
  obtain ⟨base, diffs, R⟩ := row_input h (by omega) he hround
  obtain ⟨S0, S1, hrun, s1, s2, hk⟩ := allPages_kept hNp h2 (n := 1) (by omega) (by omega) he hz hS
  obtain ⟨base', diffs', out, w1, w2, w3, W⟩ := pageOneRow_written hrun
  rw [R.run_base] at w1
  rw [R.run_diffs] at w2
  obtain rfl := Except.ok.inj w1
  obtain rfl := Except.ok.inj w2
  have g0 := R.get h he (n := 0) (by omega)
  have g1 := R.get h he (n := 1) (by omega)
  have hzb : ∀ d, 1 < d → barsAt base d = [] := by
    intro d hd
    rw [R.bars]
    split
    · exact hz d e hd
    · rfl
  have b0 : barsAt base 0 = E.firstBars e 0 := by rw [R.bars, if_pos (by omega)]
  have b1 : barsAt base 1 = E.firstBars e 1 := by rw [R.bars, if_pos (by omega)]
  have hM' : diffAt (⟨0, []⟩ :: diffs) 1 = M := by
    have := R.diff 0 (by omega)
    rw [hM] at this
    exact (Except.ok.inj this).symm
  have hZ : modCycles E.p (⟨0, []⟩ :: diffs) base 1 =
      kerAt E.p (E.firstBars e 1) (E.firstBars e 0) M := by
    funext t
    change kerAt E.p (barsAt base 1) (barsAt base 0) (diffAt (⟨0, []⟩ :: diffs) 1) t = _
    rw [b0, b1, hM']
  obtain ⟨-, -, mk, mk0⟩ := mph_two R.input hzb g1 g0 rfl w3
  obtain ⟨K, q1, q2, q3, -⟩ := W.new 1 (1, e) (by
    rw [List.getElem?_map, List.getElem?_range (by omega)]; rfl)
  dsimp only at q2 q3
  have e1 : (S1.hom 1 1 e).basis = K := by rw [q2]
  by_cases hne : E.firstBars e 1 = []
  · obtain ⟨K', m1, m2, m3⟩ := mk0 hne
    rw [q1] at m1
    obtain rfl := Option.some.inj m1
    rw [e1] at hk
    obtain ⟨k1, -, -⟩ := hk (by rw [m2, m3]; rfl) (by rw [m3]; simp) (by rw [m3]; exact List.Pairwise.nil)
      (fun _ => m3)
    refine ⟨K, by rw [s1, e1], by rw [m2, m3]; rfl, ?_, by rw [m3]; simp, k1, fun hc => absurd m2 hc⟩
    rw [m3]
    refine Gens.nil fun t => ?_
    rw [hne]
    rintro z ⟨⟨y, rfl⟩, -⟩
    rw [Submodule.mem_bot]
    funext j
    refine restr_apply_neg ?_
    rintro ⟨c, hc1, -⟩
    simp at hc1
  · have hne0 : E.firstBars e 0 ≠ [] := fun h0 => hne (hgap h0)
    obtain ⟨K', I, m1, m2, m3, m4, m5, m6, m7⟩ := mk hne hne0
    rw [q1] at m1
    obtain rfl := Option.some.inj m1
    have m5' : BasisIn E.p (E.firstBars e 1) K := m5
    have m6' : IsBasisOf E.p (E.firstBars e 1) K (kerAt E.p (E.firstBars e 1) (E.firstBars e 0) M) := by
      rw [← hZ]; exact m6
    have hG := IsBasisOf.gens m5' m6'
    rw [e1] at hk
    obtain ⟨k1, k2, k3⟩ := hk m5.dim m5.bars m7 (by intro hf; rw [m5.flat] at hf; cases hf)
    have hpos : 0 < E.spx 1 := by
      by_contra h0
      exact hne (h.firstBars_empty (by omega) (by omega))
    have hprev : prevOf (base.map fun b => (⟨b, none⟩ : HomEntry α)) 1 = some (E.firstBars e 1) := by
      unfold prevOf
      rw [List.getElem?_map, g1]
      dsimp only [Option.map_some]
      rw [if_neg (by omega), List.getElem?_map, show (1 : ℕ) - 1 = 0 from rfl, g0]
      dsimp only [Option.map_some]
      rw [if_neg]
      · rfl
      · rintro ⟨-, hc⟩
        change (E.firstBars e 0).length = 0 at hc
        exact hne0 (List.length_eq_zero_iff.1 hc)
    refine ⟨K, by rw [s1, e1], m5.dim, hG, fun b hb => ker_birth h.prime m5' m6' hb, k1, fun hK0 => ⟨hpos, I, ⟨by rw [s1, e1], ?_, ?_,
      fun b hb => (h.firstBars_lt (by omega) he b hb).1, m5.bars, m5'.liftIn,
      ⟨by rw [m3, m4]; rfl, fun hp => by omega⟩, k1⟩, m3, ?_⟩⟩
    · intro _; rw [s1, q2]; exact hprev
    · rw [s2, q3, m2]
    · obtain ⟨T, T', t1, t2, t3⟩ := pageOneRow_two (n := 1) (by omega) hrun
      unfold computeTwoPage at t1
      rw [t2, e1] at t1
      dsimp only at t1
      rw [if_neg hK0, bind_ok] at t1
      obtain ⟨cyc, c1, t1⟩ := t1
      rw [bind_ok] at t1
      obtain ⟨C, c2, t1⟩ := t1
      rw [if_neg (by omega), bind_ok] at t1
      obtain ⟨o, c3, t1⟩ := t1
      split at t1
      · cases t1
      next hany =>
      cases t1
      have hC := classFold_spec h (by omega) hpos he (by rw [m5'.rows]; exact m5'.len)
        (show K.dim = K.coords.cols.length by rw [m5.dim]; exact m5.cols.symm) c1 c2
      rw [m5.dim] at hC
      obtain ⟨v, v1, v2⟩ := second_lift h (by omega) hpos he hD (hskip hne) hG hC c3 (by simpa using hany)
      rw [← m5.dim] at hC v1
      obtain ⟨C', L', l1, l2, l3⟩ := k2 _ (stable_two (E := E) (n := 1) (deg := e) (n' := 0) (deg' := e + 1)
        (m := K.dim) (fun k j => E.fam 1 e k (K.coords.zcol E.p j)) (fun k j => v j k)) hK0
        ⟨C, o.2, by rw [← t3]; simp [upd], hC, v1⟩
      exact ⟨C', L', v, l1, l2, l3, fun h3 => by rw [← l1]; exact k3 h3 hK0, v2⟩

end

end Permaviss
