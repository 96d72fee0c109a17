import Verif.Lemmas.D1
import Verif.Lemmas.MPH
import Verif.Props.Pages

/-!
# The second page
-/

namespace Permaviss

open Finset

attribute [-instance] instMulZeroClassOfSemiring

section

variable {α : Type} [LinearOrder α] [Zero α] {rnd : α → α} {E : SSEnv α} {ρ : List ℕ → α}

theorem mapM_ok_map {γ β : Type} {f : γ → Except PyErr β} {g : γ → β} {xs : List γ}
    (h : ∀ x ∈ xs, f x = .ok (g x)) : xs.mapM f = .ok (xs.map g) := by
  induction xs with
  | nil => rfl
  | cons x xs ih =>
    rw [List.mapM_cons, h x (by simp), ih fun y hy => h y (by simp [hy])]
    rfl

theorem imAt_le_barModule {p : ℕ} {A B : List (α × α)} {F : Mat} (t : α) :
    imAt p A B F t ≤ barModule p B t := by
  rintro x ⟨y, -, rfl⟩
  exact ⟨_, rfl⟩

theorem kerAt_right_empty {p : ℕ} {A B : List (α × α)} {F : Mat} (hB : B = []) (t : α) :
    kerAt p A B F t = barModule p A t := by
  subst hB
  unfold kerAt
  rw [inf_eq_left]
  intro x _
  change morAt p A [] F t x = 0
  unfold morAt
  rw [LinearMap.comp_apply]
  unfold barRestr
  rw [restr_eq_zero]
  rintro i ⟨b, hb, -⟩
  simp at hb

/-- The bars of the first page. -/
theorem SSOK.firstBars_lt (h : SSOK rnd E ρ) {n deg : ℕ} (hn : n < E.columns.length)
    (hdeg : deg < E.rows) : ∀ b ∈ E.firstBars deg n, b.1 < b.2 ∧ b.2 ≤ E.maxR := by
  intro b hb
  obtain ⟨t, ht⟩ := List.mem_iff_getElem?.1 hb
  obtain ⟨l, hl, hom, a, hh, ha, hb, rfl⟩ := h.firstBars_class hn hdeg ht
  exact (h.rep_cycle hn hdeg hl hh hb).2

/-- The basis made of the bars. -/
def barsBasis (bars : List (α × α)) : Basis α :=
  ⟨bars, bars.isEmpty, bars.length, none, ⟨1, []⟩, false, none, none⟩

theorem basisOfBars_eq {bars : List (α × α)} (h : ∀ b ∈ bars, b.1 < b.2) :
    basisOfBars bars = .ok (barsBasis bars) := by
  unfold basisOfBars Basis.init initCoords barsBasis
  have hf : (bars.filter fun b => decide (b.1 < b.2)) = bars :=
    List.filter_eq_self.2 fun b hb => by simpa using h b hb
  simp [hf]

/-- The row `deg` of the first page as input of `module_persistence_homology`. -/
structure RowInput (rnd : α → α) (E : SSEnv α) (deg : ℕ) (base : List (Basis α)) (diffs : List Mat) :
    Prop where
  run_base : (List.range E.columns.length).mapM (fun n => basisOfBars (E.firstBars deg n)) = .ok base
  run_diffs : (List.range (E.columns.length - 1)).mapM (fun n => firstDifferential E n deg) = .ok diffs
  len : base.length = E.columns.length
  bars : ∀ n, barsAt base n = if n < E.columns.length then E.firstBars deg n else []
  diff : ∀ n, n + 1 < E.columns.length → firstDifferential E n deg = .ok (diffAt (⟨0, []⟩ :: diffs) (n + 1))
  input : ChainInput rnd E.p (⟨0, []⟩ :: diffs) base

theorem row_input (h : SSOK rnd E ρ) (hlen : 0 < E.columns.length) {deg : ℕ} (hdeg : deg < E.rows)
    (hround : ∀ n m, ∀ a ∈ E.firstBars deg n, ∀ b ∈ E.firstBars deg m,
      ∀ x, x = a.1 ∨ x = a.2 → ∀ y, y = b.1 ∨ y = b.2 → rnd x ≤ rnd y → x ≤ y) :
    ∃ base diffs, RowInput rnd E deg base diffs := by
  have hb : (List.range E.columns.length).mapM (fun n => basisOfBars (E.firstBars deg n)) =
      .ok ((List.range E.columns.length).map fun n => barsBasis (E.firstBars deg n)) := by
    refine mapM_ok_map ?_
    intro n hn
    exact basisOfBars_eq fun b hb => (h.firstBars_lt (List.mem_range.1 hn) hdeg b hb).1
  have hd0 : ∀ n ∈ List.range (E.columns.length - 1), ∃ M, firstDifferential E n deg = .ok M := by
    intro n hn
    have hn' := List.mem_range.1 hn
    obtain ⟨D, hD⟩ := h.hasDiff n (by omega)
    obtain ⟨M, m1, -⟩ := firstDifferential_spec h hD (by omega) hdeg
    exact ⟨M, m1⟩
  obtain ⟨diffs, hd⟩ := mapM_ok_of hd0
  obtain ⟨d1, d2⟩ := mapM_ok_spec hd
  rw [List.length_range] at d1
  set base := (List.range E.columns.length).map fun n => barsBasis (E.firstBars deg n) with hbase
  have hget : ∀ n, base[n]? = if n < E.columns.length then some (barsBasis (E.firstBars deg n)) else none := by
    intro n
    rw [hbase, List.getElem?_map]
    by_cases hn : n < E.columns.length
    · rw [if_pos hn, List.getElem?_eq_getElem (by simpa using hn)]; simp
    · rw [if_neg hn, List.getElem?_eq_none (by simpa using hn)]; rfl
  have hbars : ∀ n, barsAt base n = if n < E.columns.length then E.firstBars deg n else [] := by
    intro n
    unfold barsAt
    rw [hget]
    split <;> rfl
  have hdget : ∀ n, n + 1 < E.columns.length →
      firstDifferential E n deg = .ok (diffAt (⟨0, []⟩ :: diffs) (n + 1)) := by
    intro n hn
    have := d2 n (by simp; omega) (by omega)
    rw [List.getElem_range] at this
    rw [this]
    unfold diffAt
    rw [List.getD_cons_succ, List_getD_eq_getElem _ _ (by omega)]
  have hmem : ∀ X ∈ base, ∃ n < E.columns.length, X = barsBasis (E.firstBars deg n) := by
    intro X hX
    rw [hbase] at hX
    obtain ⟨n, hn, rfl⟩ := List.mem_map.1 hX
    exact ⟨n, List.mem_range.1 hn, rfl⟩
  have hmor : ∀ n, n + 1 < E.columns.length → E.firstBars deg (n + 1) ≠ [] →
      IsMorphism E.p (E.firstBars deg (n + 1)) (E.firstBars deg n) (diffAt (⟨0, []⟩ :: diffs) (n + 1)) := by
    intro n hn hne
    obtain ⟨M, m1, m2⟩ := firstDifferential_morphism h hn hdeg hne
    rw [hdget n hn] at m1
    rw [Except.ok.inj m1]; exact m2
  refine ⟨base, diffs, hb, hd, by simp [hbase], hbars, hdget, h.prime, ?_, ?_, ?_, ?_, ?_, ?_, ?_, ?_, ?_⟩
  · intro hc
    have hl : base.length = E.columns.length := by simp [hbase]
    rw [hc] at hl
    simp at hl
    omega
  · intro X hX
    obtain ⟨n, hn, rfl⟩ := hmem X hX
    intro hf; simpa [barsBasis] using hf
  · intro X hX
    obtain ⟨n, hn, rfl⟩ := hmem X hX
    rfl
  · intro X hX
    obtain ⟨n, hn, rfl⟩ := hmem X hX
    exact fun b hb => (h.firstBars_lt hn hdeg b hb).1
  · intro X hX
    obtain ⟨n, hn, rfl⟩ := hmem X hX
    rfl
  · intro X hX
    obtain ⟨n, hn, rfl⟩ := hmem X hX
    intro hs; cases hs
  · intro X hX Y hY
    obtain ⟨n, hn, rfl⟩ := hmem X hX
    obtain ⟨m, hm, rfl⟩ := hmem Y hY
    exact hround n m
  · intro n h1 h2
    rw [hbars] at h1 h2
    by_cases hn : n + 1 < E.columns.length
    · rw [if_pos hn] at h2
      rw [hbars, hbars, if_pos hn, if_pos (by omega)]
      refine ⟨diffAt (⟨0, []⟩ :: diffs) (n + 1), ?_, hmor n hn h2⟩
      unfold diffAt
      rw [List.getElem?_cons_succ, List.getD_cons_succ, List_getD_eq_getElem _ _ (by omega),
        List.getElem?_eq_getElem (by omega)]
    · rw [if_neg hn] at h2; exact absurd rfl h2
  · intro n t
    cases n with
    | zero => exact imAt_le_barModule t
    | succ n =>
      change imAt _ _ _ _ t ≤ kerAt _ _ _ _ t
      by_cases hn : n + 2 < E.columns.length
      swap
      · rw [imAt_bot_left (by rw [hbars, if_neg (by omega)])]; exact bot_le
      rw [hbars, hbars, hbars, if_pos (by omega), if_pos (by omega), if_pos (by omega)]
      by_cases h2 : E.firstBars deg (n + 2) = []
      · rw [imAt_bot_left h2]; exact bot_le
      by_cases h1 : E.firstBars deg (n + 1) = []
      · rw [imAt_bot_right h1]; exact bot_le
      have mF := hmor (n + 1) (by omega) h2
      have mG := hmor n (by omega) h1
      refine imAt_le_kerAt_of mF mG t ?_
      intro x i ⟨c, hc, hc1, hc2⟩
      obtain ⟨M, N, g1, g2, g3⟩ := d1_d1_bars h (n := n) (by omega) hdeg
      rw [hdget n (by omega)] at g1
      rw [hdget (n + 1) (by omega)] at g2
      obtain rfl := Except.ok.inj g1
      obtain rfl := Except.ok.inj g2
      set M := diffAt (⟨0, []⟩ :: diffs) (n + 1)
      set N := diffAt (⟨0, []⟩ :: diffs) (n + 1 + 1)
      change ∑ k ∈ range M.ncols, M.z E.p i k * (∑ j ∈ range N.ncols, N.z E.p k j *
        barRestr E.p (E.firstBars deg (n + 2)) t x j) = 0
      simp only [Finset.mul_sum]
      rw [Finset.sum_comm]
      refine Finset.sum_eq_zero fun j _ => ?_
      by_cases hal : AliveBar (E.firstBars deg (n + 2)) j t
      · obtain ⟨a, ha, ha1, ha2⟩ := hal
        have hz : ∑ m ∈ range (E.firstBars deg (n + 1)).length, M.z E.p i m * N.z E.p m j = 0 := by
          by_contra hne
          have := g3 j i a c ha hc hne
          exact absurd (this.trans ha1) (not_le.2 hc2)
        rw [← mG.cols] at hz
        have : ∀ k ∈ range M.ncols, M.z E.p i k * (N.z E.p k j *
            barRestr E.p (E.firstBars deg (n + 2)) t x j) = (M.z E.p i k * N.z E.p k j) *
            barRestr E.p (E.firstBars deg (n + 2)) t x j := fun k _ => by ring
        rw [Finset.sum_congr rfl this, ← Finset.sum_mul, hz, zero_mul]
      · refine Finset.sum_eq_zero fun k _ => ?_
        unfold barRestr
        rw [restr_apply_neg hal, mul_zero, mul_zero]


/-! ## The loops over the pages -/

theorem pageHigher_fold_old {N : ℕ} {cps : List ℕ} (hc : ∀ cp ∈ cps, 2 ≤ cp ∧ cp ≤ N) (hN : 0 < N) {S S' : SSt α}
    (h : cps.foldlM (pageHigher rnd E N) S = .ok S') {a : ℕ} (ha : a ∉ cps) (b c : ℕ) :
    S'.hom a b c = S.hom a b c ∧ S'.im a b c = S.im a b c ∧ S'.preIm a b c = S.preIm a b c := by
  refine foldlM_ok_inv (fun T => T.hom a b c = S.hom a b c ∧ T.im a b c = S.im a b c ∧
    T.preIm a b c = S.preIm a b c) ?_ h ⟨rfl, rfl, rfl⟩
  intro T cp T' hcp hT hI
  have := (C50_page rnd E N cp (hc cp hcp).1 (hc cp hcp).2 T T' hT 0 0 hN).2.2 a b c
    (fun e => ha (e ▸ hcp))
  exact ⟨this.1.trans hI.1, this.2.1.trans hI.2.1, this.2.2.trans hI.2.2⟩

/-- The entries of the second page are the result of `module_persistence_homology` on the rows of the
first page. -/
theorem allPages_row {N : ℕ} (hN : 0 < N) (hNp : E.noPages ≤ N + 1) {S : SSt α} (h : allPages rnd E N = .ok S) {deg : ℕ}
    (hdeg : deg < E.rows) :
    ∃ base diffs out,
      (List.range N).mapM (fun n => basisOfBars (E.firstBars deg n)) = .ok base ∧
      (List.range (N - 1)).mapM (fun n => firstDifferential E n deg) = .ok diffs ∧
      modulePersistenceHomology rnd E.p (⟨0, []⟩ :: diffs) base = .ok out ∧
      ∀ n < N, ∃ hb, out.hom.getD n none = some hb ∧ (S.hom 1 n deg).basis = hb ∧
        S.im 1 n deg = out.im.getD n none ∧ S.preIm 1 n deg = out.preIm.getD n none := by
  unfold allPages at h
  rw [bind_ok] at h
  obtain ⟨S1, h1, h2⟩ := h
  have hcps : ∀ cp ∈ (List.range (E.noPages - 2)).map (· + 2), 2 ≤ cp ∧ cp ≤ N := by
    intro cp hcp
    obtain ⟨i, hi, rfl⟩ := List.mem_map.1 hcp
    have := List.mem_range.1 hi
    omega
  have hold := pageHigher_fold_old hcps hN h2 (a := 1) (by
    intro h1; have := (hcps 1 h1).1; omega)
  obtain ⟨T1, T2, -, t2, t3⟩ := foldlM_ok_split h1 (i := deg) (x := deg)
    (by rw [List.getElem?_eq_getElem (by simpa using hdeg)]; simp)
  obtain ⟨base, diffs, out, r1, r2, r3, r4⟩ := pageOneRow_written t2
  refine ⟨base, diffs, out, r1, r2, r3, ?_⟩
  intro n hn
  obtain ⟨hb, w1, w2, w3, w4⟩ := r4.new n (n, deg) (by simp [hn])
  have hrow : S1.hom 1 n deg = T2.hom 1 n deg ∧ S1.im 1 n deg = T2.im 1 n deg ∧
      S1.preIm 1 n deg = T2.preIm 1 n deg := by
    refine foldlM_ok_inv (fun T => T.hom 1 n deg = T2.hom 1 n deg ∧ T.im 1 n deg = T2.im 1 n deg ∧
      T.preIm 1 n deg = T2.preIm 1 n deg) ?_ t3 ⟨rfl, rfl, rfl⟩
    intro T d T' hd hT hI
    obtain ⟨_, _, _, -, -, -, q⟩ := pageOneRow_written hT
    have hdne : deg ≠ d := by
      rintro rfl
      rw [List.mem_iff_getElem?] at hd
      obtain ⟨i, hi⟩ := hd
      rw [List.getElem?_drop, List.getElem?_eq_some_iff] at hi
      obtain ⟨_, hi⟩ := hi
      simp at hi
      omega
    have := q.old 1 n deg (by
      rintro ⟨-, hm⟩
      obtain ⟨_, -, hm⟩ := List.mem_map.1 hm
      exact hdne (congrArg Prod.snd hm).symm)
    exact ⟨this.1.trans hI.1, this.2.1.trans hI.2.1, this.2.2.trans hI.2.2⟩
  obtain ⟨o1, o2, o3⟩ := hold n deg
  refine ⟨hb, w1, ?_, ?_, ?_⟩
  · rw [o1, hrow.1, w2]
  · rw [o2, hrow.2.1, w3]
  · rw [o3, hrow.2.2, w4]

/-- The entries of the second page. -/
theorem second_page_all (h : SSOK rnd E ρ) (hlen : 0 < E.columns.length)
    (hNp : E.noPages ≤ E.columns.length + 1) {S : SSt α}
    (hS : allPages rnd E E.columns.length = .ok S) {deg : ℕ} (hdeg : deg < E.rows)
    (hround : ∀ n m, ∀ a ∈ E.firstBars deg n, ∀ b ∈ E.firstBars deg m,
      ∀ x, x = a.1 ∨ x = a.2 → ∀ y, y = b.1 ∨ y = b.2 → rnd x ≤ rnd y → x ≤ y)
    {base : List (Basis α)} {diffs : List Mat} (hrow : RowInput rnd E deg base diffs) {n : ℕ}
    (hn : n < E.columns.length) :
    HomAt E.p (⟨0, []⟩ :: diffs) base n (S.hom 1 n deg).basis ∧
      ∃ I, S.im 1 n deg = some I ∧ ImGood E.p (⟨0, []⟩ :: diffs) base n I := by
  obtain ⟨base', diffs', out, r1, r2, r3, r4⟩ := allPages_row hlen hNp hS hdeg
  rw [hrow.run_base] at r1
  rw [hrow.run_diffs] at r2
  obtain rfl := Except.ok.inj r1
  obtain rfl := Except.ok.inj r2
  obtain ⟨out', m1, m2, m3, m4⟩ := mph_all hrow.input
  rw [r3] at m1
  obtain rfl := Except.ok.inj m1
  obtain ⟨⟨H, g1, g2⟩, I, g3, g4⟩ := m4 n (by rw [hrow.len]; exact hn)
  obtain ⟨hb, w1, w2, w3, -⟩ := r4 n hn
  rw [List.getD_eq_getElem?_getD, g1] at w1
  simp only [Option.getD_some, Option.some.injEq] at w1
  subst w1
  refine ⟨by rw [w2]; exact g2, I, ?_, g4⟩
  rw [w3, List.getD_eq_getElem?_getD, g3]
  rfl

/-- The second page is the homology of the first page. -/
theorem second_page (h : SSOK rnd E ρ) (hlen : 0 < E.columns.length)
    (hNp : E.noPages ≤ E.columns.length + 1) {S : SSt α}
    (hS : allPages rnd E E.columns.length = .ok S) {deg : ℕ} (hdeg : deg < E.rows)
    (hround : ∀ n m, ∀ a ∈ E.firstBars deg n, ∀ b ∈ E.firstBars deg m,
      ∀ x, x = a.1 ∨ x = a.2 → ∀ y, y = b.1 ∨ y = b.2 → rnd x ≤ rnd y → x ≤ y)
    {base : List (Basis α)} {diffs : List Mat} (hrow : RowInput rnd E deg base diffs)
    (hgap : ∀ d, barsAt base d = [] → barsAt base (d + 1) ≠ [] →
      ∀ t, modBounds E.p (⟨0, []⟩ :: diffs) base (d + 1) t = ⊥) {n : ℕ} (hn : n < E.columns.length) :
    HomGood E.p (⟨0, []⟩ :: diffs) base n (S.hom 1 n deg).basis ∧
      ∃ I, S.im 1 n deg = some I ∧ ImGood E.p (⟨0, []⟩ :: diffs) base n I := by
  obtain ⟨h1, h2⟩ := second_page_all h hlen hNp hS hdeg hround hrow hn
  refine ⟨h1.good fun hpos h0 hne => ?_, h2⟩
  obtain ⟨e, rfl⟩ : ∃ e, n = e + 1 := ⟨n - 1, by omega⟩
  exact hgap e h0 hne

end

end Permaviss
