import Verif.Lemmas.StripExt

/-!
# `compute_two_page_representatives` does not fail
-/

namespace Permaviss

open Finset

attribute [-instance] instMulZeroClassOfSemiring

section

variable {α : Type} [LinearOrder α] [Zero α] {rnd : α → α} {E : SSEnv α} {ρ : List ℕ → α}

theorem ok_bind {ε β γ : Type} (x : β) (f : β → Except ε γ) : (Except.ok x >>= f) = f x := rfl

theorem anyRows_of_zv {p : ℕ} (hp : 0 < p) {M : List (List ℤ)} (hM : ∀ row ∈ M, ∀ x ∈ row, 0 ≤ x ∧ x < (p : ℤ))
    (h : ∀ j < M.length, zv p (M.getD j []) = 0) : anyRows M = false := by
  rw [anyRows, List.any_eq_false]
  intro row hrow
  obtain ⟨j, hj, rfl⟩ := List.getElem_of_mem hrow
  have hz := h j hj
  rw [List_getD_eq_getElem M _ hj] at hz
  rw [Bool.not_eq_true, npAny, List.any_eq_false]
  intro x hx
  obtain ⟨i, hi, rfl⟩ := List.getElem_of_mem hx
  have := congrFun hz i
  unfold zv at this
  rw [List_getD_eq_getElem _ _ hi, Pi.zero_apply, ZMod.intCast_zmod_eq_zero_iff_dvd] at this
  have hr := hM _ hrow _ hx
  have := Int.eq_zero_of_dvd_of_nonneg_of_lt hr.1 hr.2 this
  simp [this]

/-- The loop of `compute_two_page_representatives` over the pieces. -/
theorem classFold_total (h : SSOK rnd E ρ) {n deg : ℕ} (hn : n < E.columns.length)
    (hpos : 0 < E.spx n) (hdeg : deg < E.rows) {nr m : ℕ} {cols : List (List ℤ)}
    (hnr : nr = (E.firstBars deg n).length) (hm : m = cols.length) :
    ∃ cyc C, E.cyc n deg = .ok cyc ∧ (spans cyc).foldlM (fun (acc : LChains) s =>
      if s.2.1 < s.2.2 then do
        let h0 ← E.hom0 n s.1 deg
        let rows ← localRows h0.coords nr cols s.2.1 s.2.2
        acc.addEntry s.1 (List.range m) rows
      else .ok acc) (LChains.zeros (E.spx n)) = .ok C := by
  obtain ⟨hcy, -, -⟩ := h.firstPage (n := n) (deg := deg) hn hpos hdeg
  rw [h.firstBars_length' hn hdeg, h.pageOne_eq hn hdeg] at hnr
  refine ⟨runningSums 0 (E.dimList n deg) ++ [0], ?_⟩
  rw [hcy, SSOK.spans_cyc, List.foldlM_map]
  obtain ⟨C, hC, -⟩ := foldlM_range_inv (fun (acc : LChains) k =>
      if E.classStart n deg k < E.classStart n deg (k + 1) then do
        let h0 ← E.hom0 n k deg
        let rows ← localRows h0.coords nr cols (E.classStart n deg k) (E.classStart n deg (k + 1))
        acc.addEntry k (List.range m) rows
      else .ok acc) (fun _ acc => acc.length = E.spx n) (E.spx n) (LChains.zeros (E.spx n))
    (by simp [LChains.zeros]) (by
      intro k hk acc hacc
      obtain ⟨o, pts, v, im, hom, L⟩ := h.liftData hn hk hdeg.le
      have hcl := L.classes_eq
      have hmono := classStart_mono (E := E) n deg (Nat.succ_le_of_lt hk)
      rw [Nat.succ_eq_add_one] at hmono
      split
      · next hlt =>
        have hd0 : 0 < hom.dim := by rw [classStart_succ] at hlt; omega
        have e : hom.liftCols = hom.coords.cols := by unfold Basis.liftCols; rw [if_pos hd0]
        have hnc : hom.coords.ncols = hom.dim := by
          unfold Mat.ncols; rw [← e, L.hom_ok.len]
        have hrows : localRows hom.coords nr cols (E.classStart n deg k) (E.classStart n deg (k + 1)) =
            .ok (cols.map fun c => mulVec hom.coords (slice c (E.classStart n deg k)
              (E.classStart n deg (k + 1)))) := by
          unfold localRows
          rw [if_pos]
          rw [hnc]
          rw [classStart_succ] at hmono ⊢
          omega
        rw [L.hom0]
        simp only [bind, Except.bind, hrows]
        unfold LChains.addEntry
        rw [if_neg (by simp [hm])]
        split
        · exact ⟨_, rfl, hacc⟩
        · rw [if_neg (by omega)]
          exact ⟨_, rfl, by rw [List.length_set]; exact hacc⟩
      · exact ⟨_, rfl, hacc⟩)
  exact ⟨C, rfl, hC⟩

/-- The coefficients found for a combination of classes in the kernel of the first differential
vanish. -/
theorem kernel_lift (h : SSOK rnd E ρ) {n deg : ℕ} (hn : n + 1 < E.columns.length)
    (hpos : 0 < E.spx (n + 1)) (hdeg : deg < E.rows) {m : ℕ} {y : ℕ → ℕ → ZMod E.p} {R : List α}
    (hR : R.length = m) {C : LChains} (hC : ChainIs E (n + 1) deg m (fun k g => E.fam (n + 1) deg k (y g)) C)
    (hy : ∀ (g : ℕ) (r : α), R[g]? = some r → r < E.maxR ∧ E.BornBy (n + 1) deg (y g) r ∧
      ∀ M, firstDifferential E n deg = .ok M →
        barRestr E.p (E.firstBars deg (n + 1)) r (y g) ∈
          kerAt E.p (E.firstBars deg (n + 1)) (E.firstBars deg n) M r) :
    ∃ out, cechDiffAndLift E n deg C R = .ok out ∧ anyRows out.1 = false ∧
      (∀ e ∈ out.2, ∀ g ∈ e.ref, g < m) ∧ out.2.WF (E.widths n (deg + 1)) := by
  obtain ⟨D, hD⟩ := h.hasDiff n (by omega)
  have hmaxR : ∀ r ∈ R, r < E.maxR := by
    intro r hr
    obtain ⟨g, hg⟩ := List.mem_iff_getElem?.1 hr
    exact (hy g r hg).1
  obtain ⟨C', B, lift, c1, c2, c3, c4, c5, c6, c7, c8, c9⟩ := cechDiffAndLift_spec h hD hn hpos hdeg hC.wf
    hmaxR (by rw [hR]; exact hC.refs) (by
      intro g r hr l hl
      have hg : g < m := by rw [← hR]; exact (List.getElem?_eq_some_iff.1 hr).1
      rw [hC.val l hl g hg]
      obtain ⟨f1, f2⟩ := fam_cycle h hn hdeg (hy g r hr).2.1 hl
      obtain ⟨o, pts, ho, -⟩ := h.piece (n + 1) hn l hl
      rw [bd_eq ho] at f2
      exact ⟨⟨o, ho, f2⟩, f1⟩)
  have hC' := cechDiff_chain h hD hn hpos hdeg.le hC c1
  have hrefs := cechDiffAndLift_refs c2
  rw [hR] at hrefs
  refine ⟨_, c2, ?_, hrefs, c5⟩
  refine anyRows_of_zv h.prime.pos (fun row hr => (c4 row hr).2) fun g hg => ?_
  have hgR : g < R.length := by rw [← c3]; exact hg
  obtain ⟨r, hr⟩ : ∃ r, R[g]? = some r := ⟨_, List.getElem?_eq_getElem hgR⟩
  obtain ⟨hrm, hborn, hker⟩ := hy g r hr
  set x := zv E.p (B.getD g []) with hx
  have hlen : (B.getD g []).length = E.classStart n deg (E.spx n) := by
    rw [List_getD_eq_getElem _ _ hg]; exact (c4 _ (List.getElem_mem hg)).1
  have hxlt : ∀ i, x i ≠ 0 → i < E.classStart n deg (E.spx n) := by
    intro i hi
    by_contra hc
    apply hi
    rw [hx]
    unfold zv
    rw [getD_eq_zero_of_le (B.getD g []) (by omega)]
    simp
  have hbx : E.BornBy n deg x r := by
    intro i hi
    obtain ⟨k, hk, c, hc, rfl⟩ := class_index _ _ _ _ (hxlt i hi)
    obtain ⟨o, hom, ho, hh, -, hb⟩ := (c8 k hk (by omega) g r hr).closes
    obtain ⟨hom', hh', hl, hcl⟩ := h.hom0_ok (n := n) (by omega) hdeg hk
    obtain rfl : hom = hom' := Except.ok.inj (hh.symm.trans hh')
    obtain ⟨b, hb', hbr⟩ := hb c (by omega) hi
    exact ⟨b, by rw [h.firstBars_get (by omega) hdeg hk hh (by omega)]; exact hb', hbr⟩
  obtain ⟨M, hM⟩ : ∃ M, firstDifferential E n deg = .ok M := by
    obtain ⟨M, hM, -⟩ := firstDifferential_spec h hD hn hdeg
    exact ⟨M, hM⟩
  obtain ⟨f1, w, f2⟩ := fam_first h hD hn hdeg hM hborn
  have hzero : barRestr E.p (E.firstBars deg n) r (x - M.mulVecL E.p (y g)) = 0 := by
    refine fam_dead h (by omega) hdeg hrm (BornBy.sub hbx f1)
      (w := fun k => if E.classes n deg k = 0 then 0 else (fun j => (lift.val k g j : ZMod E.p)) - w k)
      fun k hk => ?_
    by_cases h0 : E.classes n deg k = 0
    · simp only [h0, if_true]
      refine ⟨fun i hi => absurd rfl hi, ?_⟩
      rw [map_zero]
      change ∑ a ∈ range (E.classes n deg k), _ = _
      rw [h0, Finset.sum_range_zero]
    · simp only [h0, if_false]
      have zz := c8 k hk (Nat.pos_of_ne_zero h0) g r hr
      obtain ⟨o, hom, ho, hh, hcl, -⟩ := zz.closes
      refine ⟨PresentAt.sub zz.present (f2 k hk).1, ?_⟩
      rw [map_sub, map_sub, ← (f2 k hk).2, fam_eq hh, ← hcl, hC'.val k hk g (by omega), ← bd_eq ho]
      abel
  rw [map_sub, sub_eq_zero] at hzero
  have hMy : barRestr E.p (E.firstBars deg n) r (M.mulVecL E.p (y g)) = 0 := by
    rw [← first_dead h hn hdeg hM hborn]
    have := (hker M hM).2
    have e : morAt E.p (E.firstBars deg (n + 1)) (E.firstBars deg n) M r
        (barRestr E.p (E.firstBars deg (n + 1)) r (y g)) = 0 := this
    unfold morAt at e
    rw [LinearMap.comp_apply, LinearMap.comp_apply] at e
    have e2 : barRestr E.p (E.firstBars deg (n + 1)) r (barRestr E.p (E.firstBars deg (n + 1)) r (y g)) =
        barRestr E.p (E.firstBars deg (n + 1)) r (y g) := by
      unfold barRestr; rw [restr_restr]
    rwa [e2] at e
  rw [hMy] at hzero
  funext i
  by_contra hne
  obtain ⟨b, hb, hbr⟩ := hbx i hne
  obtain ⟨k, hk, hom, a, hh, ha, hba, rfl⟩ := h.firstBars_class (by omega) hdeg hb
  rcases lt_or_ge r b.2 with hlt | hge
  · apply hne
    have := congrFun hzero (E.classStart n deg k + a)
    exact (restr_apply_pos (K := ZMod E.p) (x := x) ⟨b, hb, hbr, hlt⟩).symm.trans this
  · exact hne (c9 k hk g r hr hom hh a b hba hge)

/-- `compute_two_page_representatives` succeeds on generators which are in the kernel of the first
differential when they are born. -/
theorem computeTwoPage_total (h : SSOK rnd E ρ) {n deg : ℕ} (hn : n < E.columns.length)
    (hdeg : deg < E.rows) {S : SSt α} {H : Basis α} (hS : (S.hom 1 n deg).basis = H)
    (hd : H.dim = H.barcode.length) (hfb : H.barcode ≠ [] → E.firstBars deg n ≠ [])
    (hmat : H.barcode ≠ [] → MatOK E.p (E.firstBars deg n).length H.barcode.length H.coords)
    (hy : ∀ (g : ℕ) (b : α × α), H.barcode[g]? = some b → b.1 < E.maxR ∧
      E.BornBy n deg (H.coords.zcol E.p g) b.1 ∧ ∀ k, n = k + 1 → ∀ M, firstDifferential E k deg = .ok M →
        barRestr E.p (E.firstBars deg n) b.1 (H.coords.zcol E.p g) ∈
          kerAt E.p (E.firstBars deg n) (E.firstBars deg k) M b.1) :
    ∃ S', computeTwoPage E S n deg = .ok S' ∧ (H.dim ≠ 0 → ∀ C ∈ S'.reps 1 n deg,
      (∃ ws, C.WF ws) ∧ ∀ e ∈ C, ∀ g ∈ e.ref, g < H.dim) := by
  unfold computeTwoPage
  rw [hS]
  dsimp only
  by_cases h0 : H.dim = 0
  · rw [if_pos h0]
    exact ⟨S, rfl, fun hc => absurd h0 hc⟩
  rw [if_neg h0]
  have hne : H.barcode ≠ [] := by
    intro e; rw [hd, e] at h0; exact h0 rfl
  have hm := hmat hne
  have hpos : 0 < E.spx n := by
    by_contra hc
    exact hfb hne (h.firstBars_empty hn (by omega))
  have hml : H.dim = H.coords.cols.length := by rw [hd, hm.ncols]
  obtain ⟨cyc, C, c1, c2⟩ := classFold_total h hn hpos hdeg (nr := H.coords.nrows) (m := H.dim)
    (cols := H.coords.cols) hm.rows hml
  have hC := classFold_spec h hn hpos hdeg (by rw [hm.rows]; exact hm.len) hml c1 c2
  rw [c1, ok_bind, c2, ok_bind]
  cases n with
  | zero =>
    rw [if_pos rfl]
    refine ⟨_, rfl, fun _ X hX => ?_⟩
    simp only [upd, and_self, if_true, List.mem_singleton] at hX
    subst hX
    exact ⟨⟨_, hC.wf⟩, hC.refs⟩
  | succ n =>
    rw [if_neg (by omega), Nat.add_sub_cancel]
    obtain ⟨out, o1, o2, o3, o4⟩ := kernel_lift h hn hpos hdeg (m := H.dim)
      (y := fun g => H.coords.zcol E.p g) (R := H.barcode.map Prod.fst) (by rw [List.length_map, hd]) hC (by
        intro g r hr
        rw [List.getElem?_map] at hr
        obtain ⟨b, hb, rfl⟩ := Option.map_eq_some_iff.1 hr
        obtain ⟨y1, y2, y3⟩ := hy g b hb
        exact ⟨y1, y2, y3 n rfl⟩)
    rw [o1, ok_bind, o2, if_neg (by simp)]
    refine ⟨_, rfl, fun _ X hX => ?_⟩
    simp only [upd, and_self, if_true, List.mem_cons, List.not_mem_nil, or_false] at hX
    rcases hX with rfl | rfl
    · exact ⟨⟨_, hC.wf⟩, hC.refs⟩
    · exact ⟨⟨_, o4⟩, o3⟩

end

end Permaviss
