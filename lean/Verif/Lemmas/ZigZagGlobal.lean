import Verif.Lemmas.ZigZagLocal

/-!
# `cech_diff_and_lift`, and the generators of the first page
-/

namespace Permaviss

open Finset

attribute [-instance] instMulZeroClassOfSemiring

section

variable {α : Type} [LinearOrder α] [Zero α] {rnd : α → α} {E : SSEnv α} {ρ : List ℕ → α}

theorem SSEnv.ZigZag.congr {n deg k : ℕ} {z : ℕ → ZMod E.p} {r : α} {w β β' : ℕ → ZMod E.p}
    (h : E.ZigZag ρ n deg k z r w β) (hβ : ∀ a < E.classes n deg k, β a = β' a) :
    E.ZigZag ρ n deg k z r w β' := by
  obtain ⟨⟨o, hom, h1, h2, h3, h4⟩, h5⟩ := h
  have hc : E.classes n deg k = hom.dim := by unfold SSEnv.classes; rw [h2]
  rw [hc] at hβ
  refine ⟨⟨o, hom, h1, h2, ?_, ?_⟩, h5⟩
  · rw [h3]
    exact Finset.sum_congr rfl fun a ha => by rw [hβ a (mem_range.1 ha)]
  · intro a ha hne
    exact h4 a ha (by rw [hβ a ha]; exact hne)

theorem zeros_getD (m k : ℕ) : (LChains.zeros m).getD k LEntry.empty = LEntry.empty := by
  unfold LChains.zeros
  rw [List.getD_eq_getElem?_getD, List.getElem?_replicate]
  split <;> rfl

theorem betaRow_eq (n deg : ℕ) (outs : List (Option (List (List Int) × LEntry))) (g : ℕ) :
    betaRow (outs.map fun o => o.map Prod.fst) (runningSums 0 (E.dimList n deg) ++ [0]) g =
      (List.range (E.spx n)).flatMap fun k => blockRow (E.classes n deg k) (outs.getD k none) g := by
  unfold betaRow
  rw [SSOK.spans_cyc, List.flatMap_map]
  congr 1
  funext k
  dsimp only
  have e : (outs.map fun o => o.map Prod.fst).getD k none = (outs.getD k none).map Prod.fst := by
    rw [List.getD_eq_getElem?_getD, List.getElem?_map, List.getD_eq_getElem?_getD]
    cases outs[k]? <;> rfl
  rw [e]
  cases hc : outs.getD k none with
  | none =>
    change List.replicate _ 0 = blockRow _ none g
    rw [blockRow, classStart_succ, Nat.add_sub_cancel_left]
  | some o => rfl

theorem cechDiffAndLift_spec_of (h : SSOK rnd E ρ) {n deg : ℕ} {D : Mat}
    (hD : E.nerveDiff[n]? = some D) (hn : n + 1 < E.columns.length) (hpos : 0 < E.spx (n + 1))
    (hdeg : deg < E.rows) {C : LChains} (hC : C.WF (E.widths (n + 1) deg))
    {R : List α} (hR : ∀ r ∈ R, r < E.maxR) (href : ∀ e ∈ C, ∀ g ∈ e.ref, g < R.length)
    (hcyc : ∀ k < E.spx n, ∀ e, cechDiffLocal E C n deg k = .ok e → ∀ (g : ℕ) (r : α), R[g]? = some r →
      E.IsCycleAt ρ n k deg (fun j => (e.val g j : ZMod E.p)) r) :
    ∃ C' B lift, cechDiff E n deg C = .ok C' ∧ cechDiffAndLift E n deg C R = .ok (B, lift) ∧
      B.length = R.length ∧
      (∀ row ∈ B, row.length = E.classStart n deg (E.spx n) ∧ ∀ x ∈ row, 0 ≤ x ∧ x < (E.p : ℤ)) ∧
      lift.WF (E.widths n (deg + 1)) ∧ (∀ e ∈ lift, ∀ r ∈ e.coord, ∀ x ∈ r, 0 ≤ x ∧ x < (E.p : ℤ)) ∧
      (∀ k < E.spx n, E.classes n deg k = 0 → lift.getD k LEntry.empty = LEntry.empty) ∧
      (∀ k < E.spx n, 0 < E.classes n deg k → ∀ (g : ℕ) (r : α), R[g]? = some r →
        E.ZigZag ρ n deg k (fun j => (C'.val k g j : ZMod E.p)) r
          (fun j => (lift.val k g j : ZMod E.p))
          (fun a => zv E.p (B.getD g []) (E.classStart n deg k + a))) ∧
      ∀ k < E.spx n, ∀ (g : ℕ) (r : α), R[g]? = some r → ∀ hom, E.hom0 n k deg = .ok hom →
        ∀ (a : ℕ) (b : α × α), hom.barcode[a]? = some b → b.2 ≤ r →
          zv E.p (B.getD g []) (E.classStart n deg k + a) = 0 := by
  have hposn : 0 < E.spx n := Nat.pos_of_ne_zero (h.spx_pos (by omega) hpos)
  obtain ⟨C', c1, c2, -, -, -⟩ := cechDiff_spec h hD hn hpos hdeg.le hC
  by_cases hR0 : R = []
  · subst hR0
    refine ⟨C', [], LChains.zeros (E.spx n), c1, ?_, rfl, by simp, ?_, ?_, ?_, ?_, ?_⟩
    · unfold cechDiffAndLift; rw [if_pos rfl]
    · refine LChains.WF.of (by simp [LChains.zeros, widths_length]) fun k hk => ?_
      rw [zeros_getD]; exact empty_WF _
    · intro e he
      rw [List.eq_of_mem_replicate he]
      simp [LEntry.empty]
    · intro k _ _; exact zeros_getD _ _
    · intro k _ _ g r hr; simp at hr
    · intro k _ g r hr; simp at hr
  have hloc := fun k (hk : k < E.spx n) =>
    cechDiffAndLiftLocal_spec_of h hD hn hpos hk hdeg hC hR href (hcyc k hk)
  obtain ⟨outs, houts⟩ := mapM_ok_of (f := cechDiffAndLiftLocal E R C n deg)
    (xs := List.range (E.spx n)) (by
      intro k hk
      obtain ⟨_, out, -, ho, -⟩ := hloc k (List.mem_range.1 hk)
      exact ⟨out, ho⟩)
  obtain ⟨g1, g2⟩ := mapM_ok_spec houts
  have hlen : outs.length = E.spx n := by simpa using g1
  have hget : ∀ k (hk : k < E.spx n),
      cechDiffAndLiftLocal E R C n deg k = .ok (outs.getD k none) := by
    intro k hk
    have := g2 k (by simpa using hk) (by omega)
    rw [List.getElem_range] at this
    rw [this, List_getD_eq_getElem _ _ (by omega)]
  have hCget : ∀ k < E.spx n, cechDiffLocal E C n deg k = .ok (C'.getD k LEntry.empty) := by
    intro k hk
    obtain ⟨q1, q2⟩ := mapM_ok_spec c1
    rw [List.length_range] at q1
    have := q2 k (by simpa using hk) (by omega)
    rw [List.getElem_range] at this
    rw [this, List_getD_eq_getElem _ _ (by omega)]
  have hzo : ∀ k < E.spx n, ZigOut E ρ n deg k R (fun g j => (C'.val k g j : ZMod E.p))
      (outs.getD k none) := by
    intro k hk
    obtain ⟨e, out, he, ho, hz⟩ := hloc k hk
    rw [hget k hk] at ho
    rw [hCget k hk] at he
    obtain rfl := Except.ok.inj he
    obtain rfl := Except.ok.inj ho
    exact hz
  obtain ⟨hcy, -, -⟩ := h.firstPage (n := n) (deg := deg) (by omega) hposn hdeg
  -- the entries of the lift
  let ent : ℕ → LEntry := fun k => liftEnt (outs.getD k none)
  have hent : ∀ k, (ent k).ref.length = (ent k).coord.length := by
    intro k
    by_cases hk : k < E.spx n
    · exact (hzo k hk).wf.rows
    · have : outs.getD k none = none := by
        rw [List.getD_eq_getElem?_getD, List.getElem?_eq_none (by omega)]; rfl
      simp only [ent, this]; rfl
  have hfold : (spans (runningSums 0 (E.dimList n deg) ++ [0])).foldlM (fun (acc : LChains) s =>
      match outs.getD s.1 none with
      | some o => acc.addEntry s.1 o.2.ref o.2.coord
      | none => .ok acc) (LChains.zeros (E.spx n)) = .ok ((List.range (E.spx n)).map ent) := by
    have hstep : (fun (acc : LChains) (s : ℕ × ℕ × ℕ) =>
        (match outs.getD s.1 none with
        | some o => acc.addEntry s.1 o.2.ref o.2.coord
        | none => .ok acc : Except PyErr LChains)) =
        fun acc s => acc.addEntry s.1 (ent s.1).ref (ent s.1).coord := by
      funext acc s
      simp only [ent]
      cases outs.getD s.1 none <;> rfl
    rw [hstep, SSOK.spans_cyc]
    have := foldlM_addEntry (Prod.fst : ℕ × ℕ × ℕ → ℕ) ent hent ((List.range (E.spx n)).map fun k =>
      (k, E.classStart n deg k, E.classStart n deg (k + 1))) 0 (by
        rw [List.map_map, List.length_map, List.length_range, List.range_eq_range']
        exact List.map_id _) (LChains.zeros (E.spx n)) (by simp [LChains.zeros])
    rw [this]
    simp
  have hrun : cechDiffAndLift E n deg C R = .ok ((List.range R.length).map
      (betaRow (outs.map fun o => o.map Prod.fst) (runningSums 0 (E.dimList n deg) ++ [0])),
      (List.range (E.spx n)).map ent) := by
    unfold cechDiffAndLift
    rw [if_neg hR0]
    simp only [houts, hcy, bind, Except.bind]
    erw [hfold]
    rfl
  have hrow : ∀ g < R.length, ∀ k < E.spx n,
      (blockRow (E.classes n deg k) (outs.getD k none) g).length = E.classes n deg k :=
    fun g hg k hk => (hzo k hk).width g hg
  refine ⟨C', _, _, c1, hrun, by simp, ?_, ?_, ?_, ?_, ?_, ?_⟩
  · intro row hm
    obtain ⟨g, hg, rfl⟩ := List.mem_map.1 hm
    have hg' := List.mem_range.1 hg
    rw [betaRow_eq]
    refine ⟨blocks_length (hrow g hg'), fun x hx => ?_⟩
    obtain ⟨k, hk, hx'⟩ := List.mem_flatMap.1 hx
    exact (hzo k (List.mem_range.1 hk)).reduced g hg' x hx'
  · refine LChains.WF.of (by simp [widths_length]) fun k hk => ?_
    rw [widths_length] at hk
    rw [widths_getD E hk, getD_map_lt (by simpa using hk), List.getElem_range]
    exact (hzo k hk).wf
  · intro e he
    obtain ⟨k, hk, rfl⟩ := List.mem_map.1 he
    exact (hzo k (List.mem_range.1 hk)).range
  · intro k hk h0
    rw [getD_map_lt (by simpa using hk), List.getElem_range]
    simp only [ent, (hzo k hk).skip h0]
    rfl
  · intro k hk h0 g r hr
    have hg : g < R.length := (List.getElem?_eq_some_iff.1 hr).1
    have hv : (fun j => (LChains.val ((List.range (E.spx n)).map ent) k g j : ZMod E.p)) =
        fun j => ((liftEnt (outs.getD k none)).val g j : ZMod E.p) := by
      funext j
      unfold LChains.val
      rw [getD_map_lt (by simpa using hk), List.getElem_range]
    rw [hv]
    refine ((hzo k hk).zigzag h0 g r hr).congr fun a ha => ?_
    rw [getD_map_lt (by simpa using hg), List.getElem_range, betaRow_eq]
    unfold zv
    rw [SSEnv.classStart, blocks_get (hrow g hg) hk ha]
  · intro k hk g r hr hom hh a b hb hbr
    have hg : g < R.length := (List.getElem?_eq_some_iff.1 hr).1
    have ha : a < E.classes n deg k := by
      obtain ⟨o, pts, v, im, hom', L⟩ := h.liftData (n := n) (by omega) hk hdeg.le
      have e := L.hom0
      rw [hh] at e; obtain rfl := Except.ok.inj e
      rw [L.classes_eq, ← L.hom_ok.bars]
      exact (List.getElem?_eq_some_iff.1 hb).1
    rw [← (hzo k hk).alive g r hr hom hh a b hb hbr, getD_map_lt (by simpa using hg),
      List.getElem_range, betaRow_eq]
    unfold zv
    rw [SSEnv.classStart, blocks_get (hrow g hg) hk ha]

theorem cechDiffAndLift_spec (h : SSOK rnd E ρ) {n deg : ℕ} {D : Mat}
    (hD : E.nerveDiff[n]? = some D) (hn : n + 1 < E.columns.length) (hpos : 0 < E.spx (n + 1))
    (hdeg : deg < E.rows) {C : LChains} (hC : C.WF (E.widths (n + 1) deg))
    {R : List α} (hR : ∀ r ∈ R, r < E.maxR) (href : ∀ e ∈ C, ∀ g ∈ e.ref, g < R.length)
    (hcyc : ∀ (g : ℕ) (r : α), R[g]? = some r → ∀ l < E.spx (n + 1),
      E.IsCycleAt ρ (n + 1) l deg (fun j => (C.val l g j : ZMod E.p)) r) :
    ∃ C' B lift, cechDiff E n deg C = .ok C' ∧ cechDiffAndLift E n deg C R = .ok (B, lift) ∧
      B.length = R.length ∧
      (∀ row ∈ B, row.length = E.classStart n deg (E.spx n) ∧ ∀ x ∈ row, 0 ≤ x ∧ x < (E.p : ℤ)) ∧
      lift.WF (E.widths n (deg + 1)) ∧ (∀ e ∈ lift, ∀ r ∈ e.coord, ∀ x ∈ r, 0 ≤ x ∧ x < (E.p : ℤ)) ∧
      (∀ k < E.spx n, E.classes n deg k = 0 → lift.getD k LEntry.empty = LEntry.empty) ∧
      (∀ k < E.spx n, 0 < E.classes n deg k → ∀ (g : ℕ) (r : α), R[g]? = some r →
        E.ZigZag ρ n deg k (fun j => (C'.val k g j : ZMod E.p)) r
          (fun j => (lift.val k g j : ZMod E.p))
          (fun a => zv E.p (B.getD g []) (E.classStart n deg k + a))) ∧
      ∀ k < E.spx n, ∀ (g : ℕ) (r : α), R[g]? = some r → ∀ hom, E.hom0 n k deg = .ok hom →
        ∀ (a : ℕ) (b : α × α), hom.barcode[a]? = some b → b.2 ≤ r →
          zv E.p (B.getD g []) (E.classStart n deg k + a) = 0 := by
  refine cechDiffAndLift_spec_of h hD hn hpos hdeg hC hR href fun k hk e' he' g r hr => ?_
  obtain ⟨e, he, hew, hered, herefs, heval⟩ := cechDiffLocal_spec h hD hn hpos hk hdeg.le hC
  rw [he] at he'
  obtain rfl := Except.ok.inj he'
  exact cech_isCycleAt h hD hn hk hdeg.le (hcyc g r hr) (fun j hj => heval g j hj) (fun j hj => entry_zero hew g hj)

/-! ## The generators -/

theorem class_index (n deg m b : ℕ) (hb : b < E.classStart n deg m) :
    ∃ l < m, ∃ a < E.classes n deg l, b = E.classStart n deg l + a := by
  induction m with
  | zero => simp [SSEnv.classStart] at hb
  | succ m ih =>
    rcases Nat.lt_or_ge b (E.classStart n deg m) with hc | hc
    · obtain ⟨l, hl, r⟩ := ih hc
      exact ⟨l, by omega, r⟩
    · rw [classStart_succ] at hb
      exact ⟨m, by omega, b - E.classStart n deg m, by omega, by omega⟩

theorem classStart_mono (n deg : ℕ) {k l : ℕ} (h : k ≤ l) :
    E.classStart n deg k ≤ E.classStart n deg l := by
  induction h with
  | refl => exact le_rfl
  | step _ ih => rw [Nat.succ_eq_add_one, classStart_succ]; omega

theorem class_index_unique {n deg k l a c : ℕ} (ha : a < E.classes n deg k)
    (hc : c < E.classes n deg l) (h : E.classStart n deg k + a = E.classStart n deg l + c) :
    k = l ∧ a = c := by
  rcases lt_trichotomy k l with hlt | rfl | hlt
  · have := classStart_mono (E := E) n deg (Nat.succ_le_of_lt hlt)
    rw [Nat.succ_eq_add_one, classStart_succ] at this
    omega
  · exact ⟨rfl, by omega⟩
  · have := classStart_mono (E := E) n deg (Nat.succ_le_of_lt hlt)
    rw [Nat.succ_eq_add_one, classStart_succ] at this
    omega

theorem SSOK.firstBars_get (h : SSOK rnd E ρ) {n deg : ℕ} (hn : n < E.columns.length)
    (hdeg : deg < E.rows) {l a : ℕ} (hl : l < E.spx n) {hom : Basis α}
    (hh : E.hom0 n l deg = .ok hom) (ha : a < hom.dim) :
    (E.firstBars deg n)[E.classStart n deg l + a]? = hom.barcode[a]? := by
  have hlen : ∀ k < E.spx n, (E.barsOf n deg k).length = E.classes n deg k := by
    intro k hk
    obtain ⟨o, pts, v, im, hom, L⟩ := h.liftData hn hk hdeg.le
    unfold SSEnv.barsOf SSEnv.classes
    rw [L.hom0]
    exact L.hom_ok.bars
  rw [(h.firstPage hn (by omega) hdeg).2.2]
  have hb : E.barsOf n deg l = hom.barcode := by unfold SSEnv.barsOf; rw [hh]
  have hc : E.classes n deg l = hom.dim := by unfold SSEnv.classes; rw [hh]
  have := flatMap_get (E.barsOf n deg) (List.range (E.spx n)) l l (by simp [hl]) a (by
    rw [hlen l hl, hc]; exact ha)
  rw [hb] at this
  rw [← this]
  congr 2
  rw [List.take_range, min_eq_left hl.le, SSEnv.classStart]
  have : ∀ m ≤ E.spx n, ((List.range m).map fun y => (E.barsOf n deg y).length).sum =
      ∑ k ∈ range m, E.classes n deg k := by
    intro m hm
    induction m with
    | zero => simp
    | succ m ih =>
      rw [List.range_succ, List.map_append, List.sum_append, ih (by omega), Finset.sum_range_succ,
        List.map_singleton, List.sum_singleton, hlen m (by omega)]
  rw [this l hl.le]

theorem SSOK.firstBars_length (h : SSOK rnd E ρ) {n deg : ℕ} (hn : n < E.columns.length)
    (hpos : 0 < E.spx n) (hdeg : deg < E.rows) :
    (E.firstBars deg n).length = E.classStart n deg (E.spx n) := by
  have hlen : ∀ k < E.spx n, (E.barsOf n deg k).length = E.classes n deg k := by
    intro k hk
    obtain ⟨o, pts, v, im, hom, L⟩ := h.liftData hn hk hdeg.le
    unfold SSEnv.barsOf SSEnv.classes
    rw [L.hom0]
    exact L.hom_ok.bars
  rw [(h.firstPage hn hpos hdeg).2.2, SSEnv.classStart]
  have : ∀ m ≤ E.spx n, ((List.range m).flatMap (E.barsOf n deg)).length =
      ∑ k ∈ range m, E.classes n deg k := by
    intro m hm
    induction m with
    | zero => simp
    | succ m ih =>
      rw [List.range_succ, List.flatMap_append, List.length_append, ih (by omega),
        Finset.sum_range_succ]
      simp [hlen m (by omega)]
  exact this _ le_rfl

/-- The generators of the first page, as chains. -/
theorem generatorChains_spec (h : SSOK rnd E ρ) {n deg : ℕ} (hn : n < E.columns.length)
    (hpos : 0 < E.spx n) (hdeg : deg < E.rows) :
    ∃ C, generatorChains E n deg = .ok C ∧ C.WF (E.widths n deg) ∧
      (∀ e ∈ C, ∀ g ∈ e.ref, g < E.classStart n deg (E.spx n)) ∧
      ∀ l < E.spx n, ∀ hom, E.hom0 n l deg = .ok hom → ∀ a < hom.dim, ∀ k < E.spx n,
        (fun j => (C.val k (E.classStart n deg l + a) j : ZMod E.p)) =
          if k = l then hom.chain E.p a else 0 := by
  have hdata := fun k (hk : k < E.spx n) => h.liftData (n := n) (idx := k) (deg := deg) hn hk hdeg.le
  obtain ⟨hcy, -, -⟩ := h.firstPage (n := n) (deg := deg) hn hpos hdeg
  let ent : ℕ → LEntry := fun k => match E.hom0 n k deg with
    | .ok B => if 0 < E.classes n deg k ∧ k < E.spx n then
        ⟨(List.range (E.classes n deg k)).map (· + E.classStart n deg k), B.coords.cols⟩ else LEntry.empty
    | .error _ => LEntry.empty
  have hE : ∀ k (hk : k < E.spx n) o pts v im hom, LiftData rnd E ρ n k deg o pts v im hom →
      ent k = if 0 < hom.dim then
        ⟨(List.range hom.dim).map (· + E.classStart n deg k), hom.coords.cols⟩ else LEntry.empty := by
    intro k hk o pts v im hom L
    simp only [ent, L.hom0, L.classes_eq, hk, and_true]
  have hcols : ∀ k o pts v im hom, LiftData rnd E ρ n k deg o pts v im hom → 0 < hom.dim →
      hom.coords.cols.length = hom.dim ∧ ∀ c ∈ hom.coords.cols, c.length = (E.G n k deg).length := by
    intro k o pts v im hom L h0
    have e : hom.liftCols = hom.coords.cols := by unfold Basis.liftCols; rw [if_pos h0]
    exact ⟨by rw [← e, L.hom_ok.len], by rw [← e]; exact L.hom_ok.width⟩
  have hentWF : ∀ k < E.spx n, (ent k).WF (E.G n k deg).length := by
    intro k hk
    obtain ⟨o, pts, v, im, hom, L⟩ := hdata k hk
    rw [hE k hk _ _ _ _ _ L]
    split
    · next h0 =>
      obtain ⟨e1, e2⟩ := hcols _ _ _ _ _ _ L h0
      refine ⟨?_, by simp [e1], e2⟩
      rw [List.pairwise_map]
      exact List.pairwise_lt_range.imp fun h => by omega
    · exact empty_WF _
  have hent : ∀ k, (ent k).ref.length = (ent k).coord.length := by
    intro k
    by_cases hk : k < E.spx n
    · exact (hentWF k hk).rows
    · simp only [ent, hk, and_false, if_false]
      cases E.hom0 n k deg <;> rfl
  have hfold : ∀ (S : List (ℕ × ℕ × ℕ)), (∀ s ∈ S, ∃ k < E.spx n,
      s = (k, E.classStart n deg k, E.classStart n deg (k + 1))) → ∀ acc : LChains,
      S.foldlM (fun (acc : LChains) s => if s.2.1 < s.2.2 then do
        let h ← E.hom0 n s.1 deg
        acc.addEntry s.1 ((List.range (s.2.2 - s.2.1)).map (· + s.2.1)) h.coords.cols
      else .ok acc) acc =
      S.foldlM (fun (acc : LChains) s => acc.addEntry s.1 (ent s.1).ref (ent s.1).coord) acc := by
    intro S
    induction S with
    | nil => intro _ acc; rfl
    | cons s S ih =>
      intro hS acc
      obtain ⟨k, hk, rfl⟩ := hS s (by simp)
      have hstep : (if E.classStart n deg k < E.classStart n deg (k + 1) then do
          let h ← E.hom0 n k deg
          acc.addEntry k ((List.range (E.classStart n deg (k + 1) - E.classStart n deg k)).map
            (· + E.classStart n deg k)) h.coords.cols
          else .ok acc : Except PyErr LChains) = acc.addEntry k (ent k).ref (ent k).coord := by
        obtain ⟨o, pts, v, im, hom, L⟩ := hdata k hk
        rw [hE k hk _ _ _ _ _ L, classStart_succ, L.classes_eq, Nat.add_sub_cancel_left, L.hom0]
        by_cases h0 : 0 < hom.dim
        · rw [if_pos (by omega), if_pos h0]; rfl
        · rw [if_neg (by omega), if_neg h0]; rfl
      rw [List.foldlM_cons, List.foldlM_cons]
      dsimp only
      rw [hstep]
      congr 1
      funext acc'
      exact ih (fun s hs => hS s (List.mem_cons_of_mem _ hs)) acc'
  have hrun : generatorChains E n deg = .ok ((List.range (E.spx n)).map ent) := by
    unfold generatorChains
    simp only [hcy, bind, Except.bind]
    have h1 := hfold (spans (runningSums 0 (E.dimList n deg) ++ [0])) (by
      rw [SSOK.spans_cyc]
      intro s hs
      obtain ⟨k, hk, rfl⟩ := List.mem_map.1 hs
      exact ⟨k, List.mem_range.1 hk, rfl⟩) (LChains.zeros (E.spx n))
    simp only [bind, Except.bind] at h1
    rw [h1, SSOK.spans_cyc]
    have := foldlM_addEntry (Prod.fst : ℕ × ℕ × ℕ → ℕ) ent hent ((List.range (E.spx n)).map fun k =>
      (k, E.classStart n deg k, E.classStart n deg (k + 1))) 0 (by
        rw [List.map_map, List.length_map, List.length_range, List.range_eq_range']
        exact List.map_id _) (LChains.zeros (E.spx n)) (by simp [LChains.zeros])
    rw [this]
    simp
  refine ⟨_, hrun, ?_, ?_, ?_⟩
  · refine LChains.WF.of (by simp [widths_length]) fun k hk => ?_
    rw [widths_length] at hk
    rw [widths_getD E hk, getD_map_lt (by simpa using hk), List.getElem_range]
    exact hentWF k hk
  · intro e he g hg
    obtain ⟨k, hk, rfl⟩ := List.mem_map.1 he
    have hk' := List.mem_range.1 hk
    obtain ⟨o, pts, v, im, hom, L⟩ := hdata k hk'
    rw [hE k hk' _ _ _ _ _ L] at hg
    split at hg
    · obtain ⟨a, ha, rfl⟩ := List.mem_map.1 hg
      have := classStart_mono (E := E) n deg (Nat.succ_le_of_lt hk')
      rw [Nat.succ_eq_add_one, classStart_succ, L.classes_eq] at this
      have := List.mem_range.1 ha
      omega
    · simp [LEntry.empty] at hg
  · intro l hl hom hh a ha k hk
    have hcl : E.classes n deg l = hom.dim := by unfold SSEnv.classes; rw [hh]
    obtain ⟨o, pts, v, im, hom', L⟩ := hdata k hk
    have hval : ∀ g j, LChains.val ((List.range (E.spx n)).map ent) k g j = (ent k).val g j := by
      intro g j
      unfold LChains.val
      rw [getD_map_lt (by simpa using hk), List.getElem_range]
    split
    · next hkl =>
      subst hkl
      have : hom' = hom := by have := L.hom0; rw [hh] at this; exact (Except.ok.inj this).symm
      subst this
      have h0 : 0 < hom'.dim := by omega
      have hek := hE k hk _ _ _ _ _ L
      rw [if_pos h0] at hek
      have hinc := (hentWF k hk).increasing
      have hlt : a < (ent k).ref.length := by rw [hek]; simpa using ha
      have hga : (ent k).ref[a] = E.classStart n deg k + a := by
        simp only [hek, List.getElem_map, List.getElem_range]; omega
      have hidx : (ent k).ref.idxOf (E.classStart n deg k + a) = a := by
        have := List.Nodup.idxOf_getElem (hinc.imp fun h => h.ne) a hlt
        rw [hga] at this
        exact this
      have hmem : E.classStart n deg k + a ∈ (ent k).ref := hga ▸ List.getElem_mem hlt
      funext j
      rw [hval]
      unfold LEntry.val
      rw [LEntry.row_eq hmem]
      unfold rowOf
      rw [hidx, hek]
      rfl
    · next hkl =>
      funext j
      rw [hval, LEntry.val_neg]
      · simp
      · intro hg
        rw [hE k hk _ _ _ _ _ L] at hg
        split at hg
        · obtain ⟨c, hc, he⟩ := List.mem_map.1 hg
          exact hkl (class_index_unique (E := E) (by rw [L.classes_eq]; exact List.mem_range.1 hc)
            (by rw [hcl]; exact ha) (by omega)).1
        · simp [LEntry.empty] at hg

end

end Permaviss
