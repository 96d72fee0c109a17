import Verif.Lemmas.StripLift
import Verif.Lemmas.LiftAlive
import Verif.Lemmas.TwoPageTotal

/-!
# When `first_page_lift` succeeds
-/

namespace Permaviss

open Finset

attribute [-instance] instMulZeroClassOfSemiring

section

variable {p : ℕ} {α : Type} [LinearOrder α]

/-- A zero column is left as it is by `gauss_col_rad`. -/
theorem gaussColRad_zero (hp : p.Prime) {A Red T : Mat} {R : List α} {start : ℕ}
    (hA : A.WellShaped) (hR : R.length = A.ncols) (hs : start ≤ A.ncols)
    (h : gaussColRad p A R start = .ok (Red, T)) {j k : ℕ} (hj1 : start ≤ j) (hj2 : j < A.ncols)
    (hk : k < start) (hz : colv p A j = 0) : T.get k j = 0 := by
  have hl := radAll_length (p := p) A R hR
  have hok := radAll_ok A R hR hp hA
  unfold gaussColRad at h
  simp only [bind, Except.bind] at h
  split at h
  · cases h
  rename_i out hout
  simp only [pure, Except.pure, Except.ok.injEq, Prod.mk.injEq] at h
  obtain ⟨rfl, rfl⟩ := h
  obtain ⟨ho1, ho2⟩ := mapM_ok_spec hout
  rw [List.length_drop, hl] at ho1
  have hlen1 : (((radAll p A R).take start).map Prod.snd).length = start := by
    simp [hl]; omega
  have hjo : j - start < out.length := by omega
  have hjd : j - start < ((radAll p A R).drop start).length := by simp [hl]; omega
  have hrun := ho2 (j - start) hjd hjo
  rw [List.getElem_drop] at hrun
  have hjj : start + (j - start) = j := by omega
  simp only [hjj] at hrun
  have hokj := hok _ (List.getElem_mem (l := radAll p A R) (n := j) (by omega))
  have hpzj := radAll_pz A R hR (p := p) (j := j) (by omega)
  have hgetT : (⟨A.cols.length, ((((radAll p A R).take start).map Prod.snd ++ out).map
      Prod.snd)⟩ : Mat).get k j = (out[j - start].2).getD k 0 := by
    simp only [Mat.get]
    congr 1
    rw [List_getD_eq_getElem _ _ (by simp [hl]; omega), List.getElem_map,
      List.getElem_append_right (by omega)]
    simp only [hlen1]
  have hpiv : indexPivot (radAll p A R)[j].2.1 = none := by
    rw [indexPivot_eq_none]
    intro i
    refine (hokj.red1.zv_eq_zero hp.pos i).mp ?_
    have := congrFun (congrArg Prod.fst hpzj) i
    simp only [pz] at this
    rw [this, hz]; rfl
  unfold radLoop at hrun
  rw [hpiv] at hrun
  have he := Except.ok.inj hrun
  rw [hgetT, ← he]
  apply (hokj.red2.zv_eq_zero hp.pos k).mp
  have := congrFun (congrArg Prod.snd hpzj) k
  simp only [pz] at this
  rw [this, Pi.single_eq_of_ne (by omega)]

end

section

variable {α : Type} [LinearOrder α] [Zero α] {rnd : α → α} {E : SSEnv α} {ρ : List ℕ → α}
  {n idx deg : ℕ} {o : LocalOut α} {pts : List ℕ} {v : ℕ → ℕ → ZMod E.p} {im hom : Basis α}

/-- Zero chains are lifted to zero. -/
theorem LiftData.zero (hp : E.p.Prime) (L : LiftData rnd E ρ n idx deg o pts v im hom)
    {coord : List (List Int)} {radii : List α} (hl : radii.length = coord.length)
    (h0 : ¬ (im.dim = 0 ∧ hom.dim = 0))
    (hw : ∀ r ∈ coord, r.length = (E.G n idx deg).length) {γ β : Mat}
    (h : firstPageLocalLift E n deg coord radii idx = .ok (some (γ, β))) {a : ℕ}
    (hac : a < coord.length) (hz : zv E.p (coord.getD a []) = 0) :
    (∀ k < im.dim, γ.z E.p k a = 0) ∧ ∀ k < hom.dim, β.z E.p k a = 0 := by
  have hne : radii ≠ [] := by rintro rfl; simp at hl; omega
  have hall : (coord.all fun r => r.length == (E.G n idx deg).length) = true := by
    rw [List.all_eq_true]; intro r hrm; rw [hw r hrm]; simp
  rw [L.eq coord radii hne h0, if_pos hall] at h
  have hnc : (liftMat (E.G n idx deg).length im hom coord).ncols = im.dim + hom.dim + coord.length := by
    unfold liftMat Mat.ncols
    rw [List.length_append, List.length_append, L.im_ok.len, L.hom_ok.len]
  have hA : (liftMat (E.G n idx deg).length im hom coord).WellShaped := by
    intro c hc
    unfold liftMat at hc
    rcases List.mem_append.1 hc with hc | hc
    · rcases List.mem_append.1 hc with hc | hc
      · exact L.im_ok.width c hc
      · exact L.hom_ok.width c hc
    · exact hw c hc
  have hR : (liftRad im hom radii).length = (liftMat (E.G n idx deg).length im hom coord).ncols := by
    rw [hnc]; unfold liftRad
    rw [List.length_append, List.length_append, L.im_ok.rads, L.hom_ok.rads, hl]
  cases hT : gaussColRad E.p (liftMat (E.G n idx deg).length im hom coord) (liftRad im hom radii)
    (im.dim + hom.dim) with
  | error e => rw [hT] at h; cases h
  | ok RT =>
  obtain ⟨Red, T⟩ := RT
  rw [hT] at h
  dsimp only at h
  obtain ⟨hγ, hβ⟩ := Prod.mk.inj (Option.some.inj (Except.ok.inj h))
  obtain ⟨t1, t2⟩ := gaussColRad_shape hp hA hR (by rw [hnc]; omega) hT
  rw [hnc] at t1 t2
  have hdl : (T.cols.drop (im.dim + hom.dim)).length = coord.length := by
    rw [List.length_drop, t1]; omega
  have hget : (T.cols.drop (im.dim + hom.dim)).getD a [] = T.cols.getD (im.dim + hom.dim + a) [] := by
    rw [List.getD_eq_getElem?_getD, List.getElem?_drop, List.getD_eq_getElem?_getD]
  rw [List_getD_eq_getElem _ _ (by rw [hdl]; exact hac)] at hget
  have hcz : colv E.p (liftMat (E.G n idx deg).length im hom coord) (im.dim + hom.dim + a) = 0 := by
    funext i
    exact ((liftMat_z L.im_ok L.hom_ok coord i).2.2 a).trans (congrFun hz i)
  have hT0 : ∀ k < im.dim + hom.dim, T.get k (im.dim + hom.dim + a) = 0 := fun k hk =>
    gaussColRad_zero hp hA hR (by rw [hnc]; omega) hT (by omega) (by rw [hnc]; omega) hk hcz
  constructor
  · intro k hk
    have e : γ.z E.p k a = - T.z E.p k (im.dim + hom.dim + a) := by
      rw [← hγ]
      unfold Mat.z Mat.get
      rw [List.map_map, getD_map_lt (by rw [hdl]; exact hac)]
      simp only [Function.comp, hget]
      rw [List.getD_eq_getElem?_getD, List.getElem?_take_of_lt (by omega),
        ← List.getD_eq_getElem?_getD, negMod_getD, ZMod.intCast_mod]
      push_cast; rfl
    rw [e]; unfold Mat.z; rw [hT0 k (by omega)]; simp
  · intro k hk
    have e : β.z E.p k a = - T.z E.p (im.dim + k) (im.dim + hom.dim + a) := by
      rw [← hβ]
      unfold Mat.z Mat.get
      rw [List.map_map, getD_map_lt (by rw [hdl]; exact hac)]
      simp only [Function.comp, hget]
      rw [List.getD_eq_getElem?_getD, List.getElem?_drop, List.getElem?_take_of_lt (by omega),
        ← List.getD_eq_getElem?_getD, negMod_getD, ZMod.intCast_mod]
      push_cast; rfl
    rw [e]; unfold Mat.z; rw [hT0 _ (by omega)]; simp

end

section

variable {α : Type} [LinearOrder α] [Zero α] {rnd : α → α} {E : SSEnv α} {ρ : List ℕ → α}

/-- What is known of the lift of the rows of a piece which are zero or cycles before the end. -/
structure FLGood (E : SSEnv α) (n deg k : ℕ) (R : List α) (e : LEntry) (P : Mat)
    (out : Option (Mat × Mat)) : Prop where
  shape : ∀ gb, out = some gb → 0 < gb.1.nrows → P.ncols = gb.1.nrows ∧ e.ref.length = gb.1.cols.length
  ref : (flEnt P e.ref out).ref = e.ref ∨ (flEnt P e.ref out).ref = []
  zero : ∀ g < R.length, (fun j => (e.val g j : ZMod E.p)) = 0 →
    zv E.p (flRow R.length (E.classes n deg k) e.ref out g) = 0 ∧
    (fun j => ((flEnt P e.ref out).val g j : ZMod E.p)) = 0
  alive : ∀ (g : ℕ) (r : α), R[g]? = some r → r < E.maxR → ∀ (hom : Basis α), E.hom0 n k deg = .ok hom →
    ∀ (a : ℕ) (b : α × α), hom.barcode[a]? = some b → b.2 ≤ r →
      zv E.p (flRow R.length (E.classes n deg k) e.ref out g) a = 0

theorem flRun_total (h : SSOK rnd E ρ) {n deg k : ℕ} (hn : n < E.columns.length) (hk : k < E.spx n)
    (hdeg : deg < E.rows) {C : LChains} (hC : C.WF (E.widths n deg)) {R : List α}
    (href : ∀ e ∈ C, ∀ g ∈ e.ref, g < R.length)
    (hcy : ∀ (g : ℕ) (r : α), R[g]? = some r →
      (fun j => ((C.getD k LEntry.empty).val g j : ZMod E.p)) = 0 ∨ (r < E.maxR ∧
        E.IsCycleAt ρ n k deg (fun j => ((C.getD k LEntry.empty).val g j : ZMod E.p)) r)) :
    ∃ out Q, flRun E n deg C R k = .ok out ∧ E.preIm0 n k (deg + 1) = .ok Q ∧
      FLGood E n deg k R (C.getD k LEntry.empty) Q out := by
  obtain ⟨o, pts, v, im, hom, L⟩ := h.liftData (n := n) (idx := k) (deg := deg) hn hk hdeg.le
  have hcl := L.classes_eq
  obtain ⟨Q, hQ, hQc, hQr, hQw, hQb⟩ := L.preIm h.prime hdeg
  have hkC : k < C.length := by rw [hC.length, widths_length]; exact hk
  have hew : (C.getD k LEntry.empty).WF (E.G n k deg).length := by
    have := hC.get (k := k) (by rw [widths_length]; exact hk)
    rwa [widths_getD E hk] at this
  have hrlt : ∀ g ∈ (C.getD k LEntry.empty).ref, g < R.length := href _ (getD_mem' hkC)
  have he : atE C k = .ok (C.getD k LEntry.empty) := by
    rw [atE_some (List.getElem?_eq_getElem hkC), List_getD_eq_getElem _ _ hkC]
  generalize C.getD k LEntry.empty = e at *
  have hnone : FLGood E n deg k R e Q none := by
    refine ⟨fun gb hgb => (by cases hgb), Or.inr rfl, fun g _ _ => ⟨by rw [flRow, zv_zeros], ?_⟩, ?_⟩
    · exact val_empty rfl g
    · intro g r _ _ hm _ a b _ _
      rw [flRow, zv_zeros]; rfl
  unfold flRun
  rw [he, ok_bind]
  by_cases href0 : e.ref.length = 0
  · rw [if_pos href0]
    exact ⟨none, Q, rfl, hQ, hnone⟩
  rw [if_neg href0, gatherE_ok' hrlt, ok_bind]
  have hrad : ∀ a : ℕ, (gather R e.ref)[a]? = (e.ref[a]?).bind fun g => R[g]? :=
    fun a => gather_getElem? hrlt a
  have hl : (gather R e.ref).length = e.coord.length := by
    rw [length_gather hrlt, hew.rows]
  have hne : gather R e.ref ≠ [] := by
    intro hc
    have := length_gather hrlt
    rw [hc] at this; simp at this; omega
  by_cases hd0 : im.dim = 0 ∧ hom.dim = 0
  · rw [L.none _ _ (Or.inr hd0)]
    exact ⟨none, Q, rfl, hQ, hnone⟩
  -- rows of the entry
  have hrowval : ∀ g (hg : g ∈ e.ref), (fun j => (e.val g j : ZMod E.p)) =
      zv E.p (e.coord.getD (e.ref.idxOf g) []) := by
    intro g hg
    funext j
    unfold LEntry.val zv
    rw [LEntry.row_eq hg]
    unfold rowOf
    rfl
  rcases L.lift h.prime hl hne hd0 hew.width with
    ⟨-, a, row, r, ha, hra, hnd⟩ | ⟨γ, β, hlift, ⟨g1, g2, g3, g4⟩, ⟨b1, b2, b3, b4⟩, hdec⟩
  · exfalso
    apply hnd
    rw [hrad] at hra
    have hal : a < e.ref.length := by
      rw [hew.rows]; exact (List.getElem?_eq_some_iff.1 ha).1
    rw [List.getElem?_eq_getElem hal] at hra
    have hidx : e.ref.idxOf e.ref[a] = a := by
      exact List.Nodup.idxOf_getElem (hew.increasing.imp (fun hab => ne_of_lt hab)) _ hal
    have hv := hrowval _ (List.getElem_mem hal)
    rw [hidx, List.getD_eq_getElem?_getD, ha, Option.getD_some] at hv
    rw [← hv]
    rcases hcy _ r hra with h0 | ⟨hrm, hc⟩
    · rw [h0]
      refine ⟨0, 0, ?_⟩
      constructor
      · simp
      · intro k _ hk; exact absurd rfl hk
      · intro k _ hk; exact absurd rfl hk
    · exact (L.decomposes_iff h.prime hdeg.le _ hrm).2 hc
  refine ⟨some (γ, β), Q, hlift, hQ, ?_⟩
  unfold Mat.ncols at g2 b2
  have hgl : e.ref.length = γ.cols.length := by rw [g2, hew.rows]
  have hrow : ∀ g < R.length, flRow R.length (E.classes n deg k) e.ref (some (γ, β)) g =
      if 0 < hom.dim ∧ g ∈ e.ref then β.cols.getD (e.ref.idxOf g) []
      else List.replicate (E.classes n deg k) 0 := by
    intro g hg
    simp only [flRow, b1]
    by_cases h1 : 0 < hom.dim
    · rw [if_pos h1, scatterBetas_getD hg]
      by_cases h2 : g ∈ e.ref
      · rw [if_pos h2, if_pos ⟨h1, h2⟩]
      · rw [if_neg h2, if_neg (fun hc => h2 hc.2)]
    · rw [if_neg h1, if_neg (fun hc => h1 hc.1)]
  refine ⟨?_, ?_, ?_, ?_⟩
  · intro gb hgb _
    cases hgb
    exact ⟨by rw [hQc, g1], hgl⟩
  · simp only [flEnt]
    split
    · exact Or.inl rfl
    · exact Or.inr rfl
  · intro g hg hz
    by_cases hm : g ∈ e.ref
    · have hac : e.ref.idxOf g < e.coord.length := by
        rw [← hew.rows]; exact List.idxOf_lt_length_of_mem hm
      rw [hrowval g hm] at hz
      obtain ⟨zγ, zβ⟩ := L.zero h.prime hl hd0 hew.width hlift hac hz
      constructor
      · rw [hrow g hg]
        split
        · funext a
          by_cases ha : a < hom.dim
          · exact zβ a ha
          · refine zv_of_le _ ?_
            rw [b3 _ (getD_mem' (by rw [b2]; exact hac)), b1]; omega
        · rw [zv_zeros]
      · by_cases him : 0 < im.dim
        · simp only [flEnt, g1, if_pos him]
          rw [mulEntry_val hgl hm, zv_mulVec hQw, hQc]
          refine Finset.sum_eq_zero fun c hc => ?_
          have := zγ c (mem_range.1 hc)
          unfold Mat.z Mat.get at this
          unfold zv
          rw [this, zero_smul]
        · simp only [flEnt, g1, if_neg him]
          exact val_empty rfl g
    · constructor
      · rw [hrow g hg, if_neg (fun hc => hm hc.2), zv_zeros]
      · funext j
        rw [LEntry.val_neg]
        · simp
        · simp only [flEnt]
          split
          · exact hm
          · simp [LEntry.empty]
  · intro g r hr hrm hom' hh' a b hb hbr
    obtain rfl : hom = hom' := Except.ok.inj (L.hom0.symm.trans hh')
    have hgR : g < R.length := (List.getElem?_eq_some_iff.1 hr).1
    rw [hrow g hgR]
    split
    · next hc =>
      have hal : e.ref.idxOf g < e.ref.length := List.idxOf_lt_length_of_mem hc.2
      exact L.alive h.prime hdeg hl hew.width hlift (a := e.ref.idxOf g) (r := r) (by
        rw [hrad, List.getElem?_eq_getElem hal, List.getElem_idxOf hal]; exact hr) hrm hb hbr
    · rw [zv_zeros]; rfl

theorem addEntry_ok {acc : LChains} {k : ℕ} (hk : k < acc.length) {ref : List ℕ} {coord : List (List ℤ)}
    (hl : ref.length = coord.length) : ∃ acc', acc.addEntry k ref coord = .ok acc' := by
  unfold LChains.addEntry
  rw [if_neg (by simp [hl])]
  split
  · exact ⟨_, rfl⟩
  · rw [if_neg (by omega)]; exact ⟨_, rfl⟩

/-- The rows and the pieces of the result of `first_page_lift`. -/
theorem firstPageLift_inv (h : SSOK rnd E ρ) {n deg : ℕ} (hn : n < E.columns.length)
    (hpos : 0 < E.spx n) (hdeg : deg < E.rows) {C : LChains} {R : List α} (hR : R ≠ [])
    {outs : ℕ → Option (Mat × Mat)} {Q : ℕ → Mat}
    (hget : ∀ k < E.spx n, flRun E n deg C R k = .ok (outs k))
    (hQ : ∀ k < E.spx n, E.preIm0 n k (deg + 1) = .ok (Q k))
    (hsh : ∀ k < E.spx n, ∀ gb, outs k = some gb → 0 < gb.1.nrows →
      (Q k).ncols = gb.1.nrows ∧ (C.getD k LEntry.empty).ref.length = gb.1.cols.length) :
    ∃ out, firstPageLift E n deg C R = .ok out ∧ out.2.length = E.spx n ∧
      (∀ k < E.spx n, out.2.getD k LEntry.empty = flEnt (Q k) (C.getD k LEntry.empty).ref (outs k)) ∧
      out.1 = (List.range R.length).map fun g => (List.range (E.spx n)).flatMap fun k =>
        flRow R.length (E.classes n deg k) (C.getD k LEntry.empty).ref (outs k) g := by
  unfold firstPageLift
  rw [if_neg hR]
  have hm : (List.range (E.spx n)).mapM (flRun E n deg C R) = .ok ((List.range (E.spx n)).map outs) := by
    refine mapM_ok_map fun k hk => hget k (List.mem_range.1 hk)
  have ho : ∀ k < E.spx n, ((List.range (E.spx n)).map outs).getD k none = outs k := by
    intro k hk
    rw [getD_map_lt (by simpa using hk), List.getElem_range]
  obtain ⟨hcy, -, -⟩ := h.firstPage (n := n) (deg := deg) hn hpos hdeg
  erw [hm, ok_bind]
  rw [hcy, ok_bind, SSOK.spans_cyc, List.foldlM_map]
  obtain ⟨lift, hlift, l1, l2, -⟩ := foldlM_range_inv (fun (acc : LChains) k =>
      match ((List.range (E.spx n)).map outs).getD k none with
      | some gb =>
        if 0 < gb.1.nrows then do
          let P ← E.preIm0 n k (deg + 1)
          if P.ncols = gb.1.nrows then
            acc.addEntry k ((C.getD k LEntry.empty).ref) (gb.1.cols.map (mulVec P))
          else .error .valueError
        else .ok acc
      | none => .ok acc)
    (fun c acc => acc.length = E.spx n ∧ (∀ k < c, acc.getD k LEntry.empty =
      flEnt (Q k) (C.getD k LEntry.empty).ref (outs k)) ∧ ∀ k, c ≤ k → acc.getD k LEntry.empty = LEntry.empty)
    (E.spx n) (LChains.zeros (E.spx n))
    ⟨by simp [LChains.zeros], by simp, fun k _ => zeros_getD _ _⟩ (by
      intro k hk acc hacc
      obtain ⟨a1, a2, a3⟩ := hacc
      rw [ho k hk]
      have hsame : flEnt (Q k) (C.getD k LEntry.empty).ref (outs k) = LEntry.empty →
          acc.length = E.spx n ∧ (∀ l < k + 1, acc.getD l LEntry.empty =
          flEnt (Q l) (C.getD l LEntry.empty).ref (outs l)) ∧
          ∀ l, k + 1 ≤ l → acc.getD l LEntry.empty = LEntry.empty := by
        intro he
        refine ⟨a1, fun l hl => ?_, fun l hl => a3 l (by omega)⟩
        rcases Nat.lt_succ_iff_lt_or_eq.1 hl with hl | rfl
        · exact a2 l hl
        · rw [he, a3 l le_rfl]
      cases hout : outs k with
      | none => exact ⟨acc, rfl, hsame (by rw [hout]; rfl)⟩
      | some gb =>
        dsimp only
        by_cases him : 0 < gb.1.nrows
        · obtain ⟨s1, s2⟩ := hsh k hk gb hout him
          rw [if_pos him, hQ k hk, ok_bind, if_pos s1]
          obtain ⟨acc', hacc'⟩ := addEntry_ok (acc := acc) (k := k) (by rw [a1]; exact hk)
            (ref := (C.getD k LEntry.empty).ref) (coord := gb.1.cols.map (mulVec (Q k))) (by simpa using s2)
          obtain ⟨-, i2, i3, i4⟩ := addEntry_inv hacc' (a3 k le_rfl)
          refine ⟨acc', hacc', by rw [i2, a1], fun l hl => ?_, fun l hl => ?_⟩
          · rcases Nat.lt_succ_iff_lt_or_eq.1 hl with hl | rfl
            · rw [i4 l (by omega), a2 l hl]
            · rw [i3, hout]; simp only [flEnt, if_pos him]
          · rw [i4 l (by omega), a3 l (by omega)]
        · rw [if_neg him]
          exact ⟨acc, rfl, hsame (by rw [hout]; simp only [flEnt, if_neg him])⟩)
  erw [hlift]
  refine ⟨_, rfl, l1, l2, ?_⟩
  refine List.map_congr_left fun g hg => ?_
  rw [← SSOK.spans_cyc]
  erw [betaRow_flRow]
  refine List.flatMap_congr fun k hk => ?_
  rw [ho k (List.mem_range.1 hk)]

/-- Properties of the result of `first_page_lift` on rows which are zero or cycles before the end. -/
structure LiftGood (E : SSEnv α) (n deg : ℕ) (C : LChains) (R : List α)
    (out : List (List ℤ) × LChains) : Prop where
  zero : ∀ g < R.length, (∀ l < E.spx n, (fun j => (C.val l g j : ZMod E.p)) = 0) →
    zv E.p (out.1.getD g []) = 0 ∧ ∀ k < E.spx n, (fun j => (out.2.val k g j : ZMod E.p)) = 0
  alive : ∀ (g : ℕ) (r : α), R[g]? = some r → r < E.maxR → ∀ (i : ℕ) (b : α × α),
    (E.firstBars deg n)[i]? = some b → b.2 ≤ r → zv E.p (out.1.getD g []) i = 0
  refs : ∀ k < E.spx n, (out.2.getD k LEntry.empty).ref = (C.getD k LEntry.empty).ref ∨
    (out.2.getD k LEntry.empty).ref = []

theorem firstPageLift_total (h : SSOK rnd E ρ) {n deg : ℕ} (hn : n < E.columns.length)
    (hpos : 0 < E.spx n) (hdeg : deg < E.rows) {C : LChains} (hC : C.WF (E.widths n deg)) {R : List α}
    (href : ∀ e ∈ C, ∀ g ∈ e.ref, g < R.length)
    (hcyc : ∀ (g : ℕ) (r : α), R[g]? = some r →
      (∀ l < E.spx n, (fun j => (C.val l g j : ZMod E.p)) = 0) ∨ (r < E.maxR ∧
      ∀ l < E.spx n, E.PresentAt ρ n l deg (fun j => (C.val l g j : ZMod E.p)) r ∧
        E.bd n l deg (fun j => (C.val l g j : ZMod E.p)) = 0)) :
    ∃ out, firstPageLift E n deg C R = .ok out ∧ LiftGood E n deg C R out := by
  by_cases hR : R = []
  · subst hR
    refine ⟨([], LChains.zeros (E.spx n)), by unfold firstPageLift; rw [if_pos rfl], ?_, ?_, ?_⟩
    · intro g hg; simp at hg
    · intro g r hr; simp at hr
    · intro k _; right; dsimp only; rw [zeros_getD]; rfl
  have hfl := fun k (hk : k < E.spx n) => flRun_total h hn hk hdeg hC href (fun g r hr => by
    rcases hcyc g r hr with h0 | ⟨h1, h2⟩
    · exact Or.inl (h0 k hk)
    · obtain ⟨o, pts, ho, -⟩ := h.piece n hn k hk
      have hc := h2 k hk
      rw [bd_eq ho] at hc
      exact Or.inr ⟨h1, ⟨o, ho, hc.2⟩, hc.1⟩)
  choose outs Q hrun hQ hgood using hfl
  obtain ⟨outs', e1⟩ : ∃ f : ℕ → Option (Mat × Mat), ∀ k (hk : k < E.spx n), f k = outs k hk :=
    ⟨fun k => if hk : k < E.spx n then outs k hk else none, fun k hk => dif_pos hk⟩
  obtain ⟨Q', e2⟩ : ∃ f : ℕ → Mat, ∀ k (hk : k < E.spx n), f k = Q k hk :=
    ⟨fun k => if hk : k < E.spx n then Q k hk else ⟨0, []⟩, fun k hk => dif_pos hk⟩
  obtain ⟨out, h1, h2, h3, h4⟩ := firstPageLift_inv h hn hpos hdeg (C := C) hR (outs := outs') (Q := Q')
    (fun k hk => by rw [e1 k hk]; exact hrun k hk) (fun k hk => by rw [e2 k hk]; exact hQ k hk)
    (fun k hk => by rw [e1 k hk, e2 k hk]; exact (hgood k hk).shape)
  have hspec := firstPageLift_spec h hn hpos hdeg hC href h1
  have hlen : ∀ g < R.length, ∀ k < E.spx n, (flRow R.length (E.classes n deg k)
      (C.getD k LEntry.empty).ref (outs' k) g).length =
        E.classes n deg k := by
    intro g hg k hk
    rw [e1 k hk]
    obtain ⟨_, _, hf⟩ := flRun_spec h hn hk hdeg hC href (hrun k hk)
    exact hf.width g hg
  have hrow : ∀ g < R.length, ∀ k (hk : k < E.spx n), ∀ a < E.classes n deg k,
      zv E.p (out.1.getD g []) (E.classStart n deg k + a) =
      zv E.p (flRow R.length (E.classes n deg k) (C.getD k LEntry.empty).ref (outs k hk) g) a := by
    intro g hg k hk a ha
    rw [h4, getD_map_lt (by simpa using hg), List.getElem_range]
    unfold zv
    rw [SSEnv.classStart, blocks_get (hlen g hg) hk ha, e1 k hk]
  have hout : ∀ g < R.length, ∀ i, E.classStart n deg (E.spx n) ≤ i → zv E.p (out.1.getD g []) i = 0 := by
    intro g hg i hi
    refine zv_of_le _ ?_
    rw [(hspec.2.1 _ (getD_mem' (by rw [hspec.1]; exact hg))).1]
    exact hi
  refine ⟨out, h1, ?_, ?_, ?_⟩
  · intro g hg hz
    constructor
    · funext i
      rcases lt_or_ge i (E.classStart n deg (E.spx n)) with hi | hi
      · obtain ⟨k, hk, a, ha, rfl⟩ := class_index _ _ _ _ hi
        rw [hrow g hg k hk a ha, ((hgood k hk).zero g hg (hz k hk)).1]
        rfl
      · exact hout g hg i hi
    · intro k hk
      have := ((hgood k hk).zero g hg (hz k hk)).2
      unfold LChains.val
      rw [h3 k hk, e1 k hk, e2 k hk]
      exact this
  · intro g r hr hrm i b hb hbr
    have hg : g < R.length := (List.getElem?_eq_some_iff.1 hr).1
    rcases lt_or_ge i (E.classStart n deg (E.spx n)) with hi | hi
    · obtain ⟨k, hk, a, ha, rfl⟩ := class_index _ _ _ _ hi
      obtain ⟨hom, hh, hl, hcl⟩ := h.hom0_ok (n := n) hn hdeg hk
      rw [h.firstBars_get hn hdeg hk hh (by omega)] at hb
      rw [hrow g hg k hk a ha]
      exact (hgood k hk).alive g r hr hrm hom hh a b hb hbr
    · exact hout g hg i hi
  · intro k hk
    rw [h3 k hk, e1 k hk, e2 k hk]
    exact (hgood k hk).ref

end

end Permaviss
