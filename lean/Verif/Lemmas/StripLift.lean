import Verif.Lemmas.StripReps

/-!
# `first_page_lift`
-/

namespace Permaviss

open Finset

attribute [-instance] instMulZeroClassOfSemiring

section

variable {α : Type} [LinearOrder α] [Zero α] {rnd : α → α} {E : SSEnv α} {ρ : List ℕ → α}

/-- The rows of a piece in the result of `first_page_lift`. -/
def flRow (total w : ℕ) (ref : List ℕ) (out : Option (Mat × Mat)) (g : ℕ) : List ℤ :=
  match out with
  | some gb => if 0 < gb.2.nrows then (scatterBetas total w ref gb.2.cols).getD g []
      else List.replicate w 0
  | none => List.replicate w 0

/-- The chain of a piece in the result of `first_page_lift`. -/
def flEnt (P : Mat) (ref : List ℕ) (out : Option (Mat × Mat)) : LEntry :=
  match out with
  | some gb => if 0 < gb.1.nrows then ⟨ref, gb.1.cols.map (mulVec P)⟩ else LEntry.empty
  | none => LEntry.empty

/-- The computation of a piece in `first_page_lift`. -/
def flRun (E : SSEnv α) (n deg : ℕ) (C : LChains) (R : List α) (idx : ℕ) :
    Except PyErr (Option (Mat × Mat)) := do
  let e ← atE C idx
  if e.ref.length = 0 then pure none
  else do
    let radii ← gatherE R e.ref
    firstPageLocalLift E n deg e.coord radii idx

/-- The only cycle of piece `k` in degree `deg` is zero. -/
def SSEnv.NoCycles (E : SSEnv α) (ρ : List ℕ → α) (n k deg : ℕ) : Prop :=
  ∀ r < E.maxR, ∀ x : ℕ → ZMod E.p, E.IsCycleAt ρ n k deg x r → x = 0

/-- Properties of the result on piece `k`. -/
structure FLOut (E : SSEnv α) (ρ : List ℕ → α) (n deg k : ℕ) (R : List α) (e : LEntry)
    (P : Mat) (out : Option (Mat × Mat)) : Prop where
  width : ∀ g < R.length, (flRow R.length (E.classes n deg k) e.ref out g).length = E.classes n deg k
  reduced : ∀ g < R.length, ∀ x ∈ flRow R.length (E.classes n deg k) e.ref out g, 0 ≤ x ∧ x < (E.p : ℤ)
  wf : (flEnt P e.ref out).WF (E.G n k (deg + 1)).length
  refs : ∀ g ∈ (flEnt P e.ref out).ref, g ∈ e.ref
  zigzag : ∀ (g : ℕ) (r : α), R[g]? = some r → r < E.maxR →
    (E.NoCycles ρ n k deg → (fun j => (e.val g j : ZMod E.p)) = 0) →
    E.ZigZag ρ n deg k (fun j => (e.val g j : ZMod E.p)) r
      (-fun j => ((flEnt P e.ref out).val g j : ZMod E.p))
      (zv E.p (flRow R.length (E.classes n deg k) e.ref out g))

theorem zigzag_zero {n k deg : ℕ} {o : LocalOut α} {pts : List ℕ} {v : ℕ → ℕ → ZMod E.p}
    {im hom : Basis α} (L : LiftData rnd E ρ n k deg o pts v im hom) {r : α} {β : ℕ → ZMod E.p}
    (hβ : ∀ a < hom.dim, β a = 0) : E.ZigZag ρ n deg k 0 r 0 β := by
  refine ⟨⟨o, hom, L.piece, L.hom0, ?_, ?_⟩, ?_⟩
  · rw [map_zero, add_zero, Finset.sum_eq_zero]
    intro a ha
    rw [hβ a (mem_range.1 ha), zero_smul]
  · intro a ha hne; exact absurd (hβ a ha) hne
  · intro i hi; exact absurd rfl hi

theorem val_empty {e : LEntry} (he : e.ref = []) (g : ℕ) :
    (fun j => ((e.val g j : ℤ) : ZMod E.p)) = 0 := by
  funext j; rw [LEntry.val_neg (by rw [he]; simp)]; simp

/-- Values of the chain obtained by applying a matrix to the columns of another one. -/
theorem mulEntry_val {p : ℕ} {ref : List ℕ} {cols : List (List ℤ)} (hl : ref.length = cols.length)
    {P : Mat} {g : ℕ} (hg : g ∈ ref) :
    (fun j => ((LEntry.val ⟨ref, cols.map (mulVec P)⟩ g j : ℤ) : ZMod p)) =
      zv p (mulVec P (cols.getD (ref.idxOf g) [])) := by
  have ha : ref.idxOf g < ref.length := List.idxOf_lt_length_of_mem hg
  funext j
  unfold LEntry.val
  rw [LEntry.row_eq (e := ⟨ref, cols.map (mulVec P)⟩) hg]
  unfold rowOf
  dsimp only
  rw [getD_map_lt (by omega), List_getD_eq_getElem cols [] (by omega)]
  rfl

theorem flRun_spec (h : SSOK rnd E ρ) {n deg k : ℕ} (hn : n < E.columns.length) (hk : k < E.spx n)
    (hdeg : deg < E.rows) {C : LChains} (hC : C.WF (E.widths n deg)) {R : List α}
    (href : ∀ e ∈ C, ∀ g ∈ e.ref, g < R.length) {out : Option (Mat × Mat)}
    (hrun : flRun E n deg C R k = .ok out) :
    ∃ Q, E.preIm0 n k (deg + 1) = .ok Q ∧ FLOut E ρ n deg k R (C.getD k LEntry.empty) Q out := by
  obtain ⟨o, pts, v, im, hom, L⟩ := h.liftData (n := n) (idx := k) (deg := deg) hn hk hdeg.le
  have hcl := L.classes_eq
  have hp0 : (0 : ℤ) < E.p := by exact_mod_cast h.prime.pos
  obtain ⟨Q, hQ, hQc, hQr, hQw, hQb⟩ := L.preIm h.prime hdeg
  refine ⟨Q, hQ, ?_⟩
  have hkC : k < C.length := by rw [hC.length, widths_length]; exact hk
  have hew : (C.getD k LEntry.empty).WF (E.G n k deg).length := by
    have := hC.get (k := k) (by rw [widths_length]; exact hk)
    rwa [widths_getD E hk] at this
  have hrlt : ∀ g ∈ (C.getD k LEntry.empty).ref, g < R.length := href _ (getD_mem' hkC)
  unfold flRun at hrun
  rw [bind_ok] at hrun
  obtain ⟨e, he, hrun⟩ := hrun
  have hee : C.getD k LEntry.empty = e := by
    rw [List_getD_eq_getElem _ _ hkC]
    rw [atE_some (List.getElem?_eq_getElem hkC)] at he
    exact Except.ok.inj he
  rw [hee] at hew hrlt ⊢
  have hnone : (∀ (g : ℕ) (r : α), R[g]? = some r → r < E.maxR →
      (E.NoCycles ρ n k deg → (fun j => (e.val g j : ZMod E.p)) = 0) →
        (fun j => (e.val g j : ZMod E.p)) = 0) → FLOut E ρ n deg k R e Q none := by
    intro hz
    refine ⟨fun g _ => by simp [flRow], fun g _ x hx => ?_, empty_WF _, by simp [flEnt, LEntry.empty], ?_⟩
    · rw [flRow] at hx
      rw [List.eq_of_mem_replicate hx]
      exact ⟨le_rfl, hp0⟩
    · intro g r hr hrm hcy
      rw [hz g r hr hrm hcy]
      have : (-fun j => (((flEnt Q e.ref none).val g j : ℤ) : ZMod E.p)) = 0 := by
        rw [val_empty (by rfl), neg_zero]
      rw [this]
      exact zigzag_zero L fun a _ => by rw [flRow, zv_zeros]; rfl
  split at hrun
  · next h0 =>
    cases hrun
    exact hnone fun g r _ _ _ => val_empty (List.length_eq_zero_iff.1 h0) g
  next href0 =>
  rw [bind_ok] at hrun
  obtain ⟨radii, hrad', hrun⟩ := hrun
  rw [gatherE_ok' hrlt] at hrad'
  obtain rfl := Except.ok.inj hrad'
  have hrad : ∀ a : ℕ, (gather R e.ref)[a]? = (e.ref[a]?).bind fun g => R[g]? :=
    fun a => gather_getElem? hrlt a
  have hl : (gather R e.ref).length = e.coord.length := by
    rw [length_gather hrlt, hew.rows]
  have hne : gather R e.ref ≠ [] := by
    intro hc
    have := length_gather hrlt
    rw [hc] at this; simp at this; omega
  by_cases hd0 : im.dim = 0 ∧ hom.dim = 0
  · rw [L.none _ _ (Or.inr hd0)] at hrun
    cases hrun
    refine hnone fun g r _ _ hcy => hcy fun r hrm x hx => ?_
    obtain ⟨γ, β, hd⟩ := (L.decomposes_iff h.prime hdeg.le _ hrm).2 hx
    rw [hd.sum, hd0.1, hd0.2]
    simp
  rcases L.lift h.prime hl hne hd0 hew.width with
    ⟨herr, -⟩ | ⟨γ, β, hlift, ⟨g1, g2, g3, g4⟩, ⟨b1, b2, b3, b4⟩, hdec⟩
  · rw [herr] at hrun; cases hrun
  rw [hlift] at hrun
  cases hrun
  unfold Mat.ncols at g2 b2
  have hgl : e.ref.length = γ.cols.length := by rw [g2, hew.rows]
  have hbl : e.ref.length = β.cols.length := by rw [b2, hew.rows]
  have hrow : ∀ g < R.length, flRow R.length (E.classes n deg k) e.ref (some (γ, β)) g =
      if 0 < hom.dim ∧ g ∈ e.ref then β.cols.getD (e.ref.idxOf g) []
      else List.replicate (E.classes n deg k) 0 := by
    intro g hg
    simp only [flRow, b1]
    by_cases h1 : 0 < hom.dim
    · rw [if_pos h1, scatterBetas_getD hg]
      by_cases h2 : g ∈ e.ref
      · rw [if_pos h2, if_pos ⟨h1, h2⟩]
      · rw [if_neg h2, if_neg (fun hc => h2 hc.2)]
    · rw [if_neg h1, if_neg (fun hc => h1 hc.1)]
  refine ⟨?_, ?_, ?_, ?_, ?_⟩
  · intro g hg
    rw [hrow g hg]
    split
    · next hc =>
      rw [b3 _ (getD_mem' (by have := List.idxOf_lt_length_of_mem hc.2; omega)), b1, hcl]
    · simp
  · intro g hg x hx
    rw [hrow g hg] at hx
    split at hx
    · next hc =>
      exact b4 _ (getD_mem' (by have := List.idxOf_lt_length_of_mem hc.2; omega)) x hx
    · rw [List.eq_of_mem_replicate hx]
      exact ⟨le_rfl, hp0⟩
  · simp only [flEnt]
    split
    · refine ⟨hew.increasing, by simpa using hgl, fun r hr => ?_⟩
      obtain ⟨c, -, rfl⟩ := List.mem_map.1 hr
      rw [mulVec_length, hQr]
    · exact empty_WF _
  · simp only [flEnt]
    split
    · exact fun g hg => hg
    · simp [LEntry.empty]
  · intro g r hr hrm hcy
    have hgR : g < R.length := (List.getElem?_eq_some_iff.1 hr).1
    by_cases hg : g ∈ e.ref
    · set a := e.ref.idxOf g with ha
      have hal : a < e.ref.length := List.idxOf_lt_length_of_mem hg
      have hac : a < e.coord.length := by rw [← hew.rows]; exact hal
      have hga : e.ref[a]? = some g := by
        rw [List.getElem?_eq_getElem hal]
        exact congrArg some (List.getElem_idxOf hal)
      have hval : (fun j => (e.val g j : ZMod E.p)) = zv E.p e.coord[a] := by
        funext j
        unfold LEntry.val zv
        rw [LEntry.row_eq hg]
        unfold rowOf
        rw [← ha, List_getD_eq_getElem _ _ hac]
      have hd := hdec a _ r (List.getElem?_eq_getElem hac) (by rw [hrad, hga]; exact hr)
      rw [← hval] at hd
      have hzz := L.zigzag hQb hd
      have hw : (-fun j => (((flEnt Q e.ref (some (γ, β))).val g j : ℤ) : ZMod E.p)) =
          - ∑ k ∈ range im.dim, γ.z E.p k a • zv E.p (Q.cols.getD k []) := by
        congr 1
        by_cases him : 0 < im.dim
        · simp only [flEnt, g1, if_pos him]
          rw [mulEntry_val hgl hg, ← ha, zv_mulVec hQw, hQc]
          rfl
        · simp only [flEnt, g1, if_neg him]
          rw [val_empty (by rfl), Nat.eq_zero_of_not_pos him, Finset.sum_range_zero]
      rw [hw]
      refine hzz.congr fun b hb => ?_
      rw [hrow g hgR, if_pos ⟨by omega, hg⟩]
      rfl
    · have hz : (fun j => (e.val g j : ZMod E.p)) = 0 := by
        funext j; rw [LEntry.val_neg hg]; simp
      have hw : (-fun j => (((flEnt Q e.ref (some (γ, β))).val g j : ℤ) : ZMod E.p)) = 0 := by
        rw [neg_eq_zero]
        funext j
        rw [LEntry.val_neg]
        · simp
        · simp only [flEnt]
          split
          · exact hg
          · simp [LEntry.empty]
      rw [hz, hw]
      refine zigzag_zero L fun b _ => ?_
      rw [hrow g hgR, if_neg (fun hc => hg hc.2), zv_zeros]; rfl

/-- The rows of the result of `first_page_lift`. -/
theorem betaRow_flRow {n deg : ℕ} (total : ℕ) (C : LChains) (outs : List (Option (Mat × Mat))) (g : ℕ) :
    betaRow ((spans (runningSums 0 (E.dimList n deg) ++ [0])).map fun s =>
      match outs.getD s.1 none with
      | some gb => if 0 < gb.2.nrows then
          some (scatterBetas total (s.2.2 - s.2.1) ((C.getD s.1 LEntry.empty).ref) gb.2.cols)
        else none
      | none => none) (runningSums 0 (E.dimList n deg) ++ [0]) g =
      (List.range (E.spx n)).flatMap fun k =>
        flRow total (E.classes n deg k) (C.getD k LEntry.empty).ref (outs.getD k none) g := by
  unfold betaRow
  rw [SSOK.spans_cyc, List.flatMap_map]
  refine List.flatMap_congr fun k hk => ?_
  have hk' := List.mem_range.1 hk
  have hw : E.classStart n deg (k + 1) - E.classStart n deg k = E.classes n deg k := by
    rw [classStart_succ]; omega
  dsimp only
  rw [getD_map_lt (by simpa using hk'), List.getElem_map, List.getElem_range]
  dsimp only
  rw [hw]
  cases outs.getD k none with
  | none => rfl
  | some gb =>
    unfold flRow
    dsimp only
    by_cases hc : 0 < gb.2.nrows
    · rw [if_pos hc, if_pos hc]
    · rw [if_neg hc, if_neg hc]

theorem firstPageLift_pieces (h : SSOK rnd E ρ) {n deg : ℕ} (hn : n < E.columns.length)
    (hpos : 0 < E.spx n) (hdeg : deg < E.rows) {C : LChains} (hC : C.WF (E.widths n deg)) {R : List α}
    (href : ∀ e ∈ C, ∀ g ∈ e.ref, g < R.length) {out : List (List ℤ) × LChains}
    (hrun : firstPageLift E n deg C R = .ok out) :
    out.1.length = R.length ∧
    (∀ row ∈ out.1, row.length = E.classStart n deg (E.spx n) ∧ ∀ x ∈ row, 0 ≤ x ∧ x < (E.p : ℤ)) ∧
    out.2.WF (E.widths n (deg + 1)) ∧ (∀ e ∈ out.2, ∀ g ∈ e.ref, g < R.length) ∧
    ∀ (g : ℕ) (r : α), R[g]? = some r → r < E.maxR →
      ((∀ l < E.spx n, E.NoCycles ρ n l deg → (fun j => (C.val l g j : ZMod E.p)) = 0) →
        E.BornBy n deg (zv E.p (out.1.getD g [])) r) ∧
      ∀ k < E.spx n, (E.NoCycles ρ n k deg → (fun j => (C.val k g j : ZMod E.p)) = 0) → E.PresentAt ρ n k (deg + 1) (fun j => (out.2.val k g j : ZMod E.p)) r ∧
        (fun j => (C.val k g j : ZMod E.p)) = E.bd n k (deg + 1) (fun j => (out.2.val k g j : ZMod E.p)) +
          E.fam n deg k (zv E.p (out.1.getD g [])) := by
  have hwl := widths_length E n (deg + 1)
  unfold firstPageLift at hrun
  split at hrun
  · next hR =>
    cases hrun
    subst hR
    refine ⟨rfl, by simp, ?_, ?_, ?_⟩
    · refine LChains.WF.of (by simp [LChains.zeros, widths_length]) fun k hk => ?_
      rw [zeros_getD]; exact empty_WF _
    · intro e he
      rw [List.eq_of_mem_replicate he]
      simp [LEntry.empty]
    · intro g r hr; simp at hr
  rw [bind_ok] at hrun
  obtain ⟨outs, houts, hrun⟩ := hrun
  rw [bind_ok] at hrun
  obtain ⟨cyc, hcyc, hrun⟩ := hrun
  obtain ⟨hcy, -, -⟩ := h.firstPage (n := n) (deg := deg) hn hpos hdeg
  rw [hcy] at hcyc
  obtain rfl := Except.ok.inj hcyc
  rw [bind_ok] at hrun
  obtain ⟨lift, hlift, hrun⟩ := hrun
  cases hrun
  obtain ⟨g1, g2⟩ := mapM_ok_spec houts
  rw [List.length_range] at g1
  have hget : ∀ k < E.spx n, flRun E n deg C R k = .ok (outs.getD k none) := by
    intro k hk
    have := g2 k (by simpa using hk) (by omega)
    rw [List.getElem_range] at this
    rw [List_getD_eq_getElem _ _ (by omega), ← this]
    rfl
  have hfl := fun k (hk : k < E.spx n) => flRun_spec h hn hk hdeg hC href (hget k hk)
  choose Q hQ hflo using hfl
  rw [SSOK.spans_cyc] at hlift
  obtain ⟨l1, l2⟩ := foldPieces _ (fun k e => ∀ hk : k < E.spx n,
      e = flEnt (Q k hk) (C.getD k LEntry.empty).ref (outs.getD k none)) (by
    intro k hk acc acc' hacc hF h0
    dsimp only at hF
    revert hF
    cases ho : outs.getD k none with
    | none =>
      intro hF
      cases hF
      exact ⟨hacc, fun _ => by rw [h0]; rfl, fun _ _ => rfl⟩
    | some gb =>
      dsimp only
      intro hF
      split at hF
      · next him =>
        rw [bind_ok] at hF
        obtain ⟨P, hP, hF⟩ := hF
        rw [hQ k hk] at hP
        obtain rfl := Except.ok.inj hP
        split at hF
        swap
        · cases hF
        obtain ⟨a1, a2, a3, a4⟩ := addEntry_inv hF h0
        refine ⟨by rw [a2, hacc], fun _ => ?_, a4⟩
        rw [a3]
        simp only [flEnt, if_pos him]
      · next him =>
        cases hF
        refine ⟨hacc, fun _ => ?_, fun _ _ => rfl⟩
        rw [h0]
        simp only [flEnt, if_neg him]) hlift
  have hlget : ∀ k (hk : k < E.spx n), lift.getD k LEntry.empty =
      flEnt (Q k hk) (C.getD k LEntry.empty).ref (outs.getD k none) := fun k hk => l2 k hk hk
  have hrows : ∀ g < R.length, ∀ k < E.spx n,
      (flRow R.length (E.classes n deg k) (C.getD k LEntry.empty).ref (outs.getD k none) g).length =
        E.classes n deg k := fun g hg k hk => (hflo k hk).width g hg
  refine ⟨by simp, ?_, ?_, ?_, ?_⟩
  · intro row hm
    obtain ⟨g, hg, rfl⟩ := List.mem_map.1 hm
    have hg' := List.mem_range.1 hg
    erw [betaRow_flRow]
    refine ⟨blocks_length (hrows g hg'), fun x hx => ?_⟩
    obtain ⟨k, hk, hx'⟩ := List.mem_flatMap.1 hx
    exact (hflo k (List.mem_range.1 hk)).reduced g hg' x hx'
  · refine LChains.WF.of (by rw [hwl, l1]) fun k hk => ?_
    rw [hwl] at hk
    rw [widths_getD E hk]
    dsimp only
    rw [hlget k hk]
    exact (hflo k hk).wf
  · intro e he g hg
    obtain ⟨k, hk, rfl⟩ := List.getElem_of_mem he
    have hk' : k < E.spx n := by dsimp only at hk; omega
    have := hlget k hk'
    rw [List_getD_eq_getElem _ _ hk] at this
    rw [this] at hg
    exact href _ (getD_mem' (by rw [hC.length, widths_length]; exact hk')) g ((hflo k hk').refs g hg)
  · intro g r hr hrm
    have hgR : g < R.length := (List.getElem?_eq_some_iff.1 hr).1
    have hrow : ∀ k < E.spx n, ∀ a < E.classes n deg k,
        zv E.p (flRow R.length (E.classes n deg k) (C.getD k LEntry.empty).ref (outs.getD k none) g) a =
        zv E.p (((List.range R.length).map (betaRow ((spans (runningSums 0 (E.dimList n deg) ++ [0])).map
          fun s => match outs.getD s.1 none with
            | some gb => if 0 < gb.2.nrows then
                some (scatterBetas R.length (s.2.2 - s.2.1) ((C.getD s.1 LEntry.empty).ref) gb.2.cols)
              else none
            | none => none) (runningSums 0 (E.dimList n deg) ++ [0]))).getD g [])
          (E.classStart n deg k + a) := by
      intro k hk a ha
      rw [getD_map_lt (by simpa using hgR), List.getElem_range]
      erw [betaRow_flRow]
      unfold zv
      rw [SSEnv.classStart, blocks_get (hrows g hgR) hk ha]
    have hzz : ∀ k (hk : k < E.spx n),
        (E.NoCycles ρ n k deg → (fun j => (C.val k g j : ZMod E.p)) = 0) → E.ZigZag ρ n deg k (fun j => (C.val k g j : ZMod E.p)) r
        (-fun j => (lift.val k g j : ZMod E.p)) (zv E.p (flRow R.length (E.classes n deg k)
          (C.getD k LEntry.empty).ref (outs.getD k none) g)) := by
      intro k hk hc
      have := (hflo k hk).zigzag g r hr hrm hc
      rw [← hlget k hk] at this
      exact this
    dsimp only
    constructor
    · intro hcyc i hi
      by_cases hlt : i < E.classStart n deg (E.spx n)
      · obtain ⟨k, hk, a, ha, rfl⟩ := class_index _ _ _ _ hlt
        erw [← hrow k hk a ha] at hi
        obtain ⟨o, hom, ho, hh, -, hborn⟩ := (hzz k hk (hcyc k hk)).closes
        obtain ⟨hom', hh', hlen, hcl⟩ := h.hom0_ok (n := n) hn hdeg hk
        obtain rfl : hom = hom' := Except.ok.inj (hh.symm.trans hh')
        obtain ⟨b, hb, hbr⟩ := hborn a (by omega) hi
        exact ⟨b, by rw [h.firstBars_get hn hdeg hk hh (by omega)]; exact hb, hbr⟩
      · exfalso
        apply hi
        refine zv_of_le _ ?_
        rw [getD_map_lt (by simpa using hgR), List.getElem_range]
        erw [betaRow_flRow]
        erw [blocks_length (hrows g hgR)]
        exact Nat.le_of_not_lt hlt
    · intro k hk hc
      obtain ⟨o, hom, ho, hh, hcl, -⟩ := (hzz k hk hc).closes
      have hcl' : E.classes n deg k = hom.dim := by unfold SSEnv.classes; rw [hh]
      refine ⟨fun i hi => (hzz k hk hc).present i (by rw [Pi.neg_apply, neg_ne_zero]; exact hi), ?_⟩
      rw [bd_eq ho, fam_eq hh]
      have e1 : ∑ a ∈ range hom.dim, zv E.p (flRow R.length (E.classes n deg k)
          (C.getD k LEntry.empty).ref (outs.getD k none) g) a • hom.chain E.p a =
          ∑ a ∈ range hom.dim, zv E.p (((List.range R.length).map (betaRow ((spans (runningSums 0 (E.dimList n deg) ++ [0])).map
          fun s => match outs.getD s.1 none with
            | some gb => if 0 < gb.2.nrows then
                some (scatterBetas R.length (s.2.2 - s.2.1) ((C.getD s.1 LEntry.empty).ref) gb.2.cols)
              else none
            | none => none) (runningSums 0 (E.dimList n deg) ++ [0]))).getD g [])
          (E.classStart n deg k + a) • hom.chain E.p a :=
        Finset.sum_congr rfl fun a ha => by rw [hrow k hk a (by rw [hcl']; exact mem_range.1 ha)]
      rw [e1, map_neg] at hcl
      erw [← hcl]
      abel

/-- `first_page_lift` on chains whose columns are cycles. -/
theorem firstPageLift_spec (h : SSOK rnd E ρ) {n deg : ℕ} (hn : n < E.columns.length)
    (hpos : 0 < E.spx n) (hdeg : deg < E.rows) {C : LChains} (hC : C.WF (E.widths n deg)) {R : List α}
    (href : ∀ e ∈ C, ∀ g ∈ e.ref, g < R.length) {out : List (List ℤ) × LChains}
    (hrun : firstPageLift E n deg C R = .ok out) :
    out.1.length = R.length ∧
    (∀ row ∈ out.1, row.length = E.classStart n deg (E.spx n) ∧ ∀ x ∈ row, 0 ≤ x ∧ x < (E.p : ℤ)) ∧
    out.2.WF (E.widths n (deg + 1)) ∧ (∀ e ∈ out.2, ∀ g ∈ e.ref, g < R.length) ∧
    ∀ (g : ℕ) (r : α), R[g]? = some r → r < E.maxR →
      (∀ l < E.spx n, E.PresentAt ρ n l deg (fun j => (C.val l g j : ZMod E.p)) r ∧
        E.bd n l deg (fun j => (C.val l g j : ZMod E.p)) = 0) →
      E.BornBy n deg (zv E.p (out.1.getD g [])) r ∧
      ∀ k < E.spx n, E.PresentAt ρ n k (deg + 1) (fun j => (out.2.val k g j : ZMod E.p)) r ∧
        (fun j => (C.val k g j : ZMod E.p)) = E.bd n k (deg + 1) (fun j => (out.2.val k g j : ZMod E.p)) +
          E.fam n deg k (zv E.p (out.1.getD g [])) := by
  obtain ⟨o1, o2, o3, o4, o5⟩ := firstPageLift_pieces h hn hpos hdeg hC href hrun
  refine ⟨o1, o2, o3, o4, fun g r hr hrm hcyc => ?_⟩
  have hz : ∀ l < E.spx n, E.NoCycles ρ n l deg → (fun j => (C.val l g j : ZMod E.p)) = 0 := by
    intro l hl hno
    obtain ⟨o, pts, ho, -⟩ := h.piece n hn l hl
    have hc := hcyc l hl
    rw [bd_eq ho] at hc
    exact hno r hrm _ ⟨⟨o, ho, hc.2⟩, hc.1⟩
  obtain ⟨q1, q2⟩ := o5 g r hr hrm
  exact ⟨q1 hz, fun k hk => q2 k hk (hz k hk)⟩

end

end Permaviss
