import Verif.Lemmas.Cech

/-! The coordinates of the Čech differential. -/

namespace Permaviss

open Finset

attribute [-instance] instMulZeroClassOfSemiring

variable {α : Type} [LinearOrder α] [Zero α]

theorem mulVec_length (M : Mat) (v : List ℤ) : (mulVec M v).length = M.nrows := by simp [mulVec]

theorem list_sum_range (n : ℕ) (f : ℕ → ℤ) :
    ((List.range n).map f).sum = ∑ k ∈ range n, f k := by
  induction n with
  | zero => simp
  | succ n ih => simp [List.range_succ, Finset.sum_range_succ, ih]

theorem mulVec_getD (M : Mat) (v : List ℤ) {i : ℕ} (hi : i < M.nrows) :
    (mulVec M v).getD i 0 = ∑ k ∈ range M.ncols, M.get i k * v.getD k 0 := by
  unfold mulVec
  rw [getD_map_lt (by simpa using hi), list_sum_range]
  simp

/-- Rows added by reference. -/
theorem scatter_spec {w : ℕ} {refs : List ℕ} {acc : List (List ℤ)} {aref : List ℕ}
    {acoord : List (List ℤ)} (h : (LEntry.mk refs acc).WF w) (ha : (LEntry.mk aref acoord).WF w)
    (hsub : ∀ x ∈ aref, x ∈ refs) :
    scatterOk aref refs acoord = true ∧ (LEntry.mk refs (scatterRows aref refs acc acoord)).WF w ∧
      ∀ g j, (LEntry.mk refs (scatterRows aref refs acc acoord)).val g j =
        (LEntry.mk refs acc).val g j + (LEntry.mk aref acoord).val g j := by
  have hn : refs.Nodup := h.increasing.imp fun h => h.ne
  have hf : (refs.filter fun c => decide (c ∈ aref)) = aref :=
    filter_union_eq ha.increasing h.increasing hsub
  have hr : refs.length = acc.length := h.rows
  have har : aref.length = acoord.length := ha.rows
  have hrow : ∀ g ∈ refs, rowOf refs (scatterRows aref refs acc acoord) g =
      if g ∈ aref then addRow (rowOf refs acc g) (rowOf aref acoord g) else rowOf refs acc g := by
    intro g hg
    rw [scatterRows_rowOf aref refs _ _ hn hr.symm (by rw [hf, har]) hg, hf]
  have hl : ∀ g ∈ refs, (rowOf refs acc g).length = w := fun g hg =>
    h.width _ (rowOf_mem hr hg)
  have hla : ∀ g ∈ aref, (rowOf aref acoord g).length = w := fun g hg =>
    ha.width _ (rowOf_mem har hg)
  refine ⟨by unfold scatterOk; rw [hf]; simpa using har, ⟨h.increasing, ?_, ?_⟩, ?_⟩
  · rw [scatterRows_length]; exact hr
  · intro r hr'
    obtain ⟨g, hg, rfl⟩ := exists_rowOf hn (by rw [scatterRows_length]; exact hr) hr'
    rw [hrow g hg]
    split
    · next hga => rw [addRow_length, hl g hg, hla g hga]; simp
    · exact hl g hg
  · intro g j
    by_cases hg : g ∈ refs
    · have e : (⟨refs, scatterRows aref refs acc acoord⟩ : LEntry).row g =
          rowOf refs (scatterRows aref refs acc acoord) g := LEntry.row_eq hg
      have e' : (⟨refs, acc⟩ : LEntry).row g = rowOf refs acc g := LEntry.row_eq hg
      rw [LEntry.val, e, hrow g hg, LEntry.val, e']
      split
      · next hga =>
        have e'' : (⟨aref, acoord⟩ : LEntry).row g = rowOf aref acoord g := LEntry.row_eq hga
        rw [addRow_getD (by rw [hl g hg, hla g hga]), LEntry.val, e'']
      · next hga => rw [LEntry.val_neg (e := ⟨aref, acoord⟩) hga, add_zero]
    · have hga : g ∉ aref := fun h' => hg (hsub g h')
      rw [LEntry.val_neg (e := ⟨refs, _⟩) hg, LEntry.val_neg (e := ⟨refs, acc⟩) hg,
        LEntry.val_neg (e := ⟨aref, acoord⟩) hga]
      rfl

/-- Applying a function to every row. -/
theorem val_map_rows {e : LEntry} (he : e.ref.length = e.coord.length) (f : List ℤ → List ℤ) (g j : ℕ) :
    (LEntry.mk e.ref (e.coord.map f)).val g j =
      if g ∈ e.ref then (f (e.row g)).getD j 0 else 0 := by
  by_cases hg : g ∈ e.ref
  · rw [if_pos hg, LEntry.val, LEntry.row_eq (e := ⟨e.ref, e.coord.map f⟩) hg, LEntry.row_eq hg]
    unfold rowOf
    have hi : e.ref.idxOf g < e.coord.length := he ▸ List.idxOf_lt_length_of_mem hg
    rw [getD_map_lt hi, List_getD_eq_getElem e.coord _ hi]
  · rw [if_neg hg, LEntry.val_neg (e := ⟨e.ref, e.coord.map f⟩) hg]

theorem LEntry.row_length {w : ℕ} {e : LEntry} (he : e.WF w) {g : ℕ} (hg : g ∈ e.ref) :
    (e.row g).length = w := by
  rw [LEntry.row_eq hg]; exact he.width _ (rowOf_mem he.rows hg)

/-- Applying a matrix to every row. -/
theorem mulRows_spec {w : ℕ} {e : LEntry} (he : e.WF w) {M : Mat} (hM : M.ncols = w) :
    (LEntry.mk e.ref (e.coord.map (mulVec M))).WF M.nrows ∧
      ∀ g j, j < M.nrows → (LEntry.mk e.ref (e.coord.map (mulVec M))).val g j =
        ∑ i ∈ range w, M.get j i * e.val g i := by
  refine ⟨⟨he.increasing, by simpa using he.rows, ?_⟩, ?_⟩
  · intro r hr
    obtain ⟨r', -, rfl⟩ := List.mem_map.1 hr
    exact mulVec_length M r'
  · intro g j hj
    rw [val_map_rows he.rows]
    split
    · next hg => rw [mulVec_getD _ _ hj, hM]; rfl
    · next hg =>
      symm
      exact Finset.sum_eq_zero fun i _ => by rw [LEntry.val_neg hg, mul_zero]

/-! ## The environment -/

/-- What is known of the data on which the spectral sequence is computed.  `ρ` gives the radius of a
simplex. -/
structure SSOK (rnd : α → α) (E : SSEnv α) (ρ : List ℕ → α) : Prop where
  prime : E.p.Prime
  maxR : 0 < E.maxR
  hasDiff : ∀ n, n < E.columns.length → ∃ D, E.nerveDiff[n]? = some D
  shape : ∀ n D, E.nerveDiff[n]? = some D → D.nrows = E.spx n ∧ D.ncols = E.spx (n + 1)
  dd : ∀ n D D', E.nerveDiff[n]? = some D → E.nerveDiff[n + 1]? = some D' → ∀ k m,
    ∑ l ∈ range D.ncols, D.z E.p k l * D'.z E.p l m = 0
  piece : ∀ n < E.columns.length, ∀ k < E.spx n, ∃ o pts, E.piece n k = .ok o ∧ E.pts n k = .ok pts ∧
    PieceOK rnd E.p E.rows E.maxR ρ o pts
  mem : ∀ n < E.columns.length, ∀ k < E.spx n, ∀ pts, E.pts n k = .ok pts → ∀ deg ≤ E.rows, ∀ s,
    s ∈ E.G n k deg ↔ s.length = deg + 1 ∧ s.Pairwise (· < ·) ∧ (∀ v ∈ s, v ∈ pts) ∧ ρ s < E.maxR
  face : ∀ n D, E.nerveDiff[n]? = some D → n + 1 < E.columns.length → ∀ k < E.spx n,
    ∀ l < E.spx (n + 1), D.get k l ≠ 0 → ∀ pts pts', E.pts n k = .ok pts →
    E.pts (n + 1) l = .ok pts' → pts' ⊆ pts
  coface : ∀ n D, E.nerveDiff[n]? = some D → 0 < E.spx (n + 1) → ∀ k < E.spx n,
    ∃ l < E.spx (n + 1), D.get k l ≠ 0
  spx_pos : ∀ {n : ℕ}, n < E.columns.length → 0 < E.spx (n + 1) → E.spx n ≠ 0
  column : ∀ n < E.columns.length, ∃ c, E.columns[n]? = some c ∧ c.outs.length = E.spx n ∧
    addOutputFirst E.rows (E.spx n) c.outs = .ok c

section

variable {rnd : α → α} {ρ : List ℕ → α} {E : SSEnv α}

theorem SSOK.G_nodup (h : SSOK rnd E ρ) {n k : ℕ} (hn : n < E.columns.length) (hk : k < E.spx n)
    (deg : ℕ) : (E.G n k deg).Nodup := by
  obtain ⟨o, pts, ho, hpts, hP⟩ := h.piece n hn k hk
  have : E.G n k deg = o.glob pts deg := by simp only [SSEnv.G, ho, hpts]
  rw [this]; exact hP.glob_nodup deg

theorem SSOK.G_sub (h : SSOK rnd E ρ) {n : ℕ} {D : Mat} (hD : E.nerveDiff[n]? = some D)
    (hn : n + 1 < E.columns.length) {k l : ℕ} (hk : k < E.spx n) (hl : l < E.spx (n + 1))
    (hz : D.get k l ≠ 0) {deg : ℕ} (hdeg : deg ≤ E.rows) : E.G (n + 1) l deg ⊆ E.G n k deg := by
  obtain ⟨o, pts, ho, hpts, hP⟩ := h.piece n (by omega) k hk
  obtain ⟨o', pts', ho', hpts', hP'⟩ := h.piece (n + 1) hn l hl
  have hsub := h.face n D hD hn k hk l hl hz pts pts' hpts hpts'
  intro s hs
  rw [h.mem (n + 1) hn l hl pts' hpts' deg hdeg] at hs
  rw [h.mem n (by omega) k hk pts hpts deg hdeg]
  exact ⟨hs.1, hs.2.1, fun v hv => hsub (hs.2.2.1 v hv), hs.2.2.2⟩

theorem LChains.WF.length {ws : List ℕ} {C : LChains} (h : C.WF ws) : C.length = ws.length :=
  h.length_eq.symm

theorem LChains.WF.get {ws : List ℕ} {C : LChains} (h : C.WF ws) {k : ℕ} (hk : k < ws.length) :
    (C.getD k LEntry.empty).WF (ws.getD k 0) := by
  have hk' : k < C.length := by rw [h.length]; exact hk
  rw [List_getD_eq_getElem _ _ hk', List_getD_eq_getElem _ _ hk]
  exact List.forall₂_iff_get.1 h |>.2 k hk hk'

theorem widths_length (E : SSEnv α) (n deg : ℕ) : (E.widths n deg).length = E.spx n := by
  simp [SSEnv.widths]

theorem widths_getD (E : SSEnv α) {n deg k : ℕ} (hk : k < E.spx n) :
    (E.widths n deg).getD k 0 = (E.G n k deg).length := by
  unfold SSEnv.widths
  rw [getD_map_lt (by simpa using hk)]; simp

theorem LChains.WF.of {ws : List ℕ} {C : LChains} (hl : C.length = ws.length)
    (h : ∀ k, k < ws.length → (C.getD k LEntry.empty).WF (ws.getD k 0)) : C.WF ws := by
  refine List.forall₂_iff_get.2 ⟨hl.symm, fun i h1 h2 => ?_⟩
  have := h i h1
  rw [List_getD_eq_getElem _ _ h2, List_getD_eq_getElem _ _ h1] at this
  exact this

/-- The coefficient of simplex `j` of piece `k` of column `n` in the Čech differential of simplex `i`
of piece `l` of column `n + 1`. -/
def cechCoef (E : SSEnv α) (D : Mat) (n deg k l j i : ℕ) : ZMod E.p :=
  if (E.G n k deg)[j]? = (E.G (n + 1) l deg)[i]? then D.z E.p k l * (-1) ^ deg else 0

/-- One coface. -/
theorem cechAddCoface_spec (h : SSOK rnd E ρ) {n deg k : ℕ} {D : Mat}
    (hD : E.nerveDiff[n]? = some D) (hn : n + 1 < E.columns.length) (hk : k < E.spx n)
    (hdeg : deg ≤ E.rows) {C : LChains} (hC : C.WF (E.widths (n + 1) deg)) {refs : List ℕ} {l : ℕ}
    (hl : l < E.spx (n + 1)) (hz : D.get k l ≠ 0)
    (hsub : ∀ x ∈ (C.getD l LEntry.empty).ref, x ∈ refs) {acc : List (List ℤ)}
    (hacc : (LEntry.mk refs acc).WF (E.G n k deg).length) :
    ∃ acc', cechAddCoface E C n deg k refs acc (l, D.get k l) = .ok acc' ∧
      (LEntry.mk refs acc').WF (E.G n k deg).length ∧
      ∀ g j, j < (E.G n k deg).length → (((LEntry.mk refs acc').val g j : ℤ) : ZMod E.p) =
        (((LEntry.mk refs acc).val g j : ℤ) : ZMod E.p) +
        ∑ i ∈ range (E.G (n + 1) l deg).length, cechCoef E D n deg k l j i * (C.val l g i : ZMod E.p) := by
  have hlC : l < C.length := by rw [hC.length, widths_length]; exact hl
  have he := hC.get (k := l) (by rw [widths_length]; exact hl)
  rw [widths_getD E hl] at he
  have hatE : atE C l = .ok (C.getD l LEntry.empty) := by
    unfold atE
    rw [List.getElem?_eq_getElem hlC, List_getD_eq_getElem _ _ hlC]
  unfold LChains.val
  generalize hee : C.getD l LEntry.empty = e at *
  unfold cechAddCoface
  simp only [hatE, bind, Except.bind]
  by_cases h0 : e.ref.length = 0
  · rw [if_pos h0]
    refine ⟨acc, rfl, hacc, fun g j _ => ?_⟩
    have : e.ref = [] := List.length_eq_zero_iff.1 h0
    symm
    rw [Finset.sum_eq_zero, add_zero]
    intro i _
    rw [LEntry.val_neg (by rw [this]; simp)]; simp
  · rw [if_neg h0]
    obtain ⟨o, pts, ho, hpts, hP⟩ := h.piece n (by omega) k hk
    obtain ⟨o', pts', ho', hpts', hP'⟩ := h.piece (n + 1) hn l hl
    obtain ⟨M, hM, hMr, hMc, -, hMe⟩ := localCechMatrix_spec ho hpts ho' hpts' hP hP' hdeg
      (h.face n D hD hn k hk l hl hz pts pts' hpts hpts') (D.get k l)
    rw [hM]
    dsimp only
    obtain ⟨hw, hv⟩ := mulRows_spec he hMc
    rw [hMr] at hw
    obtain ⟨s1, s2, s3⟩ := scatter_spec hacc hw hsub
    have s1' : scatterOk e.ref refs e.coord = true := by
      simpa [scatterOk] using s1
    have hall : (e.coord.all fun r => r.length == M.ncols) = true := by
      rw [List.all_eq_true]
      intro r hr
      rw [he.width r hr, hMc]; simp
    rw [hall, s1', Bool.and_self, if_pos rfl]
    refine ⟨_, rfl, s2, fun g j hj => ?_⟩
    rw [s3, hv g j (by rw [hMr]; exact hj)]
    push_cast
    congr 1
    refine Finset.sum_congr rfl fun i hi => ?_
    rw [hMe j i (by rw [hMr]; exact hj) (by rw [hMc]; exact mem_range.1 hi)]
    unfold cechCoef Mat.z
    split
    · rw [ZMod.intCast_mod]; push_cast; rfl
    · simp

/-- The entry of the Čech differential at one piece. -/
theorem cechDiffLocal_spec (h : SSOK rnd E ρ) {n deg k : ℕ} {D : Mat}
    (hD : E.nerveDiff[n]? = some D) (hn : n + 1 < E.columns.length) (hpos : 0 < E.spx (n + 1))
    (hk : k < E.spx n) (hdeg : deg ≤ E.rows) {C : LChains} (hC : C.WF (E.widths (n + 1) deg)) :
    ∃ e, cechDiffLocal E C n deg k = .ok e ∧ e.WF (E.G n k deg).length ∧
      (∀ r ∈ e.coord, ∀ x ∈ r, 0 ≤ x ∧ x < (E.p : ℤ)) ∧
      (∀ g, g ∈ e.ref ↔ ∃ l < E.spx (n + 1), D.get k l ≠ 0 ∧ g ∈ (C.getD l LEntry.empty).ref) ∧
      ∀ g j, j < (E.G n k deg).length → ((e.val g j : ℤ) : ZMod E.p) =
        ∑ l ∈ range (E.spx (n + 1)), ∑ i ∈ range (E.G (n + 1) l deg).length,
          cechCoef E D n deg k l j i * (C.val l g i : ZMod E.p) := by
  obtain ⟨hDr, hDc⟩ := h.shape n D hD
  unfold cechDiffLocal
  have hatD : atE E.nerveDiff n = .ok D := by unfold atE; rw [hD]
  simp only [hatD, bind, Except.bind]
  rw [if_neg (by omega)]
  set cof := (List.range D.ncols).filter fun j => D.get k j ≠ 0 with hcof
  have hmem : ∀ l, l ∈ cof ↔ l < E.spx (n + 1) ∧ D.get k l ≠ 0 := by
    intro l; rw [hcof, List.mem_filter, List.mem_range, hDc]; simp
  have hne : cof ≠ [] := by
    obtain ⟨l, hl, hz⟩ := h.coface n D hD hpos k hk
    exact List.ne_nil_of_mem ((hmem l).2 ⟨hl, hz⟩)
  rw [if_neg hne]
  have hatE : ∀ l, l < E.spx (n + 1) → atE C l = .ok (C.getD l LEntry.empty) := by
    intro l hl
    have hlC : l < C.length := by rw [hC.length, widths_length]; exact hl
    unfold atE
    rw [List.getElem?_eq_getElem hlC, List_getD_eq_getElem _ _ hlC]
  have hmapM : cof.mapM (atE C) = .ok (cof.map fun l => C.getD l LEntry.empty) := by
    have : ∀ l ∈ cof, atE C l = .ok (C.getD l LEntry.empty) := fun l hl => hatE l ((hmem l).1 hl).1
    clear_value cof
    clear hmem hne hcof
    induction cof with
    | nil => rfl
    | cons a cof ih =>
      rw [List.mapM_cons, this a (by simp)]
      have := ih fun l hl => this l (by simp [hl])
      simp only [bind, Except.bind, this]
      rfl
  rw [hmapM]
  dsimp only
  set refs := npUnique ((cof.map fun l => C.getD l LEntry.empty).flatMap LEntry.ref) with hrefs
  have hmr : ∀ g, g ∈ refs ↔ ∃ l < E.spx (n + 1), D.get k l ≠ 0 ∧ g ∈ (C.getD l LEntry.empty).ref := by
    intro g
    rw [hrefs, mem_npUnique, List.mem_flatMap]
    constructor
    · rintro ⟨e, he, hg⟩
      obtain ⟨l, hl, rfl⟩ := List.mem_map.1 he
      exact ⟨l, ((hmem l).1 hl).1, ((hmem l).1 hl).2, hg⟩
    · rintro ⟨l, hl, hz, hg⟩
      exact ⟨_, List.mem_map.2 ⟨l, (hmem l).2 ⟨hl, hz⟩, rfl⟩, hg⟩
  have hrs : refs.Pairwise (· < ·) := npUnique_strict _
  -- the sum over all pieces is the sum over the cofaces
  have hsum : ∀ (F : ℕ → ZMod E.p), (∀ l, l < E.spx (n + 1) → D.get k l = 0 → F l = 0) →
      ∑ l ∈ range (E.spx (n + 1)), F l = (cof.map F).sum := by
    intro F hF
    rw [hcof, hDc]
    generalize E.spx (n + 1) = N at hF ⊢
    induction N with
    | zero => simp
    | succ N ih =>
      rw [Finset.sum_range_succ, ih fun l hl => hF l (by omega), List.range_succ, List.filter_append,
        List.map_append, List.sum_append]
      congr 1
      by_cases hz : D.get k N = 0
      · simp [hz, hF N (by omega) hz]
      · simp [hz]
  have hF0 : ∀ g j l, l < E.spx (n + 1) → D.get k l = 0 →
      ∑ i ∈ range (E.G (n + 1) l deg).length,
          cechCoef E D n deg k l j i * (C.val l g i : ZMod E.p) = 0 := by
    intro g j l _ hz
    refine Finset.sum_eq_zero fun i _ => ?_
    unfold cechCoef Mat.z
    rw [hz]; simp
  by_cases hr0 : refs = []
  · rw [if_pos hr0]
    have hnil : ∀ l < E.spx (n + 1), D.get k l ≠ 0 → (C.getD l LEntry.empty).ref = [] := by
      intro l hl hz
      rw [List.eq_nil_iff_forall_not_mem]
      intro g hg
      have := (hmr g).2 ⟨l, hl, hz, hg⟩
      rw [hr0] at this; simp at this
    refine ⟨LEntry.empty, rfl, ⟨by simp [LEntry.empty], by simp [LEntry.empty], by simp [LEntry.empty]⟩,
      by simp [LEntry.empty], ?_, ?_⟩
    · intro g; rw [← hmr, hr0]; rfl
    · intro g j _
      rw [LEntry.val_neg (by simp [LEntry.empty])]
      symm
      rw [Finset.sum_eq_zero]
      · simp
      · intro l hl
        by_cases hz : D.get k l = 0
        · exact hF0 g j l (mem_range.1 hl) hz
        · refine Finset.sum_eq_zero fun i _ => ?_
          unfold LChains.val
          rw [LEntry.val_neg (by rw [hnil l (mem_range.1 hl) hz]; simp)]; simp
  · rw [if_neg hr0]
    obtain ⟨o, pts, ho, hpts, hP⟩ := h.piece n (by omega) k hk
    have hG : E.G n k deg = o.glob pts deg := by simp only [SSEnv.G, ho, hpts]
    have hsize : o.size deg = .ok (E.G n k deg).length := by
      rw [hG]
      unfold LocalOut.size LocalOut.glob
      cases deg with
      | zero => simp [simplicesOf]
      | succ d =>
        rw [if_neg (Nat.succ_ne_zero d)]
        have := hP.levels
        simp only [LocalOut.simplices, atE, simplicesOf, Nat.add_sub_cancel]
        rw [List_getD_eq_getElem _ _ (by omega), List.getElem?_eq_getElem (by omega)]
        simp [bind, Except.bind, pure, Except.pure]
    rw [ho]
    dsimp only
    rw [hsize]
    dsimp only
    -- the fold
    have hfold : ∀ (ls : List ℕ), (∀ l ∈ ls, l < E.spx (n + 1) ∧ D.get k l ≠ 0) →
        ∀ acc : List (List ℤ), (LEntry.mk refs acc).WF (E.G n k deg).length →
        ∃ acc', (ls.map fun j => (j, D.get k j)).foldlM (cechAddCoface E C n deg k refs) acc =
            Except.ok acc' ∧ (LEntry.mk refs acc').WF (E.G n k deg).length ∧
          ∀ g j, j < (E.G n k deg).length → (((LEntry.mk refs acc').val g j : ℤ) : ZMod E.p) =
            (((LEntry.mk refs acc).val g j : ℤ) : ZMod E.p) +
            (ls.map fun l => ∑ i ∈ range (E.G (n + 1) l deg).length,
              cechCoef E D n deg k l j i * (C.val l g i : ZMod E.p)).sum := by
      intro ls
      induction ls with
      | nil =>
        intro _ acc hacc
        exact ⟨acc, rfl, hacc, fun g j _ => by simp⟩
      | cons l ls ih =>
        intro hls acc hacc
        obtain ⟨hl, hz⟩ := hls l (by simp)
        obtain ⟨a1, b1, b2, b3⟩ := cechAddCoface_spec h hD hn hk hdeg hC hl hz
          (fun x hx => (hmr x).2 ⟨l, hl, hz, hx⟩) hacc
        obtain ⟨a2, c1, c2, c3⟩ := ih (fun l hl => hls l (by simp [hl])) a1 b2
        refine ⟨a2, ?_, c2, fun g j hj => ?_⟩
        · rw [List.map_cons, List.foldlM_cons, b1]; exact c1
        · rw [c3 g j hj, b3 g j hj, List.map_cons, List.sum_cons, add_assoc]
    have hW0 : (LEntry.mk refs (List.replicate refs.length
        (List.replicate (E.G n k deg).length 0))).WF (E.G n k deg).length := by
      refine ⟨hrs, by simp, ?_⟩
      intro r hr
      rw [List.eq_of_mem_replicate hr]; simp
    obtain ⟨acc, a1, a2, a3⟩ := hfold cof (fun l hl => (hmem l).1 hl) _ hW0
    rw [a1]
    refine ⟨⟨refs, acc.map fun r => r.map fun x => x % (E.p : ℤ)⟩, rfl, ⟨hrs, ?_, ?_⟩, ?_, hmr, ?_⟩
    · simpa using a2.rows
    · intro r hr
      obtain ⟨r', hr', rfl⟩ := List.mem_map.1 hr
      simpa using a2.width r' hr'
    · intro r hr x hx
      obtain ⟨r', hr', rfl⟩ := List.mem_map.1 hr
      obtain ⟨y, -, rfl⟩ := List.mem_map.1 hx
      have hp : (0 : ℤ) < E.p := by exact_mod_cast h.prime.pos
      exact ⟨Int.emod_nonneg _ hp.ne', Int.emod_lt_of_pos _ hp⟩
    · intro g j hj
      have e1 := val_map_rows (e := ⟨refs, acc⟩) a2.rows (fun r => r.map fun x => x % (E.p : ℤ)) g j
      rw [e1]
      have e2 : (((LEntry.mk refs acc).val g j : ℤ) : ZMod E.p) =
          ∑ l ∈ range (E.spx (n + 1)), ∑ i ∈ range (E.G (n + 1) l deg).length,
          cechCoef E D n deg k l j i * (C.val l g i : ZMod E.p) := by
        rw [a3 g j hj, hsum _ (hF0 g j)]
        have : (LEntry.mk refs (List.replicate refs.length
            (List.replicate (E.G n k deg).length 0))).val g j = 0 := by
          by_cases hg : g ∈ refs
          · rw [LEntry.val, LEntry.row_eq (e := ⟨refs, _⟩) hg, rowOf_replicate rfl hg]
            exact replicate_zero_getD _ _
          · exact LEntry.val_neg (e := ⟨refs, _⟩) hg _
        rw [this]; simp
      rw [← e2]
      split
      · next hg =>
        have hjl : j < ((LEntry.mk refs acc).row g).length := by
          rw [LEntry.row_length a2 hg]; exact hj
        rw [getD_map_lt hjl, ZMod.intCast_mod, LEntry.val, List_getD_eq_getElem _ _ hjl]
      · next hg => rw [LEntry.val_neg (e := ⟨refs, acc⟩) hg]

/-- The Čech differential: it succeeds, and its coordinates. -/
theorem cechDiff_spec (h : SSOK rnd E ρ) {n deg : ℕ} {D : Mat}
    (hD : E.nerveDiff[n]? = some D) (hn : n + 1 < E.columns.length) (hpos : 0 < E.spx (n + 1))
    (hdeg : deg ≤ E.rows) {C : LChains} (hC : C.WF (E.widths (n + 1) deg)) :
    ∃ C', cechDiff E n deg C = .ok C' ∧ C'.WF (E.widths n deg) ∧
      (∀ e ∈ C', ∀ r ∈ e.coord, ∀ x ∈ r, 0 ≤ x ∧ x < (E.p : ℤ)) ∧
      (∀ k < E.spx n, ∀ g, g ∈ (C'.getD k LEntry.empty).ref ↔
        ∃ l < E.spx (n + 1), D.get k l ≠ 0 ∧ g ∈ (C.getD l LEntry.empty).ref) ∧
      ∀ k < E.spx n, ∀ g j, j < (E.G n k deg).length → (C'.val k g j : ZMod E.p) =
        ∑ l ∈ range (E.spx (n + 1)), ∑ i ∈ range (E.G (n + 1) l deg).length,
          cechCoef E D n deg k l j i * (C.val l g i : ZMod E.p) := by
  have hloc := fun k (hk : k < E.spx n) => cechDiffLocal_spec h hD hn hpos hk hdeg hC
  obtain ⟨C', hC'⟩ := mapM_ok_of (f := cechDiffLocal E C n deg) (xs := List.range (E.spx n)) (by
    intro k hk
    obtain ⟨e, he, -⟩ := hloc k (List.mem_range.1 hk)
    exact ⟨e, he⟩)
  obtain ⟨g1, g2⟩ := mapM_ok_spec hC'
  have hlen : C'.length = E.spx n := by simpa using g1
  have hget : ∀ k (hk : k < E.spx n), cechDiffLocal E C n deg k = .ok (C'.getD k LEntry.empty) := by
    intro k hk
    have := g2 k (by simpa using hk) (by omega)
    rw [List.getElem_range] at this
    rw [this, List_getD_eq_getElem _ _ (by omega)]
  refine ⟨C', hC', LChains.WF.of (by rw [hlen, widths_length]) ?_, ?_, ?_, ?_⟩
  · intro k hk
    rw [widths_length] at hk
    obtain ⟨e, he, hw, -⟩ := hloc k hk
    rw [hget k hk] at he
    rw [widths_getD E hk, Except.ok.inj he]; exact hw
  · intro e he
    obtain ⟨k, hk, rfl⟩ := List.getElem_of_mem he
    obtain ⟨e, he, -, hr, -⟩ := hloc k (by omega)
    rw [hget k (by omega), List_getD_eq_getElem _ _ hk] at he
    rw [Except.ok.inj he]; exact hr
  · intro k hk
    obtain ⟨e, he, -, -, hr, -⟩ := hloc k hk
    rw [hget k hk] at he
    rw [Except.ok.inj he]; exact hr
  · intro k hk
    obtain ⟨e, he, -, -, -, hv⟩ := hloc k hk
    rw [hget k hk] at he
    unfold LChains.val at hv ⊢
    rw [Except.ok.inj he]; exact hv

end

end Permaviss
