import Verif.Lemmas.IKRelIm
import Verif.Lemmas.IKMain
import Verif.Model.ModuleHomology

/-!
# `quotient`: counting the bars
-/

namespace Permaviss

open Finset

variable {α : Type} [LinearOrder α]

theorem sortDomain_rel (rnd : α → α) {p m : ℕ} {A : Basis α} {F : Mat} {bN bM : List (α × α)}
    (hbar : A.barcode = bN ++ bM) (hF : MatOK p m (bN.length + bM.length) F)
    (hs : A.sorted = false) (hflat : A.flat = false) (hwf : ∀ b ∈ A.barcode, b.1 < b.2) :
    ∃ A' F' ret o τ, sortDomain rnd A F bN.length = .ok (A', F', ret) ∧
      IsOrder bM.length o ret τ ∧ A'.barcode = bN ++ gather bM o ∧
      A'.dim = bN.length + bM.length ∧ A'.flat = false ∧
      MatOK p m (bN.length + bM.length) F' ∧ (∀ j, j < bN.length → F'.col j = F.col j) ∧
      (∀ i, i < bM.length → F'.col (bN.length + i) = F.col (bN.length + τ i)) ∧
      (gather bM o).Pairwise (barLE rnd) ∧ o = sortOrder rnd bM := by
  unfold sortDomain
  rw [hs, if_neg (by simp), hbar, List.drop_left, List.take_left]
  have hwM : ∀ b ∈ bM, b.1 < b.2 := fun b hb => hwf b (hbar ▸ List.mem_append_right _ hb)
  have hwN : ∀ b ∈ bN, b.1 < b.2 := fun b hb => hwf b (hbar ▸ List.mem_append_left _ hb)
  have hfil : bM.filter (fun b => decide (b.1 < b.2)) = bM := by
    rw [List.filter_eq_self]; intro b hb; simpa using hwM b hb
  have hfilN : bN.filter (fun b => decide (b.1 < b.2)) = bN := by
    rw [List.filter_eq_self]; intro b hb; simpa using hwN b hb
  obtain ⟨τ, hτ⟩ := exists_isOrder (sortOrder_perm rnd bM)
  have hfil2 : (gather bM (sortOrder rnd bM)).filter
      (fun b => decide (b.1 < b.2)) = gather bM (sortOrder rnd bM) := by
    rw [List.filter_eq_self]; intro b hb
    have := (gather_perm (sortOrder_perm rnd bM)).mem_iff.1 hb
    simpa using hwM b this
  have hgl := hτ.gather_len (l := bM) rfl
  set oo := List.range bN.length ++ (sortOrder rnd bM).map (· + bN.length) with hoo
  have hlt : ∀ i ∈ oo, i < F.cols.length := by
    intro i hi
    rw [hF.ncols]
    rcases List.mem_append.1 hi with h | h
    · rw [List.mem_range] at h; omega
    · obtain ⟨k, hk, rfl⟩ := List.mem_map.1 h
      have := hτ.mem_lt k hk; omega
  have hcol : ∀ j k, oo[j]? = some k → (F.gatherCols oo).col j = F.col k := by
    intro j k hk
    unfold Mat.col Mat.gatherCols
    rw [List.getD_eq_getElem?_getD, gather_getElem? hlt, hk, List.getD_eq_getElem?_getD]
    rfl
  refine ⟨⟨bN ++ gather bM (sortOrder rnd bM), false, bN.length + bM.length, none, ⟨0, []⟩, false,
    none, none⟩, F.gatherCols oo, argsortPerm (sortOrder rnd bM), sortOrder rnd bM, τ, ?_, hτ, rfl,
    rfl, rfl, ⟨hF.rows, ?_, ?_, ?_⟩, ?_, ?_, ?_, rfl⟩
  · simp [Basis.init, initCoords, hflat, hfil, Basis.sort, bind, Except.bind,
        pure, Except.pure, hfil2, hgl, hfilN, hoo]
  · change (gather F.cols oo).length = _
    rw [length_gather hlt]
    simp [hoo, hτ.len]
  · intro c hc
    simp only [Mat.gatherCols, gather, List.mem_filterMap] at hc
    obtain ⟨k, -, hk⟩ := hc
    exact hF.len c (List.mem_of_getElem? hk)
  · intro c hc x hx
    simp only [Mat.gatherCols, gather, List.mem_filterMap] at hc
    obtain ⟨k, -, hk⟩ := hc
    exact hF.red c (List.mem_of_getElem? hk) x hx
  · intro j hj
    apply hcol
    rw [hoo, List.getElem?_append_left (by simpa using hj)]
    simp [hj]
  · intro i hi
    apply hcol
    rw [hoo, List.getElem?_append_right (by simp)]
    simp [hτ.get i hi, Nat.add_comm]
  · unfold gather
    rw [List.pairwise_filterMap]
    refine (sortOrder_stable rnd bM).imp ?_
    intro i j h a ha b hb
    exact (h a b ha hb).1

/-- In a list sorted by birth the bars born by `s` are at the beginning. -/
theorem exists_prefix (bars : List (α × α)) (h : bars.Pairwise fun a b => a.1 ≤ b.1) (s : α) :
    ∃ m, m ≤ bars.length ∧ ∀ (i : ℕ) (b : α × α), bars[i]? = some b → (i < m ↔ b.1 ≤ s) := by
  induction bars with
  | nil => exact ⟨0, le_rfl, by simp⟩
  | cons a l ih =>
    rw [List.pairwise_cons] at h
    by_cases ha : a.1 ≤ s
    · obtain ⟨m, h1, h2⟩ := ih h.2
      refine ⟨m + 1, by simpa using h1, ?_⟩
      intro i b hb
      cases i with
      | zero => simp at hb; subst hb; simpa using ha
      | succ i =>
        rw [List.getElem?_cons_succ] at hb
        rw [← h2 i b hb]; omega
    · refine ⟨0, by simp, ?_⟩
      intro i b hb
      refine ⟨fun h => absurd h (by omega), fun hbs => ?_⟩
      rcases List.mem_cons.1 (List.mem_of_getElem? hb) with rfl | hm
      · exact absurd hbs ha
      · exact absurd ((h.1 b hm).trans hbs) ha

/-- The span at radius `t` of the generators born by `s`. -/
def bornSpan (p : ℕ) (amb : List (α × α)) (bars : List (α × α)) (C : Mat) (s t : α) :
    Submodule (ZMod p) (ℕ → ZMod p) :=
  Submodule.span (ZMod p) {x | ∃ i, BornBy (· ≤ s) bars i ∧ x = barRestr p amb t (C.zcol p i)}

/-- The inputs of `quotient`. -/
structure QOK (rnd : α → α) (p : ℕ) (M N amb : Basis α) : Prop where
  prime : p.Prime
  flatB : amb.flat = false
  dimB : amb.dim = amb.barcode.length
  barsB : ∀ b ∈ amb.barcode, b.1 < b.2
  unbroken : amb.brokenDiff = none
  flatM : M.flat = false
  barsM : ∀ b ∈ M.barcode, b.1 < b.2
  coordsM : MatOK p amb.barcode.length M.barcode.length M.coords
  birthM : ∀ r i a b, M.barcode[i]? = some a → amb.barcode[r]? = some b → M.coords.z p r i ≠ 0 →
    b.1 ≤ a.1
  deathM : ∀ r i a b, M.barcode[i]? = some a → amb.barcode[r]? = some b → M.coords.z p r i ≠ 0 →
    b.2 ≤ a.2
  rounding : ∀ a ∈ M.barcode, ∀ b ∈ M.barcode, rnd a.1 ≤ rnd b.1 → a.1 ≤ b.1
  nonempty : M.barcode ≠ []
  flatN : N.flat = false
  dimN : N.dim = N.barcode.length
  nonemptyN : N.barcode ≠ []
  barsN : ∀ b ∈ N.barcode, b.1 < b.2
  coordsN : MatOK p amb.barcode.length N.barcode.length N.coords
  birthN : ∀ r i a b, N.barcode[i]? = some a → amb.barcode[r]? = some b → N.coords.z p r i ≠ 0 →
    b.1 ≤ a.1

theorem countP_gather {raw : List (α × α)} {idx : List ℕ} (h : Picks raw idx) {s t : α}
    (hst : s ≤ t) :
    (gather raw idx).countP (fun b => decide (b.1 ≤ s) && decide (t < b.2)) =
      ((range raw.length).filter fun j => ∃ b, raw[j]? = some b ∧ b.1 ≤ s ∧ t < b.2).card := by
  classical
  have e : (gather raw idx).countP (fun b => decide (b.1 ≤ s) && decide (t < b.2)) =
      (idx.filter fun j => decide (∃ b, raw[j]? = some b ∧ b.1 ≤ s ∧ t < b.2)).length := by
    have : ∀ (l : List ℕ), (∀ k ∈ l, k < raw.length) →
        (gather raw l).countP (fun b => decide (b.1 ≤ s) && decide (t < b.2)) =
        (l.filter fun j => decide (∃ b, raw[j]? = some b ∧ b.1 ≤ s ∧ t < b.2)).length := by
      intro l
      induction l with
      | nil => simp [gather]
      | cons k l ih =>
        intro hl
        have hk := hl k (by simp)
        have hk' : raw[k]? = some raw[k] := List.getElem?_eq_getElem hk
        have e1 : gather raw (k :: l) = raw[k] :: gather raw l := by
          simp [gather, hk']
        rw [e1, List.countP_cons, ih fun k hk => hl k (by simp [hk]), List.filter_cons]
        by_cases hc : raw[k].1 ≤ s ∧ t < raw[k].2
        · have : ∃ b, raw[k]? = some b ∧ b.1 ≤ s ∧ t < b.2 := ⟨_, hk', hc⟩
          simp [this, hc]
        · have hn : ¬ ∃ b, raw[k]? = some b ∧ b.1 ≤ s ∧ t < b.2 := by
            rintro ⟨b, hb, h1⟩
            rw [hk', Option.some.injEq] at hb
            subst hb; exact hc h1
          have hc' : ¬ (decide (raw[k].1 ≤ s) && decide (t < raw[k].2)) = true := by
            rw [Bool.and_eq_true, decide_eq_true_iff, decide_eq_true_iff]; exact hc
          have hn' : ¬ decide (∃ b, raw[k]? = some b ∧ b.1 ≤ s ∧ t < b.2) = true := by
            rw [decide_eq_true_iff]; exact hn
          rw [if_neg hc', if_neg hn', Nat.add_zero]
    exact this idx h.lt
  rw [e, ← List.toFinset_card_of_nodup (h.nodup.filter _)]
  congr 1
  ext j
  simp only [List.mem_toFinset, List.mem_filter, decide_eq_true_eq, Finset.mem_filter, mem_range]
  constructor
  · rintro ⟨h1, h2⟩; exact ⟨h.lt j h1, h2⟩
  · rintro ⟨-, b, h1, h2, h3⟩
    exact ⟨(h.mem j).2 ⟨b, h1, lt_of_le_of_lt h2 (lt_of_le_of_lt hst h3)⟩, b, h1, h2, h3⟩

/-- What `quotient` returns. -/
structure QOut (p : ℕ) (M N amb Q : Basis α) : Prop where
  flat : Q.flat = false
  sorted : Q.sorted = true
  dim : Q.dim = Q.barcode.length
  bars : ∀ b ∈ Q.barcode, b.1 < b.2
  ncols : Q.coords.cols.length = Q.barcode.length
  count : ∀ s t, s ≤ t →
    Q.barcode.countP (fun b => decide (b.1 ≤ s) && decide (t < b.2)) +
      Module.finrank (ZMod p) (bornSpan p amb.barcode N.barcode N.coords t t) =
    Module.finrank (ZMod p) ↥(bornSpan p amb.barcode N.barcode N.coords t t ⊔
      bornSpan p amb.barcode M.barcode M.coords s t)

/-- The bars before those of length zero are removed. -/
def rawBars (A : Basis α) (st : IK α) (s0 : ℕ) : List (α × α) :=
  ((A.barcode.map Prod.fst).zip st.imDeath).drop s0

/-- How `quotient` computes what it returns. -/
structure QRun [Zero α] (rnd : α → α) (p : ℕ) (M N amb A B : Basis α) (F : Mat) (st : IK α)
    (Q : Basis α) (σ τ : Equiv.Perm ℕ) (oA oB retA retB idx : List ℕ) : Prop where
  rel : RelOK (⟨p, A, B, F, N.barcode.length⟩ : IKEnv α)
  loop : ikLoop ⟨p, A, B, F, N.barcode.length⟩ (IKEnv.radii ⟨p, A, B, F, N.barcode.length⟩)
    (IKEnv.init ⟨p, A, B, F, N.barcode.length⟩) = .ok st
  ordB : IsOrder amb.barcode.length oB retB σ
  reB : ReBars σ amb.barcode B.barcode
  dimB : B.dim = amb.barcode.length
  ordA : IsOrder M.barcode.length oA retA τ
  barA : A.barcode = N.barcode ++ gather M.barcode oA
  dimA : A.dim = N.barcode.length + M.barcode.length
  zN : ∀ i j, j < N.barcode.length → F.z p i j = N.coords.z p (σ i) j
  zM : ∀ i j, j < M.barcode.length → F.z p i (N.barcode.length + j) = M.coords.z p (σ i) (τ j)
  sortedA : (gather M.barcode oA).Pairwise fun a b => a.1 ≤ b.1
  oB_eq : (amb.sorted = true → oB = List.range amb.barcode.length) ∧
    (amb.sorted = false → oB = sortOrder rnd amb.barcode)
  oA_eq : oA = sortOrder rnd M.barcode
  picks : Picks (rawBars A st N.barcode.length) idx
  bars : Q.barcode = gather (rawBars A st N.barcode.length) idx
  coords : Q.coords = ⟨amb.barcode.length,
    gather ((st.im.gatherRows retB).cols.drop N.barcode.length) idx⟩

theorem quotient_run [Zero α] {rnd : α → α} {p : ℕ} {M N amb : Basis α}
    (h : QOK rnd p M N amb) :
    ∃ Q, quotient rnd p M N amb true = .ok Q ∧ QOut p M N amb Q ∧
      ∃ A B F st σ τ oA oB retA retB idx,
        QRun rnd p M N amb A B F st Q σ τ oA oB retA retB idx := by
  classical
  have := Fact.mk h.prime
  set s0 := N.barcode.length with hs0
  set k := M.barcode.length with hk
  set m := amb.barcode.length with hm
  have hs0p : 0 < s0 := List.length_pos_iff.2 h.nonemptyN
  have hkp : 0 < k := List.length_pos_iff.2 h.nonempty
  have hwNM : ∀ b ∈ N.barcode ++ M.barcode, b.1 < b.2 := by
    intro b hb
    rcases List.mem_append.1 hb with h1 | h1
    · exact h.barsN b h1
    · exact h.barsM b h1
  let NM : Basis α := ⟨N.barcode ++ M.barcode, false, s0 + k, none, ⟨0, []⟩, false, none, none⟩
  have eNM : Basis.init (N.barcode ++ M.barcode) false none ⟨0, []⟩ false false none = .ok NM := by
    have hfil : (N.barcode ++ M.barcode).filter (fun b => decide (b.1 < b.2)) =
        N.barcode ++ M.barcode := by
      rw [List.filter_eq_self]; intro b hb; simpa using hwNM b hb
    simp only [Basis.init, initCoords, hfil]
    simp [NM, hs0, hk]
  let F : Mat := ⟨M.coords.nrows, N.coords.cols ++ M.coords.cols⟩
  have hF : MatOK p m (s0 + k) F := by
    refine ⟨h.coordsM.rows, ?_, ?_, ?_⟩
    · simp [F, h.coordsN.ncols, h.coordsM.ncols, hs0, hk]
    · intro c hc
      rcases List.mem_append.1 hc with h1 | h1
      · exact h.coordsN.len c h1
      · exact h.coordsM.len c h1
    · intro c hc
      rcases List.mem_append.1 hc with h1 | h1
      · exact h.coordsN.red c h1
      · exact h.coordsM.red c h1
  have hFN : ∀ j, j < s0 → F.col j = N.coords.col j := by
    intro j hj
    simp only [F, Mat.col, List.getD_eq_getElem?_getD]
    rw [List.getElem?_append_left (by rw [h.coordsN.ncols]; exact hj)]
  have hFM : ∀ i, F.col (s0 + i) = M.coords.col i := by
    intro i
    simp only [F, Mat.col, List.getD_eq_getElem?_getD]
    rw [List.getElem?_append_right (by rw [h.coordsN.ncols]; omega), h.coordsN.ncols]
    simp [hs0]
  obtain ⟨B', F1, retB, oB, σB, e1, hoB, hrB, hlB, hdB, hfB, hbB, hF1, hz1, hoBe⟩ :=
    sortRange_spec rnd hF h.dimB rfl h.flatB h.unbroken h.barsB
  obtain ⟨A', F2, retA, oA, τ, e2, hoA, hbA, hdA, hfA, hF2, hcN, hcM, hsrt, hoAe⟩ :=
    sortDomain_rel rnd (A := NM) (bN := N.barcode) (bM := M.barcode) rfl hF1 rfl rfl hwNM
  rw [← hs0, ← hk] at hdA hF2
  rw [← hs0] at hcN e2
  rw [← hs0, ← hk] at hcM
  rw [← hk] at hoA
  -- columns
  let ρ : ℕ → ℕ := fun j => if j < s0 then j else s0 + τ (j - s0)
  have hcol : ∀ j, j < s0 + k → F2.col j = F1.col (ρ j) := by
    intro j hj
    by_cases h1 : j < s0
    · simp only [ρ, if_pos h1]; exact hcN j h1
    · simp only [ρ, if_neg h1]
      have := hcM (j - s0) (by omega)
      rwa [Nat.add_sub_cancel' (by omega)] at this
  have hA'get : ∀ j, j < s0 + k → A'.barcode[j]? = (N.barcode ++ M.barcode)[ρ j]? := by
    intro j hj
    rw [hbA]
    by_cases h1 : j < s0
    · simp only [ρ, if_pos h1]
      rw [List.getElem?_append_left h1, List.getElem?_append_left h1]
    · simp only [ρ, if_neg h1]
      rw [List.getElem?_append_right (by omega), List.getElem?_append_right (by omega),
        hoA.gather_get (l := M.barcode) rfl, ← hs0, Nat.add_sub_cancel_left]
  have hlA : A'.barcode.length = s0 + k := by
    rw [hbA, List.length_append, hoA.gather_len (l := M.barcode) rfl]
  have hzc : ∀ (G : Mat) i j, G.z p i j = zv p (G.col j) i := fun _ _ _ => rfl
  have hzF : ∀ i j, j < s0 + k → F2.z p i j = F.z p (σB i) (ρ j) := by
    intro i j hj
    rw [hzc, hcol j hj, ← hzc, hz1]
  have hbirthF : ∀ r i a b, (N.barcode ++ M.barcode)[i]? = some a → amb.barcode[r]? = some b →
      F.z p r i ≠ 0 → b.1 ≤ a.1 := by
    intro r i a b ha hb hne
    by_cases h1 : i < s0
    · rw [List.getElem?_append_left h1] at ha
      rw [hzc, hFN i h1] at hne
      exact h.birthN r i a b ha hb hne
    · rw [List.getElem?_append_right (by omega)] at ha
      obtain ⟨i', rfl⟩ : ∃ i', i = s0 + i' := ⟨i - s0, by omega⟩
      rw [hzc, hFM i'] at hne
      rw [← hs0, Nat.add_sub_cancel_left] at ha
      exact h.birthM r i' a b ha hb hne
  let E : IKEnv α := ⟨p, A', B', F2, s0⟩
  have hE : RelOK E := {
    hp := h.prime
    lenA := hdA.trans hlA.symm
    lenB := hdB.trans hlB.symm
    flatA := hfA
    flatB := hfB
    unb := hbB
    start := hs0p
    F := by
      change MatOK p B'.dim A'.dim F2
      rw [hdB, hdA]; exact hF2
    birth := by
      intro r i a b ha hb hne
      change A'.barcode[i]? = some a at ha
      change B'.barcode[r]? = some b at hb
      change F2.z p r i ≠ 0 at hne
      have hi : i < s0 + k := hlA ▸ (List.getElem?_eq_some_iff.1 ha).1
      rw [hA'get i hi] at ha
      rw [hrB] at hb
      rw [hzF r i hi] at hne
      exact hbirthF _ _ _ _ ha hb hne
    death := by
      intro r i a b hsi ha hb hne
      change A'.barcode[i]? = some a at ha
      change B'.barcode[r]? = some b at hb
      change F2.z p r i ≠ 0 at hne
      change s0 ≤ i at hsi
      have hi : i < s0 + k := hlA ▸ (List.getElem?_eq_some_iff.1 ha).1
      rw [hA'get i hi] at ha
      rw [hrB] at hb
      rw [hzF r i hi] at hne
      have e : ρ i = s0 + τ (i - s0) := if_neg (by omega)
      rw [e] at ha hne
      rw [List.getElem?_append_right (by omega), ← hs0, Nat.add_sub_cancel_left] at ha
      rw [hzc, hFM] at hne
      exact h.deathM _ _ _ _ ha hb hne
    wfA := by
      intro b hb
      change b ∈ A'.barcode at hb
      rw [hbA] at hb
      apply hwNM
      rcases List.mem_append.1 hb with h1 | h1
      · exact List.mem_append_left _ h1
      · refine List.mem_append_right _ ?_
        simp only [gather, List.mem_filterMap] at h1
        obtain ⟨i, -, hi⟩ := h1
        exact List.mem_of_getElem? hi }
  obtain ⟨st, e3, hst⟩ := ikLoop_rel hE
  have hEA : E.A.dim = s0 + k := hdA
  have hEB : E.B.dim = m := hdB
  have hDl : st.imDeath.length = s0 + k := hst.imDeath.trans hEA
  have hpivI : ∀ q ∈ st.pivIm, q = -1 := by
    intro q hq
    obtain ⟨j, hj, rfl⟩ := List.getElem_of_mem hq
    have := hst.dead j (hst.pivIm ▸ hj)
    unfold IK.piv at this
    rwa [List_getD_eq_getElem _ _ hj] at this
  have hkI : killAlive E.radii.getLast? st.pivIm st.imDeath = st.imDeath :=
    killAlive_eq (hst.pivIm.trans hst.imDeath.symm) hpivI
  let raw0 := (A'.barcode.map Prod.fst).zip st.imDeath
  let raw := raw0.drop s0
  have hraw0 : raw0.length = s0 + k := by simp [raw0, hDl, hlA]
  have hraw : raw.length = k := by simp [raw, hraw0]
  let MI : Mat := ⟨retB.length, (st.im.gatherRows retB).cols.drop s0⟩
  have hMI : MI.ncols = k := by
    have := hst.im.ncols
    simp [MI, Mat.ncols, Mat.gatherRows, this, hEA]
  obtain ⟨b0, Q, ordI, idx, f1, f2, f3, f4, f5, f6, f7, f8, f9, -⟩ :=
    build_sort rnd (raw := raw) (m := m) (M := MI) (sw := true) hoB.rlen (hMI.trans hraw.symm)
      (fun _ e => by rw [e] at hraw; simp at hraw; omega)
  have hret : retA.all (fun i => decide (i < A'.dim - s0)) = true := by
    rw [List.all_eq_true]
    intro i hi
    have := hoA.rmem_lt i hi
    simp; omega
  have hQ : quotient rnd p M N amb true = .ok Q := by
    unfold quotient
    rw [if_neg (by rw [h.dimN]; omega), if_neg (by simp), if_neg (by simp [h.flatM, h.flatN])]
    simp only [eNM, bind, Except.bind]
    rw [if_neg (by rw [h.coordsN.rows, h.coordsM.rows]; simp), h.dimN, ← hs0]
    have e4 : ∃ pre, imageKernel rnd p NM amb F s0 = .ok ⟨Q, none, pre⟩ := by
      unfold imageKernel
      rw [if_neg (by
        push Not
        exact ⟨h.dimB.trans hF.rows.symm, hF.ncols.symm⟩)]
      simp only [e1, e2, bind, Except.bind, hfA, Bool.false_eq_true, if_false]
      have e3' : ikLoop ⟨p, A', B', F2, s0⟩ (IKEnv.radii ⟨p, A', B', F2, s0⟩)
        (IKEnv.init ⟨p, A', B', F2, s0⟩) = .ok st := e3
      rw [e3']
      simp only
      change ∃ pre, ikFinish rnd E NM.dim amb.dim retA retB st = _
      unfold ikFinish
      rw [hkI]
      dsimp only
      rw [hE.full, h.dimB, ← hm]
      have f1' : Basis.init (List.drop E.start ((List.map Prod.fst E.A.barcode).zip st.imDeath)) false
          (some m) ⟨retB.length, List.drop E.start (st.im.gatherRows retB).cols⟩ true false none
          = .ok b0 := f1
      rw [f1']
      have hret' : (retA.all fun i => decide (i < E.A.dim - E.start)) = true := hret
      simp only [bind, Except.bind, hret', if_true, f3, pure, Except.pure, Bool.false_eq_true,
        if_false]
      exact ⟨_, rfl⟩
    obtain ⟨pre, e4⟩ := e4
    have e5 : imageKernel rnd p NM amb ⟨M.coords.nrows, N.coords.cols ++ M.coords.cols⟩ s0 =
        .ok ⟨Q, none, pre⟩ := e4
    rw [e5]
    rfl
  have hsorted : (gather M.barcode oA).Pairwise fun a b => a.1 ≤ b.1 := by
    refine hsrt.imp_of_mem ?_
    intro a b ha hb hab
    have hmem : ∀ x ∈ gather M.barcode oA, x ∈ M.barcode := by
      intro x hx
      simp only [gather, List.mem_filterMap] at hx
      obtain ⟨i, -, hi⟩ := hx
      exact List.mem_of_getElem? hi
    refine h.rounding a (hmem a ha) b (hmem b hb) ?_
    rcases hab with h1 | h1
    · exact h1.le
    · exact h1.1.le
  have hrun : QRun rnd p M N amb A' B' F2 st Q σB τ oA oB retA retB idx := {
    rel := hE
    loop := e3
    ordB := hoB
    reB := hrB
    dimB := hdB
    ordA := hoA
    barA := hbA
    dimA := hdA
    zN := fun i j hj => by
      have := hzF i j (by omega)
      simp only [ρ, if_pos (show j < s0 from hj)] at this
      rw [this, hzc, hFN j hj]; rfl
    zM := fun i j hj => by
      have hlt : ¬ (s0 + j < s0) := by omega
      have := hzF i (s0 + j) (by omega)
      simp only [ρ, if_neg hlt, Nat.add_sub_cancel_left] at this
      rw [this, hzc, hFM]; rfl
    sortedA := hsorted
    oB_eq := hoBe
    oA_eq := hoAe
    picks := f4
    bars := f5
    coords := f6 }
  refine ⟨Q, hQ, ⟨f7, f9, f8, ?_, ?_, ?_⟩, A', B', F2, st, σB, τ, oA, oB, retA, retB, idx, hrun⟩
  · intro b hb
    rw [f5] at hb
    simp only [gather, List.mem_filterMap] at hb
    obtain ⟨i, hi, hi'⟩ := hb
    obtain ⟨b', h1, h2⟩ := (f4.mem i).1 hi
    rw [h1, Option.some.injEq] at hi'
    exact hi' ▸ h2
  · rw [f6, f5]
    dsimp only
    rw [length_gather f4.lt, length_gather]
    intro i hi
    have := f4.lt i hi
    unfold Mat.ncols at hMI
    omega
  -- counting
  intro s t hst'
  obtain ⟨ms, hms1, hms2⟩ := exists_prefix _ hsorted s
  rw [hoA.gather_len (l := M.barcode) rfl] at hms1
  have hAget2 : ∀ i, A'.barcode[s0 + i]? = (gather M.barcode oA)[i]? := by
    intro i
    rw [hbA, List.getElem?_append_right (by omega)]
    congr 1; omega
  have hcnt0 := hst.count t s0
  have hcnt1 := hst.count t (s0 + ms)
  -- the dead set
  have hrset : ∀ m', rset E st t m' = (range m').filter fun j =>
      BornBy (· ≤ t) A'.barcode j ∧ ∀ d, st.imDeath[j]? = some d → t < d := by
    intro m'
    unfold rset
    refine Finset.filter_congr fun j _ => ?_
    refine and_congr_right fun hb => ?_
    have hj : j < E.A.dim := hE.lenA ▸ hb.lt
    exact ⟨fun hh => hh (hst.dead j hj), fun hh _ => hh⟩
  have hcard : (rset E st t (s0 + ms)).card = (rset E st t s0).card +
      ((range raw.length).filter fun j => ∃ b, raw[j]? = some b ∧ b.1 ≤ s ∧ t < b.2).card := by
    rw [hrset, hrset]
    have e1 : ((range raw.length).filter fun j => ∃ b, raw[j]? = some b ∧ b.1 ≤ s ∧ t < b.2).card =
        (((range raw.length).filter fun j => ∃ b, raw[j]? = some b ∧ b.1 ≤ s ∧ t < b.2).map
          (addLeftEmbedding s0)).card := (card_map _).symm
    rw [e1, ← card_union_of_disjoint]
    · congr 1
      ext j
      simp only [Finset.mem_filter, mem_range, mem_union, Finset.mem_map, addLeftEmbedding_apply]
      have hrawget : ∀ (i : ℕ) (b : α × α), raw[i]? = some b ↔
          ∃ a, A'.barcode[s0 + i]? = some a ∧ st.imDeath[s0 + i]? = some b.2 ∧ b.1 = a.1 := by
        intro i b
        simp only [raw, raw0, List.getElem?_drop]
        rw [List.getElem?_zip_eq_some, List.getElem?_map]
        constructor
        · rintro ⟨h1, h2⟩
          obtain ⟨a, ha, e⟩ := Option.map_eq_some_iff.1 h1
          exact ⟨a, ha, h2, e.symm⟩
        · rintro ⟨a, ha, h2, e⟩
          exact ⟨by rw [ha, e]; rfl, h2⟩
      constructor
      · rintro ⟨hj, ⟨a, ha, hat⟩, hd⟩
        by_cases hjs : j < s0
        · exact Or.inl ⟨hjs, ⟨a, ha, hat⟩, hd⟩
        · right
          obtain ⟨i, rfl⟩ : ∃ i, j = s0 + i := ⟨j - s0, by omega⟩
          have hd' : s0 + i < st.imDeath.length := by omega
          refine ⟨i, ⟨by omega, (a.1, st.imDeath[s0 + i]), ?_, ?_, ?_⟩, rfl⟩
          · exact (hrawget i _).2 ⟨a, ha, List.getElem?_eq_getElem hd', rfl⟩
          · exact (hms2 i a (hAget2 i ▸ ha)).1 (by omega)
          · exact hd _ (List.getElem?_eq_getElem hd')
      · rintro (⟨hj, hb, hd⟩ | ⟨i, ⟨hi, b, hb, hbs, hbt⟩, rfl⟩)
        · exact ⟨by omega, hb, hd⟩
        · obtain ⟨a, ha, hd, e⟩ := (hrawget i b).1 hb
          have := (hms2 i a (hAget2 i ▸ ha)).2 (e ▸ hbs)
          refine ⟨by omega, ⟨a, ha, e ▸ hbs.trans hst'⟩, ?_⟩
          intro d hd'
          rw [hd, Option.some.injEq] at hd'
          exact hd' ▸ hbt
    · rw [Finset.disjoint_left]
      intro j hj hj'
      simp only [Finset.mem_filter, mem_range, Finset.mem_map, addLeftEmbedding_apply] at hj hj'
      obtain ⟨i, -, rfl⟩ := hj'
      omega
  have hcP := countP_gather f4 hst'
  rw [← f5] at hcP
  -- the spans
  have hren : ∀ j, j < s0 + k → barRestr p amb.barcode t (F.zcol p (ρ j)) =
      reName σB (E.rB (· ≤ t) (E.f j)) := by
    intro j hj
    have e : F.zcol p (ρ j) = reName σB (E.f j) := by
      funext i
      rw [reName_apply]
      have := hzF (σB.symm i) j hj
      rw [Equiv.apply_symm_apply] at this
      exact this.symm
    rw [e, hrB.restr, barRestr_eq]
    rfl
  have hzN : ∀ j, j < s0 → F.zcol p j = N.coords.zcol p j := by
    intro j hj
    exact congrArg (zv p) (hFN j hj)
  have hzM : ∀ i, F.zcol p (s0 + i) = M.coords.zcol p i := fun i => congrArg (zv p) (hFM i)
  have hA'N : ∀ j, j < s0 → A'.barcode[j]? = N.barcode[j]? := by
    intro j hj
    rw [hbA, List.getElem?_append_left hj]
  have hspN : bornSpan p amb.barcode N.barcode N.coords t t =
      (spn (ZMod p) (fun j => E.rB (· ≤ t) (E.f j)) (BornBy (· ≤ t) A'.barcode) s0).map
        (reName σB).toLinearMap := by
    rw [spn_map]
    apply le_antisymm
    · refine Submodule.span_le.2 ?_
      rintro x ⟨j, hb, rfl⟩
      have hj : j < s0 := hb.lt
      have e := hren j (by omega)
      simp only [ρ, if_pos hj] at e
      rw [hzN j hj] at e
      rw [e]
      obtain ⟨b, h1, h2⟩ := hb
      exact mem_spn (x := fun j => (reName σB).toLinearMap (E.rB (· ≤ t) (E.f j))) hj
        ⟨b, by rw [hA'N j hj]; exact h1, h2⟩
    · refine spn_le fun j hj hb => ?_
      have e := hren j (by omega)
      simp only [ρ, if_pos hj] at e
      rw [hzN j hj] at e
      obtain ⟨b, h1, h2⟩ := hb
      exact Submodule.subset_span ⟨j, ⟨b, by rw [← hA'N j hj]; exact h1, h2⟩, e.symm⟩
  have hspM : bornSpan p amb.barcode N.barcode N.coords t t ⊔
      bornSpan p amb.barcode M.barcode M.coords s t =
      (spn (ZMod p) (fun j => E.rB (· ≤ t) (E.f j)) (BornBy (· ≤ t) A'.barcode) (s0 + ms)).map
        (reName σB).toLinearMap := by
    have hρM : ∀ i, ρ (s0 + i) = s0 + τ i := by
      intro i
      have : ¬ (s0 + i < s0) := by omega
      simp only [ρ, if_neg this, Nat.add_sub_cancel_left]
    apply le_antisymm
    · refine sup_le ?_ ?_
      · rw [hspN]
        exact Submodule.map_mono (spn_mono (by omega) fun _ _ h => h)
      · rw [spn_map]
        refine Submodule.span_le.2 ?_
        rintro x ⟨i', ⟨b, hb, hbs⟩, rfl⟩
        have hi' : i' < k := (List.getElem?_eq_some_iff.1 hb).1
        have hi : τ.symm i' < k := (hoA.symm_lt i').2 hi'
        have e := hren (s0 + τ.symm i') (by omega)
        rw [hρM, Equiv.apply_symm_apply, hzM] at e
        rw [e]
        have hg : (gather M.barcode oA)[τ.symm i']? = some b := by
          rw [hoA.gather_get (l := M.barcode) rfl, Equiv.apply_symm_apply]; exact hb
        have := (hms2 _ b hg).2 hbs
        exact mem_spn (x := fun j => (reName σB).toLinearMap (E.rB (· ≤ t) (E.f j))) (by omega)
          ⟨b, by rw [hAget2]; exact hg, hbs.trans hst'⟩
    · rw [spn_map]
      refine spn_le fun j hj hb => ?_
      by_cases hjs : j < s0
      · refine Submodule.mem_sup_left ?_
        rw [hspN, spn_map]
        exact mem_spn (x := fun j => (reName σB).toLinearMap (E.rB (· ≤ t) (E.f j))) hjs hb
      · refine Submodule.mem_sup_right ?_
        obtain ⟨i, rfl⟩ : ∃ i, j = s0 + i := ⟨j - s0, by omega⟩
        obtain ⟨b, h1, h2⟩ := hb
        rw [hAget2] at h1
        have hbs := (hms2 i b h1).1 (by omega)
        rw [hoA.gather_get (l := M.barcode) rfl] at h1
        have e := hren (s0 + i) (by omega)
        rw [hρM, hzM] at e
        exact Submodule.subset_span ⟨τ i, ⟨b, h1, hbs⟩, e.symm⟩
  rw [hspM, hspN, hcP]
  have r1 := LinearEquiv.finrank_map_eq (reName (K := ZMod p) σB)
    (spn (ZMod p) (fun j => E.rB (· ≤ t) (E.f j)) (BornBy (· ≤ t) A'.barcode) s0)
  have r2 := LinearEquiv.finrank_map_eq (reName (K := ZMod p) σB)
    (spn (ZMod p) (fun j => E.rB (· ≤ t) (E.f j)) (BornBy (· ≤ t) A'.barcode) (s0 + ms))
  rw [r1, r2]
  have c0 : Module.finrank (ZMod p) (spn (ZMod p) (fun j => E.rB (· ≤ t) (E.f j))
    (BornBy (· ≤ t) A'.barcode) s0) = _ := hcnt0
  have c1 : Module.finrank (ZMod p) (spn (ZMod p) (fun j => E.rB (· ≤ t) (E.f j))
    (BornBy (· ≤ t) A'.barcode) (s0 + ms)) = _ := hcnt1
  rw [c0, c1, hcard, Nat.add_comm]

theorem quotient_out [Zero α] {rnd : α → α} {p : ℕ} {M N amb : Basis α}
    (h : QOK rnd p M N amb) :
    ∃ Q, quotient rnd p M N amb true = .ok Q ∧ QOut p M N amb Q := by
  obtain ⟨Q, h1, h2, -⟩ := quotient_run h
  exact ⟨Q, h1, h2⟩

end Permaviss
