import Verif.Lemmas.IKSort
import Verif.Lemmas.IKZero

/-!
# `image_kernel` in the absolute case
-/

namespace Permaviss

open Finset

variable {α : Type} [LinearOrder α]

theorem sortRange_spec (rnd : α → α) {p m n : ℕ} {B : Basis α} {F : Mat} (hF : MatOK p m n F)
    (hm : B.dim = m) (hlen : B.barcode.length = m) (hflat : B.flat = false)
    (hbr : B.brokenDiff = none) (hwf : ∀ b ∈ B.barcode, b.1 < b.2) :
    ∃ B' F' ret o σ, sortRange rnd B F = .ok (B', F', ret) ∧ IsOrder m o ret σ ∧
      ReBars σ B.barcode B'.barcode ∧ B'.barcode.length = m ∧ B'.dim = m ∧ B'.flat = false ∧
      B'.brokenDiff = none ∧ MatOK p m n F' ∧ (∀ i j, F'.z p i j = F.z p (σ i) j) ∧
      (B.sorted = true → o = List.range m) ∧ (B.sorted = false → o = sortOrder rnd B.barcode) := by
  unfold sortRange
  by_cases hs : B.sorted = true
  · rw [if_pos hs]
    exact ⟨B, F, _, List.range m, Equiv.refl ℕ, rfl, by rw [hm]; exact isOrder_range m,
      fun i => rfl, hlen, hm, hflat, hbr, hF, fun i j => rfl, fun _ => rfl, fun h => by simp [h] at hs⟩
  · rw [if_neg hs]
    have hfil : B.barcode.filter (fun b => decide (b.1 < b.2)) = B.barcode := by
      rw [List.filter_eq_self]; intro b hb; simpa using hwf b hb
    have hperm : (sortOrder rnd B.barcode).Perm (List.range m) := by
      have := sortOrder_perm rnd B.barcode
      rwa [hlen] at this
    obtain ⟨σ, hσ⟩ := exists_isOrder hperm
    refine ⟨⟨gather B.barcode (sortOrder rnd B.barcode), false, m, none, ⟨0, []⟩, true, none, none⟩,
      F.gatherRows (sortOrder rnd B.barcode), _, _, σ, ?_, hσ, hσ.gather_get hlen,
      hσ.gather_len hlen, rfl, rfl, rfl, ?_, ?_, fun h => absurd h hs, fun _ => rfl⟩
    · simp [Basis.init, initCoords, hflat, hbr, hfil, Basis.sort, hlen, bind, Except.bind,
        pure, Except.pure]
    · refine ⟨hσ.len, by simpa [Mat.gatherRows] using hF.ncols, ?_, ?_⟩
      · intro c hc
        simp only [Mat.gatherRows, List.mem_map] at hc
        obtain ⟨c', hc', rfl⟩ := hc
        exact hσ.gather_len (hF.len c' hc')
      · intro c hc x hx
        simp only [Mat.gatherRows, List.mem_map] at hc
        obtain ⟨c', hc', rfl⟩ := hc
        simp only [gather, List.mem_filterMap] at hx
        obtain ⟨k, -, hk⟩ := hx
        exact hF.red c' hc' x (List.mem_of_getElem? hk)
    · intro i j
      unfold Mat.z Mat.get
      congr 1
      simp only [Mat.gatherRows, List.getD_eq_getElem?_getD, List.getElem?_map]
      cases hc : F.cols[j]? with
      | none => simp
      | some c =>
        simp only [Option.map_some, Option.getD_some]
        rw [hσ.gather_get (hF.len c (List.mem_of_getElem? hc))]

theorem sortDomain_spec (rnd : α → α) {p m n : ℕ} {A : Basis α} {F : Mat} (hF : MatOK p m n F)
    (hn : A.dim = n) (hlen : A.barcode.length = n) (hflat : A.flat = false)
    (hwf : ∀ b ∈ A.barcode, b.1 < b.2) :
    ∃ A' F' ret o σ, sortDomain rnd A F 0 = .ok (A', F', ret) ∧ IsOrder n o ret σ ∧
      ReBars σ A.barcode A'.barcode ∧ A'.barcode.length = n ∧ A'.dim = n ∧ A'.flat = false ∧
      MatOK p m n F' ∧ (∀ i j, F'.z p i j = F.z p i (σ j)) ∧
      (A.sorted = true → A'.barcode = A.barcode) ∧
      (A.sorted = false → A'.barcode.Pairwise (barLE rnd)) := by
  unfold sortDomain
  by_cases hs : A.sorted = true
  · rw [if_pos hs]
    exact ⟨A, F, _, List.range n, Equiv.refl ℕ, rfl, by rw [hn]; exact isOrder_range n,
      fun i => rfl, hlen, hn, hflat, hF, fun i j => rfl, fun _ => rfl, fun h => by rw [h] at hs; cases hs⟩
  · rw [if_neg hs]
    have hfil : A.barcode.filter (fun b => decide (b.1 < b.2)) = A.barcode := by
      rw [List.filter_eq_self]; intro b hb; simpa using hwf b hb
    have hperm : (sortOrder rnd A.barcode).Perm (List.range n) := by
      have := sortOrder_perm rnd A.barcode
      rwa [hlen] at this
    obtain ⟨σ, hσ⟩ := exists_isOrder hperm
    have hfil2 : (gather A.barcode (sortOrder rnd A.barcode)).filter
        (fun b => decide (b.1 < b.2)) = gather A.barcode (sortOrder rnd A.barcode) := by
      rw [List.filter_eq_self]; intro b hb
      have := (gather_perm (sortOrder_perm rnd A.barcode)).mem_iff.1 hb
      simpa using hwf b this
    have hgl := hσ.gather_len hlen
    refine ⟨⟨gather A.barcode (sortOrder rnd A.barcode), false, n, none, ⟨0, []⟩, false, none, none⟩,
      F.gatherCols (sortOrder rnd A.barcode), _, _, σ, ?_, hσ, hσ.gather_get hlen,
      hgl, rfl, rfl, ?_, ?_, fun h => absurd h hs, fun _ => ?_⟩
    · simp [Basis.init, initCoords, hflat, hfil, Basis.sort, bind, Except.bind,
        pure, Except.pure, hfil2, hgl]
    · refine ⟨hF.rows, hσ.gather_len hF.ncols, ?_, ?_⟩
      · intro c hc
        simp only [Mat.gatherCols, gather, List.mem_filterMap] at hc
        obtain ⟨k, -, hk⟩ := hc
        exact hF.len c (List.mem_of_getElem? hk)
      · intro c hc x hx
        simp only [Mat.gatherCols, gather, List.mem_filterMap] at hc
        obtain ⟨k, -, hk⟩ := hc
        exact hF.red c (List.mem_of_getElem? hk) x hx
    · intro i j
      unfold Mat.z Mat.get
      congr 1
      simp only [Mat.gatherCols, List.getD_eq_getElem?_getD]
      rw [hσ.gather_get hF.ncols]
    · change (gather A.barcode (sortOrder rnd A.barcode)).Pairwise (barLE rnd)
      unfold gather
      rw [List.pairwise_filterMap]
      refine (sortOrder_stable rnd A.barcode).imp ?_
      intro i j h a ha b hb
      exact (h a b ha hb).1

omit [LinearOrder α] in
theorem killAlive_eq {last : Option α} {pivs : List Int} {deaths : List α}
    (hl : pivs.length = deaths.length) (h : ∀ q ∈ pivs, q = -1) :
    killAlive last pivs deaths = deaths := by
  unfold killAlive
  apply List.ext_getElem
  · simp [hl]
  · intro i h1 h2
    simp only [List.getElem_zipWith]
    rw [if_neg]
    rw [not_not]
    exact h _ (List.getElem_mem _)

theorem barRestr_eq {p : ℕ} {bars : List (α × α)} {t : α} :
    barRestr p bars t = restr (ActBy (· ≤ t) bars) := by
  unfold barRestr
  congr 1
  funext i
  exact propext actBy_le_iff.symm

theorem mor_eq_morAt {E : IKEnv α} {t : α} :
    E.mor (· ≤ t) = morAt E.p E.A.barcode E.B.barcode E.F t := by
  unfold IKEnv.mor morAt
  rw [barRestr_eq, barRestr_eq]
  rfl

theorem imAt_eq_range {p : ℕ} {A B : List (α × α)} {F : Mat} {t : α} :
    imAt p A B F t = LinearMap.range (morAt p A B F t) := by
  ext x
  simp only [imAt, barModule, Submodule.mem_map, LinearMap.mem_range]
  constructor
  · rintro ⟨_, ⟨y, rfl⟩, rfl⟩; exact ⟨_, rfl⟩
  · rintro ⟨y, rfl⟩
    refine ⟨_, ⟨y, rfl⟩, ?_⟩
    simp only [morAt, LinearMap.comp_apply, barRestr]
    rw [restr_restr]

theorem zv_gatherRows {p m n : ℕ} {M : Mat} (hM : MatOK p m n M) {o ret : List ℕ}
    {σ : Equiv.Perm ℕ} (ho : IsOrder m o ret σ) {k : ℕ} (hk : k < n) :
    zv p ((M.cols.map fun c => gather c ret).getD k []) = reName σ (zv p (M.col k)) := by
  have hk' : k < M.cols.length := by rw [hM.ncols]; exact hk
  unfold Mat.col
  rw [List_getD_eq_getElem _ _ (by simpa using hk'), List_getD_eq_getElem _ _ hk', List.getElem_map,
    ho.zv_rgather (hM.len _ (List.getElem_mem _))]
  rfl

theorem indep_map {K V V' ι : Type*} [Ring K] [AddCommGroup V] [Module K V] [AddCommGroup V']
    [Module K V'] (e : V ≃ₗ[K] V') {v : ι → V} (h : LinearIndependent K v) :
    LinearIndependent K fun i => e (v i) :=
  h.map' e.toLinearMap (LinearEquiv.ker e)

theorem span_map {K V V' ι : Type*} [Ring K] [AddCommGroup V] [Module K V] [AddCommGroup V']
    [Module K V'] (e : V ≃ₗ[K] V') (v : ι → V) :
    Submodule.span K (Set.range fun i => e (v i)) =
      (Submodule.span K (Set.range v)).map e.toLinearMap := by
  rw [Submodule.map_span, ← Set.range_comp]; rfl

theorem picks_basisIn {p : ℕ} {amb raw : List (α × α)} {idx : List ℕ} {X : Basis α} {M : Mat}
    (h : Picks raw idx) (hbar : X.barcode = gather raw idx)
    (hco : X.coords = ⟨amb.length, gather M.cols idx⟩) (hcols : M.ncols = raw.length)
    (hlen : ∀ c ∈ M.cols, c.length = amb.length) (hred : ∀ c ∈ M.cols, RedL p c)
    (hborn : ∀ k b r c, raw[k]? = some b → amb[r]? = some c → M.zcol p k r ≠ 0 → c.1 ≤ b.1)
    (hflat : X.flat = false) (hdim : X.dim = X.barcode.length) (hsort : X.sorted = true)
    (hbr : X.brokenDiff = none) (hprev : X.prevDim = some amb.length) : BasisIn p amb X := by
  have hML : ∀ i ∈ idx, i < M.cols.length := fun i hi => by
    have := h.lt i hi
    unfold Mat.ncols at hcols
    omega
  have hmem : ∀ c ∈ gather M.cols idx, c ∈ M.cols := by
    intro c hc
    simp only [gather, List.mem_filterMap] at hc
    obtain ⟨k, -, hk⟩ := hc
    exact List.mem_of_getElem? hk
  refine ⟨hflat, hsort, hdim, hbr, hprev, ?_, by rw [hco], ?_, ?_, ?_, ?_⟩
  · intro b hb
    rw [hbar] at hb
    simp only [gather, List.mem_filterMap] at hb
    obtain ⟨k, hk, hk'⟩ := hb
    obtain ⟨b', h1, h2⟩ := (h.mem k).1 hk
    rw [hk', Option.some.injEq] at h1
    rw [h1]; exact h2
  · rw [hco, hbar]
    unfold Mat.ncols
    rw [length_gather hML, length_gather h.lt]
  · rw [hco]; intro c hc; exact hlen c (hmem c hc)
  · rw [hco]; intro c hc; exact hred c (hmem c hc)
  · intro r i a b ha hb hne
    rw [hbar, gather_getElem? h.lt] at ha
    cases hk : idx[i]? with
    | none => rw [hk] at ha; simp at ha
    | some k =>
      rw [hk] at ha
      refine hborn k a r b ha hb ?_
      have e : X.coords.zcol p i = M.zcol p k := by
        unfold Mat.zcol
        rw [hco, List.getD_eq_getElem?_getD, gather_getElem? hML, hk, List.getD_eq_getElem?_getD]
        rfl
      rw [← e]
      exact hne

theorem imageKernel_abs [Zero α] {rnd : α → α} {p : ℕ} {A B : Basis α} {F : Mat}
    (h : IKInput rnd p A B F) :
    ∃ im ker pre, imageKernel rnd p A B F 0 = .ok ⟨im, some ker, pre⟩ ∧
      BasisIn p A.barcode ker ∧ BasisIn p B.barcode im ∧
      IsBasisOf p A.barcode ker (kerAt p A.barcode B.barcode F) ∧
      (∀ t, LinearIndependent (ZMod p)
        (fun i : {i // AliveBar im.barcode i t ∧ barRestr p B.barcode t (im.coords.zcol p i) ≠ 0} =>
          barRestr p B.barcode t (im.coords.zcol p i)) ∧
        Submodule.span (ZMod p) (Set.range fun i : {i // AliveBar im.barcode i t ∧
          barRestr p B.barcode t (im.coords.zcol p i) ≠ 0} =>
            barRestr p B.barcode t (im.coords.zcol p i)) = imAt p A.barcode B.barcode F t) ∧
      (∀ t i b, im.barcode[i]? = some b → b.2 ≤ t →
        barRestr p B.barcode t (im.coords.zcol p i) = 0) ∧
      ((∀ t, imAt p A.barcode B.barcode F t = ⊥) → im.barcode = []) ∧
      (∀ c ∈ im.barcode, ∃ a ∈ A.barcode, c.1 = a.1) ∧
      (MonotoneDeaths A.barcode →
        IsBasisOf p B.barcode im (imAt p A.barcode B.barcode F) ∧
        pre.ncols = im.barcode.length ∧
        ∀ i, i < im.barcode.length → F.mulVecL p (pre.zcol p i) = im.coords.zcol p i) := by
  have := Fact.mk h.prime
  have hFok := h.mor.matOK
  obtain ⟨B', F1, retB, oB, σB, e1, hoB, hrB, hlB, hdB, hfB, hbB, hF1, hz1, -⟩ :=
    sortRange_spec rnd hFok h.dimB rfl h.flatB h.unbroken h.barsB
  obtain ⟨A', F2, retA, oA, σA, e2, hoA, hrA, hlA, hdA, hfA, hF2, hz2, hs1, hs2⟩ :=
    sortDomain_spec rnd hF1 h.dimA rfl h.flatA h.barsA
  have hz : ∀ i j, F2.z p i j = F.z p (σB i) (σA j) := fun i j => by rw [hz2, hz1]
  let E : IKEnv α := ⟨p, A', B', F2, 0⟩
  have memA : ∀ (i : ℕ) (a : α × α), A'.barcode[i]? = some a → a ∈ A.barcode := by
    intro i a ha
    rw [hrA] at ha
    exact List.mem_of_getElem? ha
  have hE : EnvOK E := {
    hp := h.prime
    lenA := hdA.trans hlA.symm
    lenB := hdB.trans hlB.symm
    flatA := hfA
    flatB := hfB
    mor := {
      rows := hF2.rows.trans hlB.symm
      cols := hF2.ncols.trans hlA.symm
      shape := fun c hc => (hF2.len c hc).trans hF2.rows.symm
      red := fun c hc => hF2.red c hc
      birth := fun r i a b ha hb hne => h.mor.birth (σB r) (σA i) a b (hrA i ▸ ha) (hrB r ▸ hb)
        (hz r i ▸ hne)
      death := fun r i a b ha hb hne => h.mor.death (σB r) (σA i) a b (hrA i ▸ ha) (hrB r ▸ hb)
        (hz r i ▸ hne) }
    wfA := fun b hb => by
      obtain ⟨i, hi, e⟩ := List.getElem_of_mem hb
      exact h.barsA b (memA i b (by rw [List.getElem?_eq_getElem hi, e]))
    sorted := by
      intro i j a a' hij ha ha'
      change A'.barcode[i]? = some a at ha
      change A'.barcode[j]? = some a' at ha'
      rcases Nat.lt_or_eq_of_le hij with hlt | rfl
      swap
      · rw [ha] at ha'; cases ha'; exact le_rfl
      obtain ⟨hi, e⟩ := List.getElem?_eq_some_iff.1 ha
      obtain ⟨hj, e'⟩ := List.getElem?_eq_some_iff.1 ha'
      cases hsA : A.sorted with
      | true =>
        have := List.pairwise_iff_getElem.1 (h.sorted hsA) i j (by rw [hs1 hsA] at hi; exact hi)
          (by rw [hs1 hsA] at hj; exact hj) hlt
        simp only [hs1 hsA] at e e'
        rwa [e, e'] at this
      | false =>
        have := List.pairwise_iff_getElem.1 (hs2 hsA) i j hi hj hlt
        rw [e, e'] at this
        refine h.rounding hsA a (memA i a ha) a' (memA j a' ha') ?_
        rcases this with h1 | h1
        · exact h1.le
        · exact h1.1.le }
  have hfull : E.full = true := by simp [IKEnv.full, E, hbB]
  obtain ⟨st, e3, hst⟩ := ikLoop_final hE hfull
  have hsh := hst.sh
  set n := A.barcode.length with hn
  set m := B.barcode.length with hm
  have hEA : E.A.dim = n := hdA
  have hEB : E.B.dim = m := hdB
  -- the image
  let rawI := (A'.barcode.map Prod.fst).zip st.imDeath
  let MI : Mat := ⟨retB.length, (st.im.gatherRows retB).cols⟩
  have hDl : st.imDeath.length = n := hsh.imDeath.trans hEA
  have hrawI : rawI.length = n := by simp [rawI, hDl, hlA]
  have hMI : MI.ncols = n := by
    have := hsh.im.ncols
    simpa [MI, Mat.ncols, Mat.gatherRows, hEA] using this
  obtain ⟨b0, im, ordI, idxI, f1, f2, f3, f4, f5, f6, f8, f9, f10, f11, f12, f7⟩ :=
    build_sort rnd (raw := rawI) (m := m) (M := MI) (sw := true) hoB.rlen (hMI.trans hrawI.symm)
      (fun _ e => by
        rw [e] at hrawI
        exact h.nonempty (List.length_eq_zero_iff.1 hrawI.symm))
  -- the kernel
  let rawK := st.kerBar.take st.kdim
  let MK : Mat := ⟨retA.length, (st.ker.gatherRows retA).cols.take st.kdim⟩
  have hkd : st.kdim ≤ n := hsh.kdim.trans hEA.le
  have hrawK : rawK.length = st.kdim := by
    have := hsh.kerBar
    simp [rawK]; omega
  have hMK : MK.ncols = st.kdim := by
    have := hsh.ker.ncols
    simp [MK, Mat.ncols, Mat.gatherRows]; omega
  obtain ⟨k0, ker, ordK, idxK, g1, g2, g3, g4, g5, g6, g8, g9, g10, g11, g12, -⟩ :=
    build_sort rnd (raw := rawK) (m := n) (M := MK) (sw := false) hoA.rlen (hMK.trans hrawK.symm)
      (fun e => by cases e)
  -- the preimages
  let MT : Mat := ⟨retA.length, st.T.cols.map fun c => gather c retA⟩
  have hMT : MT.ncols = n := by
    have := hsh.T.ncols
    simpa [MT, Mat.ncols, hEA] using this
  have hpivI : ∀ q ∈ st.pivIm, q = -1 := by
    intro q hq
    obtain ⟨j, hj, rfl⟩ := List.getElem_of_mem hq
    have := hst.im j (hsh.pivIm ▸ hj)
    unfold IK.piv at this
    rwa [List_getD_eq_getElem _ _ hj] at this
  have hpivK : ∀ q ∈ st.pivKer.take st.kdim, q = -1 := by
    intro q hq
    obtain ⟨j, hj, rfl⟩ := List.getElem_of_mem hq
    rw [List.getElem_take]
    have hj' : j < st.kdim := by simp at hj; omega
    have := hst.ker j hj'
    unfold IK.rho at this
    rwa [List_getD_eq_getElem] at this
  have hkI : killAlive E.radii.getLast? st.pivIm st.imDeath = st.imDeath :=
    killAlive_eq (hsh.pivIm.trans hsh.imDeath.symm) hpivI
  have hkK : killAlive E.radii.getLast? (st.pivKer.take st.kdim)
      ((st.kerBar.take st.kdim).map Prod.snd) = (st.kerBar.take st.kdim).map Prod.snd :=
    killAlive_eq (by simp [hsh.pivKer, hsh.kerBar]) hpivK
  have hzip : (((st.kerBar.take st.kdim).map Prod.fst).zip
      ((st.kerBar.take st.kdim).map Prod.snd)) = rawK := by
    rw [List.zip_map']
    exact List.map_id _
  have hret : retA.all (fun i => decide (i < A'.dim - 0)) = true := by
    rw [List.all_eq_true]
    intro i hi
    have := hoA.rmem_lt i hi
    simp; omega
  -- columns
  have hzI : ∀ k, k < n → MI.zcol p k = reName σB (E.V st k) := by
    intro k hk
    exact zv_gatherRows hsh.im (hEB ▸ hoB) (hEA ▸ hk)
  have hzT : ∀ k, k < n → MT.zcol p k = reName σA (E.Tc st k) := by
    intro k hk
    exact zv_gatherRows hsh.T (hEA ▸ hoA) (hEA ▸ hk)
  have hzK : ∀ k, k < st.kdim → MK.zcol p k = reName σA (E.Kc st k) := by
    intro k hk
    have hk' : k < n := by omega
    have := zv_gatherRows (p := p) hsh.ker (hEA ▸ hoA) (k := k) (hEA ▸ hk')
    rw [IKEnv.Kc, ← this]
    unfold Mat.zcol
    congr 1
    simp only [MK, Mat.gatherRows, List.getD_eq_getElem?_getD, List.getElem?_take, hk, if_true]
  have hlenI : ∀ c ∈ MI.cols, c.length = m := by
    intro c hc
    simp only [MI, Mat.gatherRows, List.mem_map] at hc
    obtain ⟨c', hc', rfl⟩ := hc
    exact hoB.gather_rlen ((hsh.im.len c' hc').trans hEB)
  have hlenK : ∀ c ∈ MK.cols, c.length = n := by
    intro c hc
    simp only [MK, Mat.gatherRows] at hc
    obtain ⟨c', hc', rfl⟩ := List.mem_map.1 (List.mem_of_mem_take hc)
    exact hoA.gather_rlen ((hsh.ker.len c' hc').trans hEA)
  have hrI : ∀ t k, k < n → barRestr p B.barcode t (MI.zcol p k) =
      reName σB (restr (ActBy (· ≤ t) E.B.barcode) (E.V st k)) := by
    intro t k hk
    rw [hzI k hk, hrB.restr, barRestr_eq]
  have hrK : ∀ t k, k < st.kdim → barRestr p A.barcode t (MK.zcol p k) =
      reName σA (restr (ActBy (· ≤ t) E.A.barcode) (E.Kc st k)) := by
    intro t k hk
    rw [hzK k hk, hrA.restr, barRestr_eq]
  have hker : ∀ t, (LinearMap.range (restr (ActBy (· ≤ t) E.A.barcode)) ⊓
      LinearMap.ker (E.mor (· ≤ t))).map (reName σA).toLinearMap =
      kerAt p A.barcode B.barcode F t := by
    intro t
    rw [kerAt_reName hrA hrB h.mor.cols hF2.ncols hoA.lt hz t, mor_eq_morAt, ← barRestr_eq]
    rfl
  have him : ∀ t, (LinearMap.range (E.mor (· ≤ t))).map (reName σB).toLinearMap =
      imAt p A.barcode B.barcode F t := by
    intro t
    rw [imAt_reName hrA hrB h.mor.cols hF2.ncols hoA.lt hz t, mor_eq_morAt, imAt_eq_range]
  have hrawget : ∀ (j : ℕ) (b : α × α), rawI[j]? = some b ↔
      ∃ a, A'.barcode[j]? = some a ∧ st.imDeath[j]? = some b.2 ∧ b.1 = a.1 := by
    intro j b
    rw [List.getElem?_zip_eq_some, List.getElem?_map]
    constructor
    · rintro ⟨h1, h2⟩
      obtain ⟨a, ha, e⟩ := Option.map_eq_some_iff.1 h1
      exact ⟨a, ha, h2, e.symm⟩
    · rintro ⟨a, ha, h2, e⟩
      exact ⟨by rw [ha, e]; rfl, h2⟩
  -- the image at a radius
  have hU : ∀ t, ∃ U : Finset ℕ, (∀ j ∈ U, AliveBar rawI j t) ∧
      (∀ (j : ℕ) (b : α × α), rawI[j]? = some b → b.1 ≤ t → j ∉ U →
        barRestr p B.barcode t (MI.zcol p j) = 0 ∧ (E.MonoDeath → b.2 ≤ t)) ∧
      (LinearIndependent (ZMod p) fun k : U => barRestr p B.barcode t (MI.zcol p k)) ∧
      (Submodule.span (ZMod p) (Set.range fun k : U => barRestr p B.barcode t (MI.zcol p k)) =
        imAt p A.barcode B.barcode F t) := by
    intro t
    obtain ⟨U, W, h1, h2, h3, h4, -⟩ := hst.rows t
    have hUn : ∀ j ∈ U, j < n := by
      intro j hj
      obtain ⟨b, d, hb, -⟩ := h1 j hj
      have := (List.getElem?_eq_some_iff.1 hb).1
      change j < A'.barcode.length at this
      omega
    have e : (fun k : U => barRestr p B.barcode t (MI.zcol p k)) =
        fun k : U => reName σB (restr (ActBy (· ≤ t) E.B.barcode) (E.V st k)) :=
      funext fun k => hrI t k (hUn k k.2)
    refine ⟨U, ?_, ?_, ?_, ?_⟩
    · intro j hj
      obtain ⟨b, d, hb, hd, h5, h6⟩ := h1 j hj
      exact ⟨(b.1, d), (hrawget j _).2 ⟨b, hb, hd, rfl⟩, h5, h6⟩
    · intro j b hb hbt hjU
      obtain ⟨a, ha, hd, e⟩ := (hrawget j b).1 hb
      have hjn : j < n := by
        have := (List.getElem?_eq_some_iff.1 ha).1; omega
      obtain ⟨h5, h6⟩ := h2 j ⟨a, ha, e ▸ hbt⟩ hjU
      refine ⟨?_, fun hm => h6 hm _ hd⟩
      rw [hrI t j hjn, restr_eq_zero.2 h5, map_zero]
    · rw [e]; exact indep_map _ h3
    · rw [e, span_map, h4, him]
  have hzim : ∀ i k, idxI[i]? = some k → im.coords.zcol p i = MI.zcol p k := by
    intro i k hk
    have hML : ∀ i ∈ idxI, i < MI.cols.length := fun i hi => by
      have := f4.lt i hi
      unfold Mat.ncols at hMI
      omega
    unfold Mat.zcol
    rw [f6, List.getD_eq_getElem?_getD, gather_getElem? hML, hk, List.getD_eq_getElem?_getD]
    rfl
  have hzker : ∀ i k, idxK[i]? = some k → ker.coords.zcol p i = MK.zcol p k := by
    intro i k hk
    have hML : ∀ i ∈ idxK, i < MK.cols.length := fun i hi => by
      have := g4.lt i hi
      unfold Mat.ncols at hMK
      omega
    unfold Mat.zcol
    rw [g6, List.getD_eq_getElem?_getD, gather_getElem? hML, hk, List.getD_eq_getElem?_getD]
    rfl
  have redI : ∀ c ∈ MI.cols, RedL p c := by
    intro c hc x hx
    simp only [MI, Mat.gatherRows, List.mem_map] at hc
    obtain ⟨c', hc', rfl⟩ := hc
    simp only [gather, List.mem_filterMap] at hx
    obtain ⟨k, -, hk⟩ := hx
    exact hsh.im.red c' hc' x (List.mem_of_getElem? hk)
  have redK : ∀ c ∈ MK.cols, RedL p c := by
    intro c hc x hx
    simp only [MK, Mat.gatherRows] at hc
    obtain ⟨c', hc', rfl⟩ := List.mem_map.1 (List.mem_of_mem_take hc)
    simp only [gather, List.mem_filterMap] at hx
    obtain ⟨k, -, hk⟩ := hx
    exact hsh.ker.red c' hc' x (List.mem_of_getElem? hk)
  have bornI : ∀ k b r c, rawI[k]? = some b → B.barcode[r]? = some c → MI.zcol p k r ≠ 0 →
      c.1 ≤ b.1 := by
    intro k b r c hb hc hne
    obtain ⟨a, ha, -, e⟩ := (hrawget k b).1 hb
    have hkn : k < n := by
      have := (List.getElem?_eq_some_iff.1 ha).1; omega
    rw [hzI k hkn, reName_apply] at hne
    obtain ⟨τ, hτ, e'⟩ := hst.g1 k (hEA ▸ hkn)
    rw [e'] at hne
    obtain ⟨b', h1, h2⟩ := hE.ev_supp (down_le b.1)
      (hE.tri_born (down_le b.1) hτ ⟨a, ha, e ▸ le_rfl⟩) _ hne
    change B'.barcode[_]? = _ at h1
    rw [hrB, Equiv.apply_symm_apply, hc, Option.some.injEq] at h1
    rw [h1]; exact h2
  have bornK : ∀ k b r c, rawK[k]? = some b → A.barcode[r]? = some c → MK.zcol p k r ≠ 0 →
      c.1 ≤ b.1 := by
    intro k b r c hb hc hne
    have hk : k < st.kdim := by
      have := (List.getElem?_eq_some_iff.1 hb).1; omega
    simp only [rawK, List.getElem?_take, hk, if_true] at hb
    rw [hzK k hk, reName_apply] at hne
    obtain ⟨b', h1, h2⟩ := hst.kbs k hk b hb _ hne
    change A'.barcode[_]? = _ at h1
    rw [hrA, Equiv.apply_symm_apply, hc, Option.some.injEq] at h1
    rw [h1]; exact h2
  refine ⟨im, ker, ⟨MT.nrows, gather MT.cols idxI⟩, ?_,
    picks_basisIn g4 g5 g6 (hMK.trans hrawK.symm) hlenK redK bornK g8 g9 g10 g11 g12,
    picks_basisIn f4 f5 f6 (hMI.trans hrawI.symm) hlenI redI bornI f8 f9 f10 f11 f12, ?_, ?_, ?_, ?_,
    ?_, ?_⟩
  · unfold imageKernel
    rw [if_neg (by
      push Not
      exact ⟨h.dimB.trans h.mor.rows.symm, h.dimA.trans h.mor.cols.symm⟩)]
    simp only [e1, e2, bind, Except.bind, hfA, Bool.false_eq_true, if_false]
    have e3' : ikLoop ⟨p, A', B', F2, 0⟩ (IKEnv.radii ⟨p, A', B', F2, 0⟩)
      (IKEnv.init ⟨p, A', B', F2, 0⟩) = .ok st := e3
    rw [e3']
    simp only
    change ikFinish rnd E A.dim B.dim retA retB st = _
    unfold ikFinish
    rw [hkI, hkK]
    dsimp only
    rw [hzip, hfull, h.dimA, h.dimB, ← hn, ← hm]
    have f1' : Basis.init (List.drop E.start ((List.map Prod.fst E.A.barcode).zip st.imDeath)) false
        (some m) ⟨retB.length, List.drop E.start (st.im.gatherRows retB).cols⟩ true false none
        = .ok b0 := f1
    rw [f1']
    have hret' : (retA.all fun i => decide (i < E.A.dim - E.start)) = true := hret
    simp only [bind, Except.bind, hret', if_true, f3]
    have g1' : Basis.init rawK false (some n) ⟨retA.length,
      (st.ker.gatherRows retA).cols.take st.kdim⟩ false false none = .ok k0 := g1
    rw [g1']
    simp only [g3, pure, Except.pure, f2, if_true, Option.getD_some, Mat.gatherCols]
    rw [f7]
    · rfl
    · simpa [Mat.ncols, MT, E] using hMT.trans hrawI.symm
  · refine picks_isBasisOf g4 g5 (by rw [g6]) (hMK.trans hrawK.symm) hlenK ?_
    intro t
    obtain ⟨U, W, -, -, -, -, h5, h6, h7, h8⟩ := hst.rows t
    have hWn : ∀ k ∈ W, k < st.kdim := fun k hk => ((h5 k).1 hk).1
    have e : (fun k : W => barRestr p A.barcode t (MK.zcol p k)) =
        fun k : W => reName σA (restr (ActBy (· ≤ t) E.A.barcode) (E.Kc st k)) :=
      funext fun k => hrK t k (hWn k k.2)
    have hget : ∀ (k : ℕ) (b : α × α), rawK[k]? = some b ↔ k < st.kdim ∧ st.kerBar[k]? = some b := by
      intro k b
      simp only [rawK, List.getElem?_take]
      by_cases hk : k < st.kdim <;> simp [hk]
    refine ⟨W, ?_, ?_, ?_, ?_⟩
    · intro k
      rw [h5]
      unfold AliveBar
      constructor
      · rintro ⟨hk, b, hb, h9⟩
        exact ⟨b, (hget k b).2 ⟨hk, hb⟩, h9⟩
      · rintro ⟨b, hb, h9⟩
        exact ⟨((hget k b).1 hb).1, b, ((hget k b).1 hb).2, h9⟩
    · rw [e]; exact indep_map _ h6
    · rw [e, span_map, h7, hker]
    · intro k b hb hlt hbt
      obtain ⟨hk, hb'⟩ := (hget k b).1 hb
      rw [hrK t k hk, restr_eq_zero.2, map_zero]
      refine h8 k hk b hb' (hlt.le.trans hbt) ?_
      intro hkW
      obtain ⟨-, b', hb2, -, h9⟩ := (h5 k).1 hkW
      rw [hb', Option.some.injEq] at hb2
      subst hb2
      exact absurd hbt (not_le.2 h9)
  · intro t
    obtain ⟨U, u1, u2, u3, u4⟩ := hU t
    have := picks_basis (K := ZMod p) f4.nodup (W := U)
      (S := fun i => AliveBar im.barcode i t ∧ barRestr p B.barcode t (im.coords.zcol p i) ≠ 0)
      (u := fun i => barRestr p B.barcode t (im.coords.zcol p i))
      (v := fun k => barRestr p B.barcode t (MI.zcol p k))
      (fun i hi => by
        rw [f5, f4.alive] at hi
        obtain ⟨⟨k, hk, -⟩, -⟩ := hi
        exact (List.getElem?_eq_some_iff.1 hk).1)
      (fun i k hk => by
        rw [f5, f4.alive, hzim i k hk, hk]
        constructor
        · rintro ⟨⟨k', hk', b, hb, hb1, hb2⟩, hne⟩
          rw [Option.some.injEq] at hk'
          subst hk'
          by_contra hkU
          exact hne (u2 k b hb hb1 hkU).1
        · intro hkU
          exact ⟨⟨k, rfl, u1 k hkU⟩, u3.ne_zero ⟨k, hkU⟩⟩)
      (fun k hk => f4.mem_of_alive (u1 k hk))
      (fun i k hk => by rw [hzim i k hk])
    exact ⟨this.1 u3, by rw [this.2]; exact u4⟩
  · intro t i b hb hbt
    rw [f5, gather_getElem? f4.lt] at hb
    cases hk : idxI[i]? with
    | none => rw [hk] at hb; simp at hb
    | some k =>
      rw [hk] at hb
      have hb' : rawI[k]? = some b := hb
      obtain ⟨U, u1, u2, -⟩ := hU t
      obtain ⟨b', h5, h6⟩ := (f4.mem k).1 (List.mem_of_getElem? hk)
      rw [hb', Option.some.injEq] at h5
      subst h5
      rw [hzim i k hk]
      refine (u2 k b hb' (h6.le.trans hbt) ?_).1
      intro hkU
      obtain ⟨b', hb2, -, h9⟩ := u1 k hkU
      rw [hb', Option.some.injEq] at hb2
      subst hb2
      exact absurd hbt (not_le.2 h9)
  · intro h0
    have hzero : ZeroMor E := by
      intro j a ha r hr
      have h1 := him a.1
      rw [h0 a.1] at h1
      have h2 : E.mor (· ≤ a.1) (Pi.single j 1) = 0 := by
        have h3 : reName σB (E.mor (· ≤ a.1) (Pi.single j 1)) ∈
            (LinearMap.range (E.mor (· ≤ a.1))).map (reName σB).toLinearMap :=
          ⟨_, ⟨_, rfl⟩, rfl⟩
        rw [h1, Submodule.mem_bot] at h3
        exact (reName σB).map_eq_zero_iff.1 h3
      have h4 := congrFun h2 r
      rw [hE.mor_eq (down_le a.1) (fun i hi => by
        by_cases hij : i = j
        · subst hij; exact ⟨a, ha, le_rfl⟩
        · rw [Pi.single_eq_of_ne hij] at hi; exact absurd rfl hi) r hr, hE.ev_apply,
        Finset.sum_eq_single j] at h4
      · simpa using h4
      · intro k _ hk; simp [hk]
      · intro hj
        exact absurd (mem_range.2 (hE.lenA ▸ (List.getElem?_eq_some_iff.1 ha).1)) hj
    have hzi := (ZInv.init hE).loop hE hfull hzero _ e3
    rw [f5]
    have : idxI = [] := by
      rw [List.eq_nil_iff_forall_not_mem]
      intro k hk
      obtain ⟨b, hb, hlt⟩ := (f4.mem k).1 hk
      obtain ⟨a, ha, hd, e⟩ := (hrawget k b).1 hb
      have hkn : k < E.A.dim := by rw [hE.lenA]; exact (List.getElem?_eq_some_iff.1 ha).1
      rcases hzi.piv k hkn with h1 | ⟨-, h1⟩
      · rw [hst.im k hkn] at h1; omega
      · change st.imDeath[k]? = (A'.barcode[k]?).map Prod.fst at h1
        rw [hd, ha] at h1
        simp only [Option.map_some, Option.some.injEq] at h1
        rw [e, h1] at hlt
        exact lt_irrefl _ hlt
    rw [this]; rfl
  · intro c hc
    rw [f5] at hc
    simp only [gather, List.mem_filterMap] at hc
    obtain ⟨k, -, hk⟩ := hc
    obtain ⟨a, ha, -, e⟩ := (hrawget k c).1 hk
    exact ⟨a, memA k a ha, e⟩
  · intro hmono
    have hM : E.MonoDeath := by
      intro i j a a' hij ha ha'
      exact hmono a (memA i a ha) a' (memA j a' ha') (hE.sorted i j a a' hij ha ha')
    have hML : ∀ i ∈ idxI, i < MT.cols.length := fun i hi => by
      have := f4.lt i hi
      unfold Mat.ncols at hMT
      omega
    refine ⟨?_, ?_, ?_⟩
    · refine picks_isBasisOf f4 f5 (by rw [f6]) (hMI.trans hrawI.symm) hlenI ?_
      intro t
      obtain ⟨U, u1, u2, u3, u4⟩ := hU t
      refine ⟨U, fun k => ⟨u1 k, ?_⟩, u3, u4, ?_⟩
      · rintro ⟨b, hb, hb1, hb2⟩
        by_contra hkU
        exact absurd ((u2 k b hb hb1 hkU).2 hM) (not_le.2 hb2)
      · intro k b hb hlt hbt
        refine (u2 k b hb (hlt.le.trans hbt) ?_).1
        intro hkU
        obtain ⟨b', hb2, -, h9⟩ := u1 k hkU
        rw [hb, Option.some.injEq] at hb2
        subst hb2
        exact absurd hbt (not_le.2 h9)
    · unfold Mat.ncols
      rw [length_gather hML, f5, length_gather f4.lt]
    · intro i hi
      rw [f5, length_gather f4.lt] at hi
      have hk : idxI[i]? = some idxI[i] := List.getElem?_eq_getElem hi
      have hkn : idxI[i] < n := by
        have := f4.lt _ (List.getElem_mem hi); omega
      have e : Mat.zcol p ⟨MT.nrows, gather MT.cols idxI⟩ i = MT.zcol p idxI[i] := by
        unfold Mat.zcol
        rw [List.getD_eq_getElem?_getD, gather_getElem? hML, hk, List.getD_eq_getElem?_getD]
        rfl
      rw [e, hzim i _ hk, hzT _ hkn, hzI _ hkn,
        mulVecL_reName h.mor.cols hF2.ncols hoA.lt hz, hst.gm hM _ (hEA ▸ hkn)]
      rfl

end Permaviss
