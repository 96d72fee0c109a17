import Verif.Lemmas.BrokenMultiIm

/-!
# Extension problems with any number of levels
-/

attribute [-instance] instMulZeroClassOfSemiring

namespace Permaviss

open Finset

variable {α : Type} [LinearOrder α]

theorem mtr_rename {p : ℕ} {σ : Equiv.Perm ℕ} {bars sb : List (α × α)} (hre : ReBars σ bars sb)
    {BD BD' : Mat} (hz : ∀ i j, BD'.z p i j = BD.z p (σ i) (σ j)) (L : List α) (P : α → Prop) (j : ℕ) :
    mtr p BD bars L P (σ j) = reName σ (mtr p BD' sb L P j) := by
  classical
  have hD : ∀ r i, i ∈ dieAt sb r ↔ σ i ∈ dieAt bars r := by
    intro r i
    rw [mem_dieAt, mem_dieAt, hre i]
  have hstep : ∀ r (v : ℕ → ZMod p), brkUpd p BD (dieAt bars r) (reName σ v) =
      reName σ (brkUpd p BD' (dieAt sb r) v) := by
    intro r v
    funext i
    rw [reName_apply, brkUpd_apply, brkUpd_apply]
    congr 1
    · have := hD r (σ.symm i)
      rw [Equiv.apply_symm_apply] at this
      by_cases hi : i ∈ dieAt bars r
      · rw [if_pos hi, if_pos (this.2 hi)]
      · rw [if_neg hi, if_neg (fun h => hi (this.1 h)), reName_apply]
    · symm
      refine Finset.sum_nbij σ ?_ ?_ ?_ ?_
      · intro k hk; exact (hD r k).1 hk
      · exact σ.injective.injOn
      · intro k hk
        refine ⟨σ.symm k, ?_, by simp⟩
        have := hD r (σ.symm k)
        rw [Equiv.apply_symm_apply] at this
        exact this.2 hk
      · intro k _
        rw [hz, Equiv.apply_symm_apply, reName_apply, Equiv.symm_apply_apply]
  unfold mtr
  have key : ∀ (l : List α) (v v' : ℕ → ZMod p), v = reName σ v' →
      l.foldl (fun v r => brkUpd p BD (dieAt bars r) v) v =
      reName σ (l.foldl (fun v r => brkUpd p BD' (dieAt sb r) v) v') := by
    intro l
    induction l with
    | nil => intro v v' h; exact h
    | cons r l ih =>
      intro v v' h
      rw [List.foldl_cons, List.foldl_cons]
      refine ih _ _ ?_
      rw [h, hstep]
  refine key _ _ _ ?_
  funext i
  rw [reName_apply]
  by_cases hi : i = σ j
  · subst hi; simp
  · have h2 : σ.symm i ≠ j := by
      rintro rfl; exact hi (by simp)
    rw [Pi.single_eq_of_ne hi, Pi.single_eq_of_ne h2]

theorem glueBars_mul [Zero α] {rnd : α → α} {p : ℕ} {R : α} {bars : List (α × α)} {BD : Mat}
    (h : ExtLevels rnd p R bars BD) {L : List α} (hL : EndsOK bars L) {Q : Basis α}
    (hok : glueBars rnd p R bars BD = .ok Q) : Q.flat = false ∧ Q.sorted = true ∧
      Q.dim = Q.barcode.length ∧ (∀ b ∈ Q.barcode, b.1 < b.2) ∧
      ∀ s t, s ≤ t → barsThrough Q.barcode s t = Module.finrank (ZMod p)
        (Submodule.span (ZMod p) {x | ∃ j, BornBy (· ≤ s) bars j ∧ x = mtr p BD bars L (· ≤ t) j}) := by
  classical
  have := Fact.mk h.prime
  set n := bars.length with hn
  have hnp : 0 < n := List.length_pos_iff.2 h.ne
  have hfil : bars.filter (fun b => decide (b.1 < b.2)) = bars := by
    rw [List.filter_eq_self]; intro b hb; simpa using (h.wf b hb).1
  set order := sortOrder rnd bars with horder
  obtain ⟨σ, hσ⟩ := exists_isOrder (sortOrder_perm rnd bars)
  rw [← horder, ← hn] at hσ
  set sb := gather bars order with hsb
  have hsbl : sb.length = n := hσ.gather_len hn.symm
  have hsbg : ∀ i, sb[i]? = bars[σ i]? := hσ.gather_get hn.symm
  have hre : ReBars σ bars sb := hsbg
  let BD' : Mat := ⟨order.length, (gather BD.cols order).map fun c => gather c order⟩
  let A : Basis α := ⟨sb.map fun b => (b.1, R), false, n, none, ⟨1, []⟩, true, none, none⟩
  let B : Basis α := ⟨sb, false, n, none, ⟨1, []⟩, true, none, some BD'⟩
  let F : Mat := ⟨order.length, (gather (identityCols n) order).map fun c => gather c order⟩
  have hcolsF : ∀ j, j < n → zv p (F.col j) = Pi.single j 1 := by
    intro j hj
    have hsj := (hσ.lt j).2 hj
    have e : F.col j = gather ((identityCols n)[σ j]'(by rw [length_identityCols]; exact hsj)) order := by
      simp only [F, Mat.col, List.getD_eq_getElem?_getD, List.getElem?_map]
      rw [hσ.gather_get (length_identityCols n),
        List.getElem?_eq_getElem (by rw [length_identityCols]; exact hsj)]
      rfl
    rw [e, hσ.zv_gather (by rw [identityCols_getElem]; simp), zv_identityCols]
    funext i
    by_cases hij : i = j
    · subst hij; simp
    · rw [Pi.single_eq_of_ne hij, Pi.single_eq_of_ne (fun e => hij (σ.injective e))]
  have hFok : MatOK p n n F := by
    have hI := identity_ok h.prime.one_lt n
    refine ⟨hσ.len, ?_, ?_, ?_⟩
    · simp only [F, Mat.ncols, List.length_map]
      exact hσ.gather_len (length_identityCols n)
    · intro c hc
      simp only [F, List.mem_map] at hc
      obtain ⟨c', hc', rfl⟩ := hc
      simp only [gather, List.mem_filterMap] at hc'
      obtain ⟨k, -, hk⟩ := hc'
      exact hσ.gather_len (hI.len c' (List.mem_of_getElem? hk))
    · intro c hc x hx
      simp only [F, List.mem_map] at hc
      obtain ⟨c', hc', rfl⟩ := hc
      simp only [gather, List.mem_filterMap] at hc' hx
      obtain ⟨k, -, hk⟩ := hc'
      obtain ⟨k', -, hk'⟩ := hx
      exact hI.red c' (List.mem_of_getElem? hk) x (List.mem_of_getElem? hk')
  have hzBD : ∀ i j, BD'.z p i j = BD.z p (σ i) (σ j) := by
    intro i j
    unfold Mat.z Mat.get
    congr 1
    simp only [BD', List.getD_eq_getElem?_getD, List.getElem?_map]
    rw [hσ.gather_get h.ncols]
    cases hc : BD.cols[σ j]? with
    | none => simp
    | some c =>
      simp only [Option.map_some, Option.getD_some]
      rw [hσ.gather_get (h.len c (List.mem_of_getElem? hc))]
  have hmem : ∀ b ∈ sb, b ∈ bars := by
    intro b hb
    obtain ⟨i, hi⟩ := List.getElem?_of_mem hb
    rw [hsbg] at hi
    exact List.mem_of_getElem? hi
  let E : IKEnv α := ⟨p, A, B, F, 0⟩
  have hLs : EndsOK sb L := by
    refine ⟨hL.sorted, fun x => ?_⟩
    rw [hL.mem]
    constructor
    · rintro ⟨b, hb, rfl⟩
      obtain ⟨i, hi⟩ := List.getElem?_of_mem hb
      refine ⟨b, List.mem_of_getElem? (i := σ.symm i) ?_, rfl⟩
      rw [hsbg, Equiv.apply_symm_apply]; exact hi
    · rintro ⟨b, hb, rfl⟩
      exact ⟨b, hmem b hb, rfl⟩
  have hE : MulOK E BD' L R := {
    hp := h.prime
    lenB := hsbl.symm
    dims := rfl
    flatA := rfl
    flatB := rfl
    brk := rfl
    start := rfl
    F := hFok
    f := fun j hj => hcolsF j hj
    barsA := rfl
    wf := fun b hb => h.wf b (hmem b hb)
    bdN := by
      simp only [BD', List.length_map]
      exact hσ.gather_len h.ncols
    bdL := by
      intro c hc
      simp only [BD', List.mem_map] at hc
      obtain ⟨c', hc', rfl⟩ := hc
      simp only [gather, List.mem_filterMap] at hc'
      obtain ⟨k, -, hk⟩ := hc'
      exact hσ.gather_len (h.len c' (List.mem_of_getElem? hk))
    ends := hLs
    life := by
      intro i j bi bj hi hj hne
      change sb[i]? = some bi at hi
      change sb[j]? = some bj at hj
      change BD'.z p i j ≠ 0 at hne
      rw [hsbg] at hi hj
      rw [hzBD] at hne
      exact h.life _ _ _ _ hi hj hne }
  have : Fact E.p.Prime := ⟨h.prime⟩
  have i1 : Basis.init bars false none ⟨1, []⟩ false false none =
      .ok (⟨bars, false, n, none, ⟨1, []⟩, false, none, none⟩ : Basis α) := by
    simp [Basis.init, initCoords, hfil, hn]
  have i2 : Basis.init bars false none ⟨1, []⟩ false true (some BD) =
      .ok (⟨bars, false, n, none, ⟨1, []⟩, false, none, some BD⟩ : Basis α) := by
    simp [Basis.init, initCoords, hfil, h.rows, h.ncols, ← hn]
  have hg : glueBars rnd p R bars BD = (imageKernel rnd p A B F 0).bind fun out => .ok out.im := by
    unfold glueBars
    simp only [i1, i2, bind, Except.bind, Basis.sort, Bool.false_eq_true, if_false, Option.isSome_none,
      Option.map_none, Option.map_some]
    rfl
  rw [hg] at hok
  cases e3 : ikLoop E E.radii E.init with
  | error e =>
    exfalso
    have : imageKernel rnd p A B F 0 = .error e := by
      unfold imageKernel
      rw [if_neg (by
        push Not
        exact ⟨hFok.rows.symm, hFok.ncols.symm⟩)]
      have e1 : sortRange rnd B F = .ok (B, F, List.range n) := by simp [sortRange, B]
      have e2 : sortDomain rnd A F 0 = .ok (A, F, List.range n) := by simp [sortDomain, A]
      simp only [e1, e2, bind, Except.bind]
      have e3' : ikLoop ⟨p, A, B, F, 0⟩ (IKEnv.radii ⟨p, A, B, F, 0⟩)
        (IKEnv.init ⟨p, A, B, F, 0⟩) = .error e := e3
      rw [if_neg (by simp [A]), e3']
    rw [this] at hok
    cases hok
  | ok st =>
  have hst := ikLoop_mul hE st e3
  have hDl : st.imDeath.length = n := hst.imDeath
  have hpivI : ∀ q ∈ st.pivIm, q = -1 := by
    intro q hq
    obtain ⟨j, hj, rfl⟩ := List.getElem_of_mem hq
    have := hst.dead j (hst.pivIm ▸ hj)
    unfold IK.piv at this
    rwa [List_getD_eq_getElem _ _ hj] at this
  have hkI : killAlive E.radii.getLast? st.pivIm st.imDeath = st.imDeath :=
    killAlive_eq (hst.pivIm.trans hst.imDeath.symm) hpivI
  let raw := (A.barcode.map Prod.fst).zip st.imDeath
  have hraw : raw.length = n := by simp [raw, A, hDl, hsbl]
  let MI : Mat := ⟨(List.range n).length, (st.im.gatherRows (List.range n)).cols⟩
  have hMI : MI.ncols = n := by
    have := hst.im.ncols
    simp [MI, Mat.ncols, Mat.gatherRows, this, E, A]
  obtain ⟨b0, Q', ordI, idx, f1, f2, f3, f4, f5, f6, f7, f8, f9, -⟩ :=
    build_sort rnd (raw := raw) (m := n) (M := MI) (sw := true) (by simp [MI]) (hMI.trans hraw.symm)
      (fun _ e => by rw [e] at hraw; simp at hraw; omega)
  have hIK : ∃ pre, imageKernel rnd p A B F 0 = .ok ⟨Q', none, pre⟩ := by
    unfold imageKernel
    rw [if_neg (by
      push Not
      exact ⟨hFok.rows.symm, hFok.ncols.symm⟩)]
    have e1 : sortRange rnd B F = .ok (B, F, List.range n) := by simp [sortRange, B]
    have e2 : sortDomain rnd A F 0 = .ok (A, F, List.range n) := by simp [sortDomain, A]
    simp only [e1, e2, bind, Except.bind]
    have e3' : ikLoop ⟨p, A, B, F, 0⟩ (IKEnv.radii ⟨p, A, B, F, 0⟩)
      (IKEnv.init ⟨p, A, B, F, 0⟩) = .ok st := e3
    rw [if_neg (by simp [A]), e3']
    simp only
    change ∃ pre, ikFinish rnd E n n (List.range n) (List.range n) st = _
    unfold ikFinish
    rw [hkI]
    dsimp only
    rw [hE.full]
    have f1' : Basis.init (List.drop E.start ((List.map Prod.fst E.A.barcode).zip st.imDeath)) false
        (some n) ⟨(List.range n).length, List.drop E.start (st.im.gatherRows (List.range n)).cols⟩
        true false none = .ok b0 := f1
    rw [f1']
    have hret : ((List.range n).all fun i => decide (i < E.A.dim - E.start)) = true := by
      simp [E, A]
    simp only [bind, Except.bind, hret, if_true, f3, pure, Except.pure, Bool.false_eq_true,
      if_false]
    exact ⟨_, rfl⟩
  obtain ⟨pre, hIK⟩ := hIK
  rw [hIK] at hok
  obtain rfl : Q' = Q := Except.ok.inj hok
  refine ⟨f7, f9, f8, ?_, ?_⟩
  · intro b hb
    rw [f5] at hb
    simp only [gather, List.mem_filterMap] at hb
    obtain ⟨i, hi, hi'⟩ := hb
    obtain ⟨b', h1, h2⟩ := (f4.mem i).1 hi
    rw [h1, Option.some.injEq] at hi'
    exact hi' ▸ h2
  intro s t hst'
  have hsorted : sb.Pairwise fun a b => a.1 ≤ b.1 := by
    refine (gather_sort_pairwise rnd bars).imp_of_mem ?_
    intro a b ha hb hab
    refine h.rounding a (hmem a ha) b (hmem b hb) ?_
    rcases hab with h1 | h1
    · exact h1.le
    · exact h1.1.le
  obtain ⟨ms, hms1, hms2⟩ := exists_prefix _ hsorted s
  have hcnt := hst.count t ms
  have hAget : ∀ (j : ℕ) a, A.barcode[j]? = some a ↔ ∃ b, sb[j]? = some b ∧ (b.1, R) = a := by
    intro j a
    simp only [A, List.getElem?_map, Option.map_eq_some_iff]
  have hrset : ∀ m', rset E st t m' = (range m').filter fun j =>
      BornBy (· ≤ t) A.barcode j ∧ ∀ d, st.imDeath[j]? = some d → t < d := by
    intro m'
    unfold rset
    refine Finset.filter_congr fun j _ => ?_
    refine and_congr_right fun hb => ?_
    have hj : j < E.A.dim := hE.lenA ▸ hb.lt
    exact ⟨fun hh => hh (hst.dead j hj), fun hh _ => hh⟩
  have hcard : (rset E st t ms).card =
      ((range raw.length).filter fun j => ∃ b, raw[j]? = some b ∧ b.1 ≤ s ∧ t < b.2).card := by
    rw [hrset]
    congr 1
    ext j
    simp only [Finset.mem_filter, mem_range]
    have hrawget : ∀ (i : ℕ) (b : α × α), raw[i]? = some b ↔
        ∃ a, sb[i]? = some a ∧ st.imDeath[i]? = some b.2 ∧ b.1 = a.1 := by
      intro i b
      simp only [raw]
      rw [List.getElem?_zip_eq_some, List.getElem?_map]
      constructor
      · rintro ⟨h1, h2⟩
        obtain ⟨a, ha, e⟩ := Option.map_eq_some_iff.1 h1
        obtain ⟨b', hb', rfl⟩ := (hAget _ _).1 ha
        exact ⟨b', hb', h2, e.symm⟩
      · rintro ⟨a, ha, h2, e⟩
        exact ⟨by rw [(hAget i (a.1, R)).2 ⟨a, ha, rfl⟩, e]; rfl, h2⟩
    constructor
    · rintro ⟨hj, ⟨a, ha, hat⟩, hd⟩
      obtain ⟨b', hb', rfl⟩ := (hAget _ _).1 ha
      have hd' : j < st.imDeath.length := by omega
      refine ⟨by omega, (b'.1, st.imDeath[j]), ?_, ?_, ?_⟩
      · exact (hrawget j _).2 ⟨b', hb', List.getElem?_eq_getElem hd', rfl⟩
      · exact (hms2 j b' hb').1 hj
      · exact hd _ (List.getElem?_eq_getElem hd')
    · rintro ⟨hi, b, hb, hbs, hbt⟩
      obtain ⟨a, ha, hd, e⟩ := (hrawget j b).1 hb
      have := (hms2 j a ha).2 (e ▸ hbs)
      refine ⟨by omega, ⟨(a.1, R), (hAget _ _).2 ⟨a, ha, rfl⟩, e ▸ hbs.trans hst'⟩, ?_⟩
      intro d hd'
      rw [hd, Option.some.injEq] at hd'
      exact hd' ▸ hbt
  have hcP := countP_gather f4 hst'
  rw [← f5] at hcP
  unfold barsThrough
  rw [hcP, ← hcard, ← hcnt]
  -- the spans
  have hren : ∀ j, j < n → mtr p BD bars L (· ≤ t) (σ j) = reName σ (E.mt BD' L (· ≤ t) j) :=
    fun j _ => mtr_rename hre hzBD L _ j
  have hsp : Submodule.span (ZMod p) {x | ∃ j, BornBy (· ≤ s) bars j ∧ x = mtr p BD bars L (· ≤ t) j} =
      (spn (ZMod p) (fun j => E.mt BD' L (· ≤ t) j) (BornBy (· ≤ t) A.barcode) ms).map
        (reName σ).toLinearMap := by
    rw [spn_map]
    apply le_antisymm
    · refine Submodule.span_le.2 ?_
      rintro x ⟨i', ⟨b, hb, hbs⟩, rfl⟩
      have hi' : i' < n := (List.getElem?_eq_some_iff.1 hb).1
      have hi : σ.symm i' < n := (hσ.symm_lt i').2 hi'
      have e := hren (σ.symm i') hi
      rw [Equiv.apply_symm_apply] at e
      rw [e]
      have hg : sb[σ.symm i']? = some b := by
        rw [hsbg, Equiv.apply_symm_apply]; exact hb
      have := (hms2 _ b hg).2 hbs
      exact mem_spn (x := fun j => (reName σ).toLinearMap (E.mt BD' L (· ≤ t) j)) this
        ⟨(b.1, R), (hAget _ _).2 ⟨b, hg, rfl⟩, hbs.trans hst'⟩
    · refine spn_le fun j hj hb => ?_
      obtain ⟨a, h1, h2⟩ := hb
      obtain ⟨b, hb, rfl⟩ := (hAget _ _).1 h1
      have hbs := (hms2 j b hb).1 hj
      have e := hren j (by omega)
      rw [hsbg] at hb
      exact Submodule.subset_span ⟨σ j, ⟨b, hb, hbs⟩, e.symm⟩
  rw [hsp]
  exact (LinearEquiv.finrank_map_eq (reName (K := ZMod p) σ) _).symm

theorem ExtLevels.zlt {rnd : α → α} {p : ℕ} {R : α} {bars : List (α × α)} {BD : Mat}
    (h : ExtLevels rnd p R bars BD) (i j : ℕ) (hz : BD.z p i j ≠ 0) : i < bars.length := by
  by_contra hc
  apply hz
  change zv p (BD.col j) i = 0
  by_cases hj : j < BD.cols.length
  · refine zv_of_le _ ?_
    rw [h.len _ (Mat.col_mem hj)]
    exact not_lt.1 hc
  · have : BD.col j = [] := Mat.col_of_le (by omega)
    rw [this]; simp

/-- A list of radii. -/
theorem exists_ends (bars : List (α × α)) : ∃ L, EndsOK bars L :=
  ⟨npUnique (bars.map Prod.snd), npUnique_strict _, fun x => by
    rw [mem_npUnique]; simp only [List.mem_map]⟩

/-- A generator is equal to what it has become. -/
theorem mtr_move {p : ℕ} [Fact p.Prime] {R : α} {bars : List (α × α)} {BD : Mat} {L : List α} {V : Type}
    [AddCommGroup V] [Module (ZMod p) V] {B : α → Submodule (ZMod p) V} {w : ℕ → V}
    (hmono : ∀ s t, s ≤ t → B s ≤ B t)
    (hdies : ∀ j b, bars[j]? = some b → b.2 < R →
      w j - ∑ i ∈ Finset.range bars.length, BD.z p i j • w i ∈ B b.2) {t : α} (ht : t < R) {j : ℕ}
    {b : α × α} (hb : bars[j]? = some b) :
    w j - ∑ i ∈ range bars.length, mtr p BD bars L (· ≤ t) j i • w i ∈ B t := by
  set n := bars.length with hn
  let φ : (ℕ → ZMod p) →ₗ[ZMod p] V :=
    { toFun := fun x => ∑ j ∈ range n, x j • w j
      map_add' := fun x y => by simp only [Pi.add_apply, add_smul, sum_add_distrib]
      map_smul' := fun c x => by
        simp only [Pi.smul_apply, smul_eq_mul, mul_smul, smul_sum, RingHom.id_apply] }
  have hφ : ∀ x, φ x = ∑ j ∈ range n, x j • w j := fun _ => rfl
  have hφs : ∀ j, j < n → φ (Pi.single j 1) = w j := by
    intro j hj
    rw [hφ, sum_eq_single j]
    · simp
    · intro i _ hij
      rw [Pi.single_eq_of_ne hij, zero_smul]
    · intro hj'; exact absurd (mem_range.2 hj) hj'
  have hstep : ∀ (r : α) (v : ℕ → ZMod p), r ≤ t →
      φ v - φ (brkUpd p BD (dieAt bars r) v) ∈ B t := by
    intro r v hrt
    have e : φ v - φ (brkUpd p BD (dieAt bars r) v) = ∑ k ∈ dieAt bars r,
        v k • (w k - ∑ i ∈ range n, BD.z p i k • w i) := by
      have hin : ∀ k ∈ dieAt bars r, k ∈ range n := by
        intro k hk
        obtain ⟨b, hb, -⟩ := mem_dieAt.1 hk
        exact mem_range.2 (List.getElem?_eq_some_iff.1 hb).1
      have e1 : φ v - φ (brkUpd p BD (dieAt bars r) v) = ∑ i ∈ range n,
          ((if i ∈ dieAt bars r then v i else 0) • w i -
            ∑ k ∈ dieAt bars r, (v k * BD.z p i k) • w i) := by
        rw [hφ, hφ, ← sum_sub_distrib]
        refine sum_congr rfl fun i _ => ?_
        rw [brkUpd_apply, ← Finset.sum_smul, ← sub_smul, ← sub_smul]
        congr 1
        have : ∑ k ∈ dieAt bars r, BD.z p i k * v k = ∑ k ∈ dieAt bars r, v k * BD.z p i k :=
          sum_congr rfl fun k _ => mul_comm _ _
        rw [this]
        split_ifs <;> ring
      rw [e1, sum_sub_distrib]
      have e2 : ∑ i ∈ range n, (if i ∈ dieAt bars r then v i else 0) • w i =
          ∑ k ∈ dieAt bars r, v k • w k := by
        have : ∀ i, (if i ∈ dieAt bars r then v i else 0) • w i =
            if i ∈ dieAt bars r then v i • w i else 0 := by
          intro i; split_ifs <;> simp
        rw [sum_congr rfl fun i _ => this i, ← Finset.sum_filter]
        refine sum_congr ?_ fun _ _ => rfl
        ext i
        rw [Finset.mem_filter]
        exact ⟨fun h => h.2, fun h => ⟨hin i h, h⟩⟩
      rw [e2, sum_comm, ← sum_sub_distrib]
      refine sum_congr rfl fun k _ => ?_
      rw [smul_sub, smul_sum]
      simp only [mul_smul]
    rw [e]
    refine Submodule.sum_mem _ fun k hk => Submodule.smul_mem _ _ ?_
    obtain ⟨b, hb, hbr⟩ := mem_dieAt.1 hk
    exact hmono _ _ (hbr ▸ hrt) (hdies k b hb (lt_of_le_of_lt (hbr ▸ hrt) ht))
  · have hj : j < n := (List.getElem?_eq_some_iff.1 hb).1
    have key : ∀ (l : List α) (v : ℕ → ZMod p), (∀ r ∈ l, r ≤ t) → w j - φ v ∈ B t →
        w j - φ (l.foldl (fun v r => brkUpd p BD (dieAt bars r) v) v) ∈ B t := by
      intro l
      induction l with
      | nil => intro v _ h; exact h
      | cons r l ih =>
        intro v hl hv
        rw [List.foldl_cons]
        refine ih _ (fun r hr => hl r (by simp [hr])) ?_
        have e : w j - φ (brkUpd p BD (dieAt bars r) v) = (w j - φ v) +
            (φ v - φ (brkUpd p BD (dieAt bars r) v)) := by abel
        rw [e]
        exact Submodule.add_mem _ hv (hstep r v (hl r (by simp)))
    change w j - φ (mtr p BD bars L (· ≤ t) j) ∈ B t
    unfold mtr
    refine key _ _ ?_ ?_
    · intro r hr
      simpa using (List.mem_filter.1 hr).2
    · rw [hφs j hj, sub_self]; exact Submodule.zero_mem _

/-- The solution of the extension problem has the ranks of the module. -/
theorem span_mtr {rnd : α → α} {p : ℕ} [Fact p.Prime] {R : α} {bars : List (α × α)} {BD : Mat}
    (h : ExtLevels rnd p R bars BD) {L : List α} (hL : EndsOK bars L) {V : Type} [AddCommGroup V] [Module (ZMod p) V]
    {Z B : α → Submodule (ZMod p) V} {w : ℕ → V}
    (hr : Resolves bars R (fun i j => BD.z p i j) Z B w) {s t : α} (hst : s ≤ t) (ht : t < R) :
    Module.finrank (ZMod p)
      (Submodule.span (ZMod p) {x | ∃ j, BornBy (· ≤ s) bars j ∧ x = mtr p BD bars L (· ≤ t) j}) =
    rankThrough Z B s t := by
  set n := bars.length with hn
  set S := Submodule.span (ZMod p) {x | ∃ j, BornBy (· ≤ s) bars j ∧ x = mtr p BD bars L (· ≤ t) j} with hS
  let φ : (ℕ → ZMod p) →ₗ[ZMod p] V :=
    { toFun := fun x => ∑ j ∈ range n, x j • w j
      map_add' := fun x y => by simp only [Pi.add_apply, add_smul, sum_add_distrib]
      map_smul' := fun c x => by
        simp only [Pi.smul_apply, smul_eq_mul, mul_smul, smul_sum, RingHom.id_apply] }
  have hφ : ∀ x, φ x = ∑ j ∈ range n, x j • w j := fun _ => rfl
  have hφs : ∀ j, j < n → φ (Pi.single j 1) = w j := by
    intro j hj
    rw [hφ, sum_eq_single j]
    · simp
    · intro i _ hij
      rw [Pi.single_eq_of_ne hij, zero_smul]
    · intro hj'; exact absurd (mem_range.2 hj) hj'
  have hmove : ∀ j b, bars[j]? = some b → b.1 ≤ t → w j - φ (mtr p BD bars L (· ≤ t) j) ∈ B t := by
    intro j b hb _
    exact mtr_move hr.monoB hr.dies ht hb
  have hsupp : ∀ x ∈ S, ∀ i, ¬ AliveBar bars i t → x i = 0 := by
    intro x hx i hi
    induction hx using Submodule.span_induction with
    | mem x hx =>
      obtain ⟨j, ⟨b, hb, hbs⟩, rfl⟩ := hx
      by_contra hne
      exact hi (mtr_supp hL h.zlt h.life hb (le_trans hbs hst) hne)
    | zero => rfl
    | add x y _ _ h1 h2 => rw [Pi.add_apply, h1, h2, add_zero]
    | smul c x _ h1 => rw [Pi.smul_apply, h1, smul_zero]
  have hinj : Function.Injective (((B t).mkQ ∘ₗ φ).domRestrict S) := by
    rw [← LinearMap.ker_eq_bot, LinearMap.ker_eq_bot']
    rintro ⟨x, hx⟩ h0
    have h1 : φ x ∈ B t := by
      have : (B t).mkQ (φ x) = 0 := h0
      rwa [Submodule.mkQ_apply, Submodule.Quotient.mk_eq_zero] at this
    have := hr.indep t ht x h1 (hsupp x hx)
    exact Subtype.ext (funext this)
  have hrange : (Z s).map (B t).mkQ = S.map ((B t).mkQ ∘ₗ φ) := by
    rw [Submodule.map_comp]
    have key : ∀ j, BornBy (· ≤ s) bars j →
        (B t).mkQ (w j) = (B t).mkQ (φ (mtr p BD bars L (· ≤ t) j)) := by
      rintro j ⟨b, hb, hbs⟩
      have := hmove j b hb (le_trans hbs hst)
      rw [← sub_eq_zero, ← map_sub, Submodule.mkQ_apply, Submodule.Quotient.mk_eq_zero]
      exact this
    apply le_antisymm
    · rw [hr.span s (lt_of_le_of_lt hst ht), Submodule.map_sup]
      refine sup_le ?_ ?_
      · rw [Submodule.map_span_le]
        rintro x ⟨j, ⟨b, hb, hbs, -⟩, rfl⟩
        rw [key j ⟨b, hb, hbs⟩]
        exact Submodule.mem_map_of_mem (Submodule.mem_map_of_mem
          (Submodule.subset_span ⟨j, ⟨b, hb, hbs⟩, rfl⟩))
      · rintro _ ⟨x, hx, rfl⟩
        have : (B t).mkQ x = 0 := by
          rw [Submodule.mkQ_apply, Submodule.Quotient.mk_eq_zero]
          exact hr.monoB _ _ hst hx
        rw [this]
        exact Submodule.zero_mem _
    · rw [hS, Submodule.map_span, Submodule.map_span_le]
      rintro _ ⟨x, ⟨j, ⟨b, hb, hbs⟩, rfl⟩, rfl⟩
      rw [← key j ⟨b, hb, hbs⟩]
      exact Submodule.mem_map_of_mem (hr.monoZ _ _ hbs (hr.born j b hb))
  unfold rankThrough
  rw [hrange, ← LinearMap.range_domRestrict]
  exact (LinearMap.finrank_range_of_inj hinj).symm

/-- After the last radius nothing is alive. -/
theorem span_mtr_end {rnd : α → α} {p : ℕ} [Fact p.Prime] {R : α} {bars : List (α × α)} {BD : Mat}
    (h : ExtLevels rnd p R bars BD) {L : List α} (hL : EndsOK bars L) {s t : α} (hst : s ≤ t) (ht : R ≤ t) :
    Module.finrank (ZMod p)
      (Submodule.span (ZMod p) {x | ∃ j, BornBy (· ≤ s) bars j ∧ x = mtr p BD bars L (· ≤ t) j}) = 0 := by
  have : Submodule.span (ZMod p) {x | ∃ j, BornBy (· ≤ s) bars j ∧ x = mtr p BD bars L (· ≤ t) j} = ⊥ := by
    rw [Submodule.span_eq_bot]
    rintro x ⟨j, ⟨b, hb, hbs⟩, rfl⟩
    funext i
    by_contra hne
    obtain ⟨b', hb', -, h2⟩ := mtr_supp hL h.zlt h.life hb (le_trans hbs hst) hne
    exact absurd (lt_of_le_of_lt ht h2) (not_lt.2 (h.wf b' (List.mem_of_getElem? hb')).2)
  rw [this]
  exact finrank_bot _ _

/-- Every matrix of extensions is the one of some persistence module. -/
theorem ext_realized {rnd : α → α} {p : ℕ} [Fact p.Prime] {R : α} {bars : List (α × α)} {BD : Mat}
    (h : ExtLevels rnd p R bars BD) :
    Resolves bars R (fun i j => BD.z p i j)
      (fun t => Submodule.span (ZMod p)
        {x : ℕ → ZMod p | ∃ j, BornBy (· ≤ t) bars j ∧ x = Pi.single j 1})
      (fun t => Submodule.span (ZMod p)
        {x : ℕ → ZMod p | ∃ j b, bars[j]? = some b ∧ b.2 ≤ t ∧ x = Pi.single j 1 - BD.zcol p j})
      (fun j => Pi.single j 1) := by
  classical
  obtain ⟨L, hL⟩ := exists_ends bars
  have hmono : ∀ s t : α, s ≤ t → Submodule.span (ZMod p)
      {x : ℕ → ZMod p | ∃ j b, bars[j]? = some b ∧ b.2 ≤ s ∧ x = Pi.single j 1 - BD.zcol p j} ≤
      Submodule.span (ZMod p)
      {x : ℕ → ZMod p | ∃ j b, bars[j]? = some b ∧ b.2 ≤ t ∧ x = Pi.single j 1 - BD.zcol p j} := by
    intro s t hst
    refine Submodule.span_mono ?_
    rintro x ⟨j, b, h1, h2, h3⟩
    exact ⟨j, b, h1, h2.trans hst, h3⟩
  have hsum : ∀ v : ℕ → ZMod p, (∀ i, v i ≠ 0 → i < bars.length) →
      ∑ i ∈ range bars.length, v i • (Pi.single i 1 : ℕ → ZMod p) = v := by
    intro v hv
    funext k
    rw [Finset.sum_apply]
    by_cases hk : k < bars.length
    · rw [Finset.sum_eq_single k]
      · simp
      · intro i _ hik
        rw [Pi.smul_apply, Pi.single_eq_of_ne (Ne.symm hik), smul_zero]
      · intro hn; exact absurd (mem_range.2 hk) hn
    · rw [Finset.sum_eq_zero]
      · by_contra hne
        exact hk (hv k (Ne.symm hne))
      · intro i hi
        rw [Pi.smul_apply, Pi.single_eq_of_ne (by rintro rfl; exact hk (mem_range.1 hi)), smul_zero]
  have hdies : ∀ j b, bars[j]? = some b → b.2 < R →
      (Pi.single j 1 : ℕ → ZMod p) - ∑ i ∈ Finset.range bars.length, BD.z p i j •
        (Pi.single i 1 : ℕ → ZMod p) ∈ Submodule.span (ZMod p)
      {x : ℕ → ZMod p | ∃ j b', bars[j]? = some b' ∧ b'.2 ≤ b.2 ∧ x = Pi.single j 1 - BD.zcol p j} := by
    intro j b hb _
    have e : ∑ i ∈ Finset.range bars.length, BD.z p i j • (Pi.single i 1 : ℕ → ZMod p) =
        BD.zcol p j := hsum (BD.zcol p j) (fun i hi => h.zlt i j hi)
    rw [e]
    exact Submodule.subset_span ⟨j, b, hb, le_rfl, rfl⟩
  refine ⟨?_, hmono, ?_, ?_, ?_, hdies⟩
  · intro s t hst
    refine Submodule.span_mono ?_
    rintro x ⟨j, ⟨b, h1, h2⟩, h3⟩
    exact ⟨j, ⟨b, h1, h2.trans hst⟩, h3⟩
  · intro j b hb
    exact Submodule.subset_span ⟨j, ⟨b, hb, le_rfl⟩, rfl⟩
  · -- independence: apply the composite of all moves up to `t`
    intro t ht c hc h0
    have hcv : ∀ i, c i ≠ 0 → i < bars.length := by
      intro i hi
      by_contra hlt
      apply hi
      refine h0 i ?_
      rintro ⟨b, hb, -⟩
      exact hlt (List.getElem?_eq_some_iff.1 hb).1
    rw [hsum c hcv] at hc
    -- the moves as linear maps
    let Φ : List α → (ℕ → ZMod p) →ₗ[ZMod p] (ℕ → ZMod p) := fun l =>
      l.foldl (fun f r => (brkUpd p BD (dieAt bars r)).comp f) LinearMap.id
    have hΦ : ∀ (l : List α) (f : (ℕ → ZMod p) →ₗ[ZMod p] (ℕ → ZMod p)) v,
        (l.foldl (fun f r => (brkUpd p BD (dieAt bars r)).comp f) f) v =
        l.foldl (fun v r => brkUpd p BD (dieAt bars r) v) (f v) := by
      intro l
      induction l with
      | nil => intro f v; rfl
      | cons r l ih => intro f v; rw [List.foldl_cons, List.foldl_cons, ih]; rfl
    -- a vector is not moved before its generators die
    have hstay : ∀ (l : List α) (v : ℕ → ZMod p), (∀ r ∈ l, ∀ i ∈ dieAt bars r, v i = 0) →
        l.foldl (fun v r => brkUpd p BD (dieAt bars r) v) v = v := by
      intro l
      induction l with
      | nil => intro v _; rfl
      | cons r l ih =>
        intro v hv
        have e : brkUpd p BD (dieAt bars r) v = v := by
          funext i
          rw [brkUpd_apply, Finset.sum_eq_zero, add_zero]
          · by_cases hi : i ∈ dieAt bars r
            · rw [if_pos hi, hv r (by simp) i hi]
            · rw [if_neg hi]
          · intro k hk; rw [hv r (by simp) k hk, mul_zero]
        rw [List.foldl_cons, e]
        exact ih v fun r hr => hv r (by simp [hr])
    set l := L.filter fun r => decide (r ≤ t) with hl
    have hls : l.Pairwise (· < ·) := hL.sorted.sublist List.filter_sublist
    have hkill : ∀ x ∈ Submodule.span (ZMod p)
        {x : ℕ → ZMod p | ∃ j b, bars[j]? = some b ∧ b.2 ≤ t ∧ x = Pi.single j 1 - BD.zcol p j},
        Φ l x = 0 := by
      intro x hx
      induction hx using Submodule.span_induction with
      | zero => exact map_zero _
      | add x y _ _ h1 h2 => rw [map_add, h1, h2, add_zero]
      | smul a x _ h1 => rw [map_smul, h1, smul_zero]
      | mem x hx =>
        obtain ⟨j, b, hb, hbt, rfl⟩ := hx
        have hbl : b.2 ∈ l := List.mem_filter.2
          ⟨(hL.mem _).2 ⟨b, List.mem_of_getElem? hb, rfl⟩, by simpa using hbt⟩
        obtain ⟨l1, l2, hl12⟩ := List.append_of_mem hbl
        rw [hl12] at hls
        rw [map_sub, sub_eq_zero, hΦ, hΦ, hl12]
        simp only [LinearMap.id_apply]
        rw [List.foldl_append, List.foldl_append, List.foldl_cons, List.foldl_cons]
        have hlt1 : ∀ r ∈ l1, r < b.2 := fun r hr =>
          (List.pairwise_append.1 hls).2.2 r hr b.2 (by simp)
        rw [hstay l1 (Pi.single j 1) ?_, hstay l1 (BD.zcol p j) ?_]
        · congr 1
          rw [brkUpd_single_mem (mem_dieAt.2 ⟨b, hb, rfl⟩)]
          have := hstay [b.2] (BD.zcol p j) ?_
          · exact this.symm
          · intro r hr i hi
            rw [List.mem_singleton] at hr
            subst hr
            obtain ⟨bi, hbi, hbe⟩ := mem_dieAt.1 hi
            by_contra hne
            exact absurd (h.life i j bi b hbi hb hne).2 (by rw [hbe]; exact lt_irrefl _)
        · intro r hr i hi
          obtain ⟨bi, hbi, hbe⟩ := mem_dieAt.1 hi
          by_contra hne
          have := (h.life i j bi b hbi hb hne).2
          rw [hbe] at this
          exact lt_asymm this (hlt1 r hr)
        · intro r hr i hi
          obtain ⟨bi, hbi, hbe⟩ := mem_dieAt.1 hi
          by_contra hne
          have hij : i = j := by
            by_contra hij; exact hne (Pi.single_eq_of_ne hij _)
          subst hij
          rw [hb, Option.some.injEq] at hbi
          subst hbi
          exact lt_irrefl _ (hbe ▸ hlt1 r hr)
    have h1 := hkill c hc
    have h2 : Φ l c = c := by
      rw [hΦ]
      refine hstay l c fun r hr i hi => ?_
      refine h0 i ?_
      rintro ⟨b, hb, -, hbt⟩
      obtain ⟨b', hb', he⟩ := mem_dieAt.1 hi
      rw [hb, Option.some.injEq] at hb'
      subst hb'
      have : r ≤ t := by simpa using (List.mem_filter.1 hr).2
      rw [he] at hbt
      exact absurd this (not_le.2 hbt)
    rw [h2] at h1
    exact fun j => congrFun h1 j
  · intro t ht
    apply le_antisymm
    · rw [Submodule.span_le]
      rintro x ⟨j, ⟨b, hb, hbt⟩, rfl⟩
      have hm := mtr_move (L := L) (w := fun j => (Pi.single j 1 : ℕ → ZMod p)) hmono hdies ht hb
      have hs : ∑ i ∈ range bars.length, mtr p BD bars L (· ≤ t) j i •
          (Pi.single i 1 : ℕ → ZMod p) ∈ Submodule.span (ZMod p)
          {x | ∃ j, AliveBar bars j t ∧ x = (Pi.single j 1 : ℕ → ZMod p)} := by
        refine Submodule.sum_mem _ fun i _ => ?_
        by_cases hz : mtr p BD bars L (· ≤ t) j i = 0
        · rw [hz, zero_smul]; exact Submodule.zero_mem _
        · exact Submodule.smul_mem _ _ (Submodule.subset_span
            ⟨i, mtr_supp hL h.zlt h.life hb hbt hz, rfl⟩)
      have := Submodule.add_mem_sup hs hm
      rwa [add_sub_cancel] at this
    · refine sup_le ?_ ?_
      · refine Submodule.span_mono ?_
        rintro x ⟨j, ⟨b, hb, hbt, -⟩, rfl⟩
        exact ⟨j, ⟨b, hb, hbt⟩, rfl⟩
      · rw [Submodule.span_le]
        rintro x ⟨j, b, hb, hbt, rfl⟩
        refine Submodule.sub_mem _ (Submodule.subset_span ⟨j, ⟨b, hb, ?_⟩, rfl⟩) ?_
        · exact (h.wf b (List.mem_of_getElem? hb)).1.le.trans hbt
        · rw [← hsum (BD.zcol p j) (fun i hi => h.zlt i j hi)]
          refine Submodule.sum_mem _ fun i _ => ?_
          by_cases hz : BD.zcol p j i = 0
          · rw [hz, zero_smul]; exact Submodule.zero_mem _
          · have hil := h.zlt i j hz
            have hbi := List.getElem?_eq_getElem hil
            exact Submodule.smul_mem _ _ (Submodule.subset_span
              ⟨i, ⟨_, hbi, (h.life i j _ _ hbi hb hz).1.trans hbt⟩, rfl⟩)

end Permaviss
