import Verif.Lemmas.IKBrokenIm
import Verif.Model.MV
import Verif.Spec.Broken

/-!
# Solving extension problems
-/

attribute [-instance] instMulZeroClassOfSemiring

namespace Permaviss

open Finset

variable {α : Type} [LinearOrder α]

open Classical in
/-- Where generator `j` is at the radius `t`. -/
noncomputable def brkTr (p : ℕ) (bars : List (α × α)) (BD : Mat) (t : α) (j : ℕ) : ℕ → ZMod p :=
  if ∃ b, bars[j]? = some b ∧ b.2 ≤ t then barRestr p bars t (BD.zcol p j) else Pi.single j 1

theorem gather_sort_pairwise (rnd : α → α) (bars : List (α × α)) :
    (gather bars (sortOrder rnd bars)).Pairwise (barLE rnd) := by
  unfold gather
  rw [List.pairwise_filterMap]
  refine (sortOrder_stable rnd bars).imp ?_
  intro i j h a ha b hb
  exact (h a b ha hb).1

theorem glueBars_out [Zero α] {rnd : α → α} {p : ℕ} {R : α} {bars : List (α × α)} {BD : Mat}
    (h : ExtInput rnd p R bars BD) :
    ∃ Q, glueBars rnd p R bars BD = .ok Q ∧ Q.flat = false ∧ Q.sorted = true ∧
      Q.dim = Q.barcode.length ∧ (∀ b ∈ Q.barcode, b.1 < b.2) ∧
      ∀ s t, s ≤ t → barsThrough Q.barcode s t = Module.finrank (ZMod p)
        (Submodule.span (ZMod p) {x | ∃ j, BornBy (· ≤ s) bars j ∧ x = brkTr p bars BD t j}) := by
  classical
  have := Fact.mk h.prime
  set n := bars.length with hn
  have hnp : 0 < n := List.length_pos_iff.2 h.ne
  have hfil : bars.filter (fun b => decide (b.1 < b.2)) = bars := by
    rw [List.filter_eq_self]; intro b hb; simpa using (h.wf b hb).1
  set order := sortOrder rnd bars with horder
  obtain ⟨σ, hσ⟩ := exists_isOrder (sortOrder_perm rnd bars)
  rw [← horder, ← hn] at hσ
  set sb := gather bars order with hsb
  have hsbl : sb.length = n := hσ.gather_len hn.symm
  have hsbg : ∀ i, sb[i]? = bars[σ i]? := hσ.gather_get hn.symm
  have hre : ReBars σ bars sb := hsbg
  let BD' : Mat := ⟨order.length, (gather BD.cols order).map fun c => gather c order⟩
  let A : Basis α := ⟨sb.map fun b => (b.1, R), false, n, none, ⟨1, []⟩, true, none, none⟩
  let B : Basis α := ⟨sb, false, n, none, ⟨1, []⟩, true, none, some BD'⟩
  let F : Mat := ⟨order.length, (gather (identityCols n) order).map fun c => gather c order⟩
  have hcolsF : ∀ j, j < n → zv p (F.col j) = Pi.single j 1 := by
    intro j hj
    have hsj := (hσ.lt j).2 hj
    have e : F.col j = gather ((identityCols n)[σ j]'(by rw [length_identityCols]; exact hsj)) order := by
      simp only [F, Mat.col, List.getD_eq_getElem?_getD, List.getElem?_map]
      rw [hσ.gather_get (length_identityCols n),
        List.getElem?_eq_getElem (by rw [length_identityCols]; exact hsj)]
      rfl
    rw [e, hσ.zv_gather (by rw [identityCols_getElem]; simp), zv_identityCols]
    funext i
    by_cases hij : i = j
    · subst hij; simp
    · rw [Pi.single_eq_of_ne hij, Pi.single_eq_of_ne (fun e => hij (σ.injective e))]
  have hFok : MatOK p n n F := by
    have hI := identity_ok h.prime.one_lt n
    refine ⟨hσ.len, ?_, ?_, ?_⟩
    · simp only [F, Mat.ncols, List.length_map]
      exact hσ.gather_len (length_identityCols n)
    · intro c hc
      simp only [F, List.mem_map] at hc
      obtain ⟨c', hc', rfl⟩ := hc
      simp only [gather, List.mem_filterMap] at hc'
      obtain ⟨k, -, hk⟩ := hc'
      exact hσ.gather_len (hI.len c' (List.mem_of_getElem? hk))
    · intro c hc x hx
      simp only [F, List.mem_map] at hc
      obtain ⟨c', hc', rfl⟩ := hc
      simp only [gather, List.mem_filterMap] at hc' hx
      obtain ⟨k, -, hk⟩ := hc'
      obtain ⟨k', -, hk'⟩ := hx
      exact hI.red c' (List.mem_of_getElem? hk) x (List.mem_of_getElem? hk')
  have hzBD : ∀ i j, BD'.z p i j = BD.z p (σ i) (σ j) := by
    intro i j
    unfold Mat.z Mat.get
    congr 1
    simp only [BD', List.getD_eq_getElem?_getD, List.getElem?_map]
    rw [hσ.gather_get h.ncols]
    cases hc : BD.cols[σ j]? with
    | none => simp
    | some c =>
      simp only [Option.map_some, Option.getD_some]
      rw [hσ.gather_get (h.len c (List.mem_of_getElem? hc))]
  have hmem : ∀ b ∈ sb, b ∈ bars := by
    intro b hb
    obtain ⟨i, hi⟩ := List.getElem?_of_mem hb
    rw [hsbg] at hi
    exact List.mem_of_getElem? hi
  let E : IKEnv α := ⟨p, A, B, F, 0⟩
  have hE : BrkOK E BD' (fun j => ∃ i, BD'.z p i j ≠ 0) R := {
    hp := h.prime
    lenB := hsbl.symm
    dims := rfl
    flatA := rfl
    flatB := rfl
    brk := rfl
    start := rfl
    F := hFok
    f := fun j hj => hcolsF j hj
    barsA := rfl
    wf := fun b hb => h.wf b (hmem b hb)
    bdN := by
      simp only [BD', List.length_map]
      exact hσ.gather_len h.ncols
    bdL := by
      intro c hc
      simp only [BD', List.mem_map] at hc
      obtain ⟨c', hc', rfl⟩ := hc
      simp only [gather, List.mem_filterMap] at hc'
      obtain ⟨k, -, hk⟩ := hc'
      exact hσ.gather_len (h.len c' (List.mem_of_getElem? hk))
    two := by
      intro i j hij
      refine ⟨⟨i, hij⟩, ?_⟩
      rintro ⟨k, hk⟩
      change BD'.z p i j ≠ 0 at hij
      rw [hzBD] at hij hk
      exact hk (h.two _ _ _ hij)
    life := by
      intro i j bi bj hi hj hne
      change sb[i]? = some bi at hi
      change sb[j]? = some bj at hj
      change BD'.z p i j ≠ 0 at hne
      rw [hsbg] at hi hj
      rw [hzBD] at hne
      exact h.life _ _ _ _ hi hj hne }
  have : Fact E.p.Prime := ⟨h.prime⟩
  obtain ⟨st, e3, hst⟩ := ikLoop_brk hE
  have hDl : st.imDeath.length = n := hst.imDeath
  have hpivI : ∀ q ∈ st.pivIm, q = -1 := by
    intro q hq
    obtain ⟨j, hj, rfl⟩ := List.getElem_of_mem hq
    have := hst.dead j (hst.pivIm ▸ hj)
    unfold IK.piv at this
    rwa [List_getD_eq_getElem _ _ hj] at this
  have hkI : killAlive E.radii.getLast? st.pivIm st.imDeath = st.imDeath :=
    killAlive_eq (hst.pivIm.trans hst.imDeath.symm) hpivI
  let raw := (A.barcode.map Prod.fst).zip st.imDeath
  have hraw : raw.length = n := by simp [raw, A, hDl, hsbl]
  let MI : Mat := ⟨(List.range n).length, (st.im.gatherRows (List.range n)).cols⟩
  have hMI : MI.ncols = n := by
    have := hst.im.ncols
    simp [MI, Mat.ncols, Mat.gatherRows, this, E, A]
  obtain ⟨b0, Q, ordI, idx, f1, f2, f3, f4, f5, f6, f7, f8, f9, -⟩ :=
    build_sort rnd (raw := raw) (m := n) (M := MI) (sw := true) (by simp [MI]) (hMI.trans hraw.symm)
      (fun _ e => by rw [e] at hraw; simp at hraw; omega)
  have hIK : ∃ pre, imageKernel rnd p A B F 0 = .ok ⟨Q, none, pre⟩ := by
    unfold imageKernel
    rw [if_neg (by
      push Not
      exact ⟨hFok.rows.symm, hFok.ncols.symm⟩)]
    have e1 : sortRange rnd B F = .ok (B, F, List.range n) := by simp [sortRange, B]
    have e2 : sortDomain rnd A F 0 = .ok (A, F, List.range n) := by simp [sortDomain, A]
    simp only [e1, e2, bind, Except.bind]
    have e3' : ikLoop ⟨p, A, B, F, 0⟩ (IKEnv.radii ⟨p, A, B, F, 0⟩)
      (IKEnv.init ⟨p, A, B, F, 0⟩) = .ok st := e3
    rw [if_neg (by simp [A]), e3']
    simp only
    change ∃ pre, ikFinish rnd E n n (List.range n) (List.range n) st = _
    unfold ikFinish
    rw [hkI]
    dsimp only
    rw [hE.full]
    have f1' : Basis.init (List.drop E.start ((List.map Prod.fst E.A.barcode).zip st.imDeath)) false
        (some n) ⟨(List.range n).length, List.drop E.start (st.im.gatherRows (List.range n)).cols⟩
        true false none = .ok b0 := f1
    rw [f1']
    have hret : ((List.range n).all fun i => decide (i < E.A.dim - E.start)) = true := by
      simp [E, A]
    simp only [bind, Except.bind, hret, if_true, f3, pure, Except.pure, Bool.false_eq_true,
      if_false]
    exact ⟨_, rfl⟩
  obtain ⟨pre, hIK⟩ := hIK
  have hglue : glueBars rnd p R bars BD = .ok Q := by
    have i1 : Basis.init bars false none ⟨1, []⟩ false false none =
        .ok (⟨bars, false, n, none, ⟨1, []⟩, false, none, none⟩ : Basis α) := by
      simp [Basis.init, initCoords, hfil, hn]
    have i2 : Basis.init bars false none ⟨1, []⟩ false true (some BD) =
        .ok (⟨bars, false, n, none, ⟨1, []⟩, false, none, some BD⟩ : Basis α) := by
      simp [Basis.init, initCoords, hfil, h.rows, h.ncols, ← hn]
    unfold glueBars
    simp only [i1, i2, bind, Except.bind, Basis.sort, Bool.false_eq_true, if_false, Option.isSome_none,
      Option.map_none, Option.map_some]
    have hIK' : imageKernel rnd p
        ⟨(gather bars (sortOrder rnd bars)).map fun b => (b.1, R), false, n, none, ⟨1, []⟩, true, none,
          none⟩
        ⟨gather bars (sortOrder rnd bars), false, n, none, ⟨1, []⟩, true, none,
          some ⟨(sortOrder rnd bars).length, (gather BD.cols (sortOrder rnd bars)).map
            fun c => gather c (sortOrder rnd bars)⟩⟩
        ⟨(sortOrder rnd bars).length, (gather (identityCols bars.length) (sortOrder rnd bars)).map
          fun c => gather c (sortOrder rnd bars)⟩ 0 = .ok ⟨Q, none, pre⟩ := hIK
    rw [hIK']
    rfl
  refine ⟨Q, hglue, f7, f9, f8, ?_, ?_⟩
  · intro b hb
    rw [f5] at hb
    simp only [gather, List.mem_filterMap] at hb
    obtain ⟨i, hi, hi'⟩ := hb
    obtain ⟨b', h1, h2⟩ := (f4.mem i).1 hi
    rw [h1, Option.some.injEq] at hi'
    exact hi' ▸ h2
  intro s t hst'
  have hsorted : sb.Pairwise fun a b => a.1 ≤ b.1 := by
    refine (gather_sort_pairwise rnd bars).imp_of_mem ?_
    intro a b ha hb hab
    refine h.rounding a (hmem a ha) b (hmem b hb) ?_
    rcases hab with h1 | h1
    · exact h1.le
    · exact h1.1.le
  obtain ⟨ms, hms1, hms2⟩ := exists_prefix _ hsorted s
  have hcnt := hst.count t ms
  have hAget : ∀ (j : ℕ) a, A.barcode[j]? = some a ↔ ∃ b, sb[j]? = some b ∧ (b.1, R) = a := by
    intro j a
    simp only [A, List.getElem?_map, Option.map_eq_some_iff]
  have hrset : ∀ m', rset E st t m' = (range m').filter fun j =>
      BornBy (· ≤ t) A.barcode j ∧ ∀ d, st.imDeath[j]? = some d → t < d := by
    intro m'
    unfold rset
    refine Finset.filter_congr fun j _ => ?_
    refine and_congr_right fun hb => ?_
    have hj : j < E.A.dim := hE.lenA ▸ hb.lt
    exact ⟨fun hh => hh (hst.dead j hj), fun hh _ => hh⟩
  have hcard : (rset E st t ms).card =
      ((range raw.length).filter fun j => ∃ b, raw[j]? = some b ∧ b.1 ≤ s ∧ t < b.2).card := by
    rw [hrset]
    congr 1
    ext j
    simp only [Finset.mem_filter, mem_range]
    have hrawget : ∀ (i : ℕ) (b : α × α), raw[i]? = some b ↔
        ∃ a, sb[i]? = some a ∧ st.imDeath[i]? = some b.2 ∧ b.1 = a.1 := by
      intro i b
      simp only [raw]
      rw [List.getElem?_zip_eq_some, List.getElem?_map]
      constructor
      · rintro ⟨h1, h2⟩
        obtain ⟨a, ha, e⟩ := Option.map_eq_some_iff.1 h1
        obtain ⟨b', hb', rfl⟩ := (hAget _ _).1 ha
        exact ⟨b', hb', h2, e.symm⟩
      · rintro ⟨a, ha, h2, e⟩
        exact ⟨by rw [(hAget i (a.1, R)).2 ⟨a, ha, rfl⟩, e]; rfl, h2⟩
    constructor
    · rintro ⟨hj, ⟨a, ha, hat⟩, hd⟩
      obtain ⟨b', hb', rfl⟩ := (hAget _ _).1 ha
      have hd' : j < st.imDeath.length := by omega
      refine ⟨by omega, (b'.1, st.imDeath[j]), ?_, ?_, ?_⟩
      · exact (hrawget j _).2 ⟨b', hb', List.getElem?_eq_getElem hd', rfl⟩
      · exact (hms2 j b' hb').1 hj
      · exact hd _ (List.getElem?_eq_getElem hd')
    · rintro ⟨hi, b, hb, hbs, hbt⟩
      obtain ⟨a, ha, hd, e⟩ := (hrawget j b).1 hb
      have := (hms2 j a ha).2 (e ▸ hbs)
      refine ⟨by omega, ⟨(a.1, R), (hAget _ _).2 ⟨a, ha, rfl⟩, e ▸ hbs.trans hst'⟩, ?_⟩
      intro d hd'
      rw [hd, Option.some.injEq] at hd'
      exact hd' ▸ hbt
  have hcP := countP_gather f4 hst'
  rw [← f5] at hcP
  unfold barsThrough
  rw [hcP, ← hcard, ← hcnt]
  -- the spans
  have hren : ∀ j, j < n → brkTr p bars BD t (σ j) = reName σ (E.tr BD' (· ≤ t) j) := by
    intro j hj
    have hb : sb[j]? = some (sb[j]'(by omega)) := List.getElem?_eq_getElem _
    have hb' : E.B.barcode[j]? = some (sb[j]'(by omega)) := hb
    by_cases hd : (sb[j]'(by omega)).2 ≤ t
    · rw [E.tr_pos (P := (· ≤ t)) hb' hd]
      unfold brkTr
      rw [if_pos ⟨_, by rw [← hsbg]; exact hb, hd⟩]
      have e : BD.zcol p (σ j) = reName σ (BD'.zcol p j) := by
        funext i
        rw [reName_apply]
        have := hzBD (σ.symm i) j
        rw [Equiv.apply_symm_apply] at this
        exact this.symm
      rw [e, hre.restr, barRestr_eq]
      rfl
    · rw [E.tr_neg (P := (· ≤ t)) hb' hd]
      unfold brkTr
      rw [if_neg]
      · funext i
        rw [reName_apply]
        by_cases hi : i = σ j
        · subst hi; simp
        · have h2 : σ.symm i ≠ j := by
            rintro rfl; exact hi (by simp)
          change (Pi.single (σ j) 1 : ℕ → ZMod p) i = (Pi.single j 1 : ℕ → ZMod p) (σ.symm i)
          rw [Pi.single_eq_of_ne hi, Pi.single_eq_of_ne h2]
      · rintro ⟨b, h1, h2⟩
        rw [← hsbg, hb, Option.some.injEq] at h1
        exact hd (h1 ▸ h2)
  have hsp : Submodule.span (ZMod p) {x | ∃ j, BornBy (· ≤ s) bars j ∧ x = brkTr p bars BD t j} =
      (spn (ZMod p) (fun j => E.tr BD' (· ≤ t) j) (BornBy (· ≤ t) A.barcode) ms).map
        (reName σ).toLinearMap := by
    rw [spn_map]
    apply le_antisymm
    · refine Submodule.span_le.2 ?_
      rintro x ⟨i', ⟨b, hb, hbs⟩, rfl⟩
      have hi' : i' < n := (List.getElem?_eq_some_iff.1 hb).1
      have hi : σ.symm i' < n := (hσ.symm_lt i').2 hi'
      have e := hren (σ.symm i') hi
      rw [Equiv.apply_symm_apply] at e
      rw [e]
      have hg : sb[σ.symm i']? = some b := by
        rw [hsbg, Equiv.apply_symm_apply]; exact hb
      have := (hms2 _ b hg).2 hbs
      exact mem_spn (x := fun j => (reName σ).toLinearMap (E.tr BD' (· ≤ t) j)) this
        ⟨(b.1, R), (hAget _ _).2 ⟨b, hg, rfl⟩, hbs.trans hst'⟩
    · refine spn_le fun j hj hb => ?_
      obtain ⟨a, h1, h2⟩ := hb
      obtain ⟨b, hb, rfl⟩ := (hAget _ _).1 h1
      have hbs := (hms2 j b hb).1 hj
      have e := hren j (by omega)
      rw [hsbg] at hb
      exact Submodule.subset_span ⟨σ j, ⟨b, hb, hbs⟩, e.symm⟩
  rw [hsp]
  exact (LinearEquiv.finrank_map_eq (reName (K := ZMod p) σ) _).symm

theorem brkTr_pos {p : ℕ} {bars : List (α × α)} {BD : Mat} {t : α} {j : ℕ} {b : α × α}
    (hb : bars[j]? = some b) (h : b.2 ≤ t) :
    brkTr p bars BD t j = barRestr p bars t (BD.zcol p j) := if_pos ⟨b, hb, h⟩

theorem brkTr_neg {p : ℕ} {bars : List (α × α)} {BD : Mat} {t : α} {j : ℕ} {b : α × α}
    (hb : bars[j]? = some b) (h : ¬ b.2 ≤ t) : brkTr p bars BD t j = Pi.single j 1 := by
  refine if_neg ?_
  rintro ⟨b', h1, h2⟩
  rw [hb, Option.some.injEq] at h1
  exact h (h1 ▸ h2)

theorem brkTr_supp {p : ℕ} {bars : List (α × α)} {BD : Mat} {t : α} {j : ℕ} {b : α × α}
    (hb : bars[j]? = some b) (hbt : b.1 ≤ t) {i : ℕ} (hi : ¬ AliveBar bars i t) :
    brkTr p bars BD t j i = 0 := by
  by_cases h : b.2 ≤ t
  · rw [brkTr_pos hb h]
    unfold barRestr
    exact restr_apply_neg hi
  · rw [brkTr_neg hb h]
    refine Pi.single_eq_of_ne ?_ _
    rintro rfl
    exact hi ⟨b, hb, hbt, not_le.1 h⟩

/-- The solution of the extension problem has the ranks of the module. -/
theorem span_brkTr {rnd : α → α} {p : ℕ} [Fact p.Prime] {R : α} {bars : List (α × α)} {BD : Mat}
    (h : ExtInput rnd p R bars BD) {V : Type} [AddCommGroup V] [Module (ZMod p) V]
    {Z B : α → Submodule (ZMod p) V} {w : ℕ → V}
    (hr : Resolves bars R (fun i j => BD.z p i j) Z B w) {s t : α} (hst : s ≤ t) (ht : t < R) :
    Module.finrank (ZMod p)
      (Submodule.span (ZMod p) {x | ∃ j, BornBy (· ≤ s) bars j ∧ x = brkTr p bars BD t j}) =
    rankThrough Z B s t := by
  set n := bars.length with hn
  set S := Submodule.span (ZMod p) {x | ∃ j, BornBy (· ≤ s) bars j ∧ x = brkTr p bars BD t j} with hS
  let φ : (ℕ → ZMod p) →ₗ[ZMod p] V :=
    { toFun := fun x => ∑ j ∈ range n, x j • w j
      map_add' := fun x y => by simp only [Pi.add_apply, add_smul, sum_add_distrib]
      map_smul' := fun c x => by
        simp only [Pi.smul_apply, smul_eq_mul, mul_smul, smul_sum, RingHom.id_apply] }
  have hφ : ∀ x, φ x = ∑ j ∈ range n, x j • w j := fun _ => rfl
  have hφs : ∀ j, j < n → φ (Pi.single j 1) = w j := by
    intro j hj
    rw [hφ, sum_eq_single j]
    · simp
    · intro i _ hij
      rw [Pi.single_eq_of_ne hij, zero_smul]
    · intro hj'; exact absurd (mem_range.2 hj) hj'
  -- generators without differential
  have hdead : ∀ i b, bars[i]? = some b → (∀ k, BD.z p k i = 0) → b.2 ≤ t → w i ∈ B t := by
    intro i b hb hk hbt
    have := hr.dies i b hb (lt_of_le_of_lt hbt ht)
    rw [sum_eq_zero (fun k _ => by rw [hk, zero_smul]), sub_zero] at this
    exact hr.monoB _ _ hbt this
  have hmove : ∀ j b, bars[j]? = some b → b.1 ≤ t → w j - φ (brkTr p bars BD t j) ∈ B t := by
    intro j b hb hbt
    have hj : j < n := (List.getElem?_eq_some_iff.1 hb).1
    by_cases hd : b.2 ≤ t
    · have h1 := hr.monoB _ _ hd (hr.dies j b hb (lt_of_le_of_lt hd ht))
      have h2 : φ (BD.zcol p j) - φ (brkTr p bars BD t j) ∈ B t := by
        rw [← map_sub, hφ]
        refine Submodule.sum_mem _ fun i hi => ?_
        have hin : i < n := mem_range.1 hi
        rw [brkTr_pos hb hd, Pi.sub_apply]
        by_cases ha : AliveBar bars i t
        · have : barRestr p bars t (BD.zcol p j) i = BD.zcol p j i := by
            unfold barRestr; exact restr_apply_pos ha
          rw [this, sub_self, zero_smul]; exact Submodule.zero_mem _
        · have : barRestr p bars t (BD.zcol p j) i = 0 := by
            unfold barRestr; exact restr_apply_neg ha
          rw [this, sub_zero]
          by_cases hz : BD.zcol p j i = 0
          · rw [hz, zero_smul]; exact Submodule.zero_mem _
          · refine Submodule.smul_mem _ _ ?_
            have hz' : BD.z p i j ≠ 0 := hz
            have hbi : bars[i]? = some bars[i] := List.getElem?_eq_getElem hin
            refine hdead i _ hbi (fun k => h.two i j k hz') ?_
            by_contra hlt
            exact ha ⟨_, hbi, (h.life i j _ _ hbi hb hz').1.trans hd, not_le.1 hlt⟩
      have e : w j - φ (brkTr p bars BD t j) = (w j - φ (BD.zcol p j)) +
          (φ (BD.zcol p j) - φ (brkTr p bars BD t j)) := by abel
      rw [e]
      exact Submodule.add_mem _ h1 h2
    · rw [brkTr_neg hb hd, hφs j hj, sub_self]
      exact Submodule.zero_mem _
  have hsupp : ∀ x ∈ S, ∀ i, ¬ AliveBar bars i t → x i = 0 := by
    intro x hx i hi
    induction hx using Submodule.span_induction with
    | mem x hx =>
      obtain ⟨j, ⟨b, hb, hbs⟩, rfl⟩ := hx
      exact brkTr_supp hb (le_trans hbs hst) hi
    | zero => rfl
    | add x y _ _ h1 h2 => rw [Pi.add_apply, h1, h2, add_zero]
    | smul c x _ h1 => rw [Pi.smul_apply, h1, smul_zero]
  have hinj : Function.Injective (((B t).mkQ ∘ₗ φ).domRestrict S) := by
    rw [← LinearMap.ker_eq_bot, LinearMap.ker_eq_bot']
    rintro ⟨x, hx⟩ h0
    have h1 : φ x ∈ B t := by
      have : (B t).mkQ (φ x) = 0 := h0
      rwa [Submodule.mkQ_apply, Submodule.Quotient.mk_eq_zero] at this
    have := hr.indep t ht x h1 (hsupp x hx)
    exact Subtype.ext (funext this)
  have hrange : (Z s).map (B t).mkQ = S.map ((B t).mkQ ∘ₗ φ) := by
    rw [Submodule.map_comp]
    have key : ∀ j, BornBy (· ≤ s) bars j →
        (B t).mkQ (w j) = (B t).mkQ (φ (brkTr p bars BD t j)) := by
      rintro j ⟨b, hb, hbs⟩
      have := hmove j b hb (le_trans hbs hst)
      rw [← sub_eq_zero, ← map_sub, Submodule.mkQ_apply, Submodule.Quotient.mk_eq_zero]
      exact this
    apply le_antisymm
    · rw [hr.span s (lt_of_le_of_lt hst ht), Submodule.map_sup]
      refine sup_le ?_ ?_
      · rw [Submodule.map_span_le]
        rintro x ⟨j, ⟨b, hb, hbs, -⟩, rfl⟩
        rw [key j ⟨b, hb, hbs⟩]
        exact Submodule.mem_map_of_mem (Submodule.mem_map_of_mem
          (Submodule.subset_span ⟨j, ⟨b, hb, hbs⟩, rfl⟩))
      · rintro _ ⟨x, hx, rfl⟩
        have : (B t).mkQ x = 0 := by
          rw [Submodule.mkQ_apply, Submodule.Quotient.mk_eq_zero]
          exact hr.monoB _ _ hst hx
        rw [this]
        exact Submodule.zero_mem _
    · rw [hS, Submodule.map_span, Submodule.map_span_le]
      rintro _ ⟨x, ⟨j, ⟨b, hb, hbs⟩, rfl⟩, rfl⟩
      rw [← key j ⟨b, hb, hbs⟩]
      exact Submodule.mem_map_of_mem (hr.monoZ _ _ hbs (hr.born j b hb))
  unfold rankThrough
  rw [hrange, ← LinearMap.range_domRestrict]
  exact (LinearMap.finrank_range_of_inj hinj).symm

/-- After the last radius nothing is alive. -/
theorem span_brkTr_end {rnd : α → α} {p : ℕ} [Fact p.Prime] {R : α} {bars : List (α × α)} {BD : Mat}
    (h : ExtInput rnd p R bars BD) {s t : α} (hst : s ≤ t) (ht : R ≤ t) :
    Module.finrank (ZMod p)
      (Submodule.span (ZMod p) {x | ∃ j, BornBy (· ≤ s) bars j ∧ x = brkTr p bars BD t j}) = 0 := by
  have : Submodule.span (ZMod p) {x | ∃ j, BornBy (· ≤ s) bars j ∧ x = brkTr p bars BD t j} = ⊥ := by
    rw [Submodule.span_eq_bot]
    rintro x ⟨j, ⟨b, hb, hbs⟩, rfl⟩
    funext i
    refine brkTr_supp hb (le_trans hbs hst) ?_
    rintro ⟨b', hb', -, h2⟩
    exact absurd (lt_of_le_of_lt ht h2) (not_lt.2 (h.wf b' (List.mem_of_getElem? hb')).2)
  rw [this]
  exact finrank_bot _ _

end Permaviss
