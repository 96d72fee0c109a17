import Verif.Lemmas.IKKer

/-!
# `image_kernel`: the loop over image generators
-/

namespace Permaviss

open Finset

variable {α : Type} [LinearOrder α]

/-- The invariant of the loop over image generators; `s.2` is `new_pivots`. -/
structure IMid (E : IKEnv α) (rad : α) (st0 : IK α) (c : ℕ) (s : IK α × List Int) : Prop where
  core : Core E (· < rad) (· ≤ rad) (· ≤ rad) E.A.dim c s.1
  hist : Hist E s.1 (· < rad)
  N : ∀ q ∈ s.2, ∃ i : ℕ, q = i ∧ ∃ k, k < c ∧ s.1.piv k = i
  N2 : ∀ k, k < c → ∀ i : ℕ, s.1.piv k = i → (i : Int) ∈ s.2 ∨ st0.piv k = i
  un : ∀ k, c ≤ k → s.1.piv k = st0.piv k
  oinj : ∀ k k', ∀ i : ℕ, st0.piv k = i → st0.piv k' = i → k = k'

variable {E : IKEnv α} {rad : α} {aA aB dA bA dB : List ℕ} {st0 : IK α} {c : ℕ}
  {s : IK α × List Int}

theorem born_le_iff {bars : List (α × α)} {i : ℕ} :
    BornBy (· ≤ rad) bars i ↔ BornBy (· < rad) bars i ∨ ∃ b, bars[i]? = some b ∧ b.1 = rad := by
  constructor
  · rintro ⟨b, h1, h2⟩
    rcases lt_or_eq_of_le h2 with h | h
    · exact Or.inl ⟨b, h1, h⟩
    · exact Or.inr ⟨b, h1, h⟩
  · rintro (⟨b, h1, h2⟩ | ⟨b, h1, h2⟩)
    · exact ⟨b, h1, le_of_lt h2⟩
    · exact ⟨b, h1, le_of_eq h2⟩

theorem not_born_of_birth {bars : List (α × α)} {i : ℕ} (h : ∃ b, bars[i]? = some b ∧ b.1 = rad) :
    ¬ BornBy (· < rad) bars i := by
  rintro ⟨b, h1, h2⟩
  obtain ⟨b', h3, h4⟩ := h
  rw [h1] at h3; cases h3
  rw [h4] at h2
  exact lt_irrefl _ h2

/-- Nothing happens. -/
theorem IMid.skip (hE : EnvOK E) (hL : Lists E rad aA aB dA bA dB) (h : IMid E rad st0 c s)
    (hcn : c < E.A.dim) (hdB : ∀ i : ℕ, st0.piv c = i → i ∉ dB) (hN : st0.piv c ∉ s.2)
    (hb : c ∉ bA) : IMid E rad st0 (c + 1) s := by
  have hc := h.core
  have hrc : s.1.piv c = st0.piv c := h.un c le_rfl
  have hbb : BornBy (· ≤ rad) E.A.barcode c ↔ BornBy (· < rad) E.A.barcode c := by
    rw [born_le_iff]
    constructor
    · rintro (h1 | h1)
      · exact h1
      · exact absurd ((hL.mbA c).2 h1) hb
    · exact Or.inl
  refine ⟨{ hc with
      unborn := ?_, alive := ?_, injLo := ?_, injHi := ?_, cover := ?_, upA := ?_, kpiv := ?_ },
    h.hist, ?_, ?_, ?_, h.oinj⟩
  · intro j hj
    by_cases hjc : j = c
    · subst hjc
      have := hc.unborn j hj
      rw [cutAt_hi le_rfl] at this
      rw [cutAt_lo (by omega), this, hbb]
    · rw [cut_succ_ne hjc]; exact hc.unborn j hj
  · intro j hj r hjr
    by_cases hjc : j = c
    · subst hjc
      rw [cutAt_lo (by omega)]
      have ha := hc.alive j hj r hjr
      rw [cutAt_hi le_rfl] at ha
      obtain ⟨h1, h2, h3⟩ := ha
      refine ⟨act_new h1 fun hb => hdB r (hrc ▸ hjr) ((hL.mdB r).2 hb), h2, fun l hl hA => ?_⟩
      by_contra hne
      obtain ⟨τ, h4, h5⟩ := hc.g1 j hj
      have hjb : BornBy (· < rad) E.A.barcode j := (hc.upA j le_rfl r hjr).born
      have := hE.ev_supp (down_lt rad) (hE.tri_born (down_lt rad) h4 hjb) l (h5 ▸ hne)
      exact hne (h3 l hl (act_old hA this))
    · rw [cut_succ_ne hjc]; exact hc.alive j hj r hjr
  · have key : ∀ k, k < c → ∀ i : ℕ, s.1.piv k = i → s.1.piv c = i → False := by
      intro k hk i h1 h2
      rcases h.N2 k hk i h1 with h3 | h3
      · rw [← h2, hrc] at h3; exact hN h3
      · have := h.oinj k c i h3 (hrc ▸ h2); omega
    intro k k' hk hk' i h1 h2
    by_cases hkc : k = c
    · by_cases hkc' : k' = c
      · omega
      · exact (key k' (by omega) i h2 (hkc ▸ h1)).elim
    · by_cases hkc' : k' = c
      · exact (key k (by omega) i h1 (hkc' ▸ h2)).elim
      · exact hc.injLo k k' (by omega) (by omega) i h1 h2
  · intro k k' hk hk'
    exact hc.injHi k k' (by omega) (by omega)
  · intro i hi hib
    by_cases hic : i = c
    · subst hic
      exact hc.cover i hi (Or.inl (hbb.1 hi.born))
    · exact hc.cover i hi (hib.imp id (by omega))
  · intro j hj; exact hc.upA j (by omega)
  · intro k i hk; exact (hc.kpiv k i hk).imp id (by omega)
  · intro q hq
    obtain ⟨i, h1, k, h2, h3⟩ := h.N q hq
    exact ⟨i, h1, k, by omega, h3⟩
  · intro k hk i hi
    by_cases hkc : k = c
    · subst hkc; right; rw [← hrc]; exact hi
    · exact h.N2 k (by omega) i hi
  · intro k hk; exact h.un k (by omega)

/-- What the reduction of image generator `c` does. -/
structure IRed (E : IKEnv α) (rad : α) (s : IK α) (c : ℕ) (M T : Mat) (q : Int) : Prop where
  okM : MatOK E.p E.B.dim E.A.dim M
  okT : MatOK E.p E.A.dim E.A.dim T
  otherM : ∀ j, j ≠ c → M.col j = s.im.col j
  otherT : ∀ j, j ≠ c → T.col j = s.T.col j
  tri : Tri c (zv E.p (T.col c))
  eq : zv E.p (M.col c) = E.ev (zv E.p (T.col c))
  res : (q = -1 ∧ ∀ i, ActBy (· ≤ rad) E.B.barcode i → zv E.p (M.col c) i = 0) ∨
    ∃ i : ℕ, q = i ∧ IsPivOn (ActBy (· ≤ rad) E.B.barcode) (zv E.p (M.col c)) i ∧
      ∀ k, k < c → s.piv k ≠ i

theorem IMid.reduce (hE : EnvOK E) (hL : Lists E rad aA aB dA bA dB) (h : IMid E rad st0 c s)
    (hcn : c < E.A.dim) (hpc : s.1.piv c ≠ -1) :
    ∃ M T q, pivotCheckReduce E.p s.1.im aB c (s.1.pivIm.take c) (some s.1.T) = .ok (M, some T, q) ∧
      IRed E rad s.1 c M T q := by
  have hc := h.core
  have hlen : (s.1.pivIm.take c).length = c := by
    rw [List.length_take, hc.sh.pivIm]; omega
  have hget : ∀ i, i < c → (s.1.pivIm.take c)[i]? = some (s.1.piv i) := by
    intro i hi
    rw [List.getElem?_take, if_pos hi]
    unfold IK.piv
    rw [List_getD_eq_getElem _ _ (by rw [hc.sh.pivIm]; omega)]
    exact List.getElem?_eq_getElem _
  have haB : (fun r => r ∈ aB) = ActBy (· ≤ rad) E.B.barcode := funext fun r => propext (hL.mB r)
  obtain ⟨M, T', q, a, h1, h2, -, h3⟩ := pivotCheckReduce_spec hE.hp (m := E.B.dim) (n := E.A.dim)
    (nT := E.A.dim) (col := c) (pivPrev := s.1.pivIm.take c) (T := some s.1.T) hL.sB
    (fun r hr => by rw [hE.lenB]; exact ((hL.mB r).1 hr).lt) hcn hcn (by omega) hc.sh.im
    (fun _ h => by cases h; exact ⟨_, hc.sh.T⟩) (by
      intro i r hi hr
      have hic : i < c := by
        have := (List.getElem?_eq_some_iff.1 hi).1
        omega
      rw [hget i hic] at hi
      have := hc.alive i (by omega) r (by injection hi)
      rw [cutAt_lo hic] at this
      rw [haB]; exact this)
  obtain ⟨T, rfl, hT1, hT2, hT3⟩ := h3 s.1.T _ rfl hc.sh.T
  rw [hlen] at hT3
  have hsupp : ∀ i, a i ≠ 0 → i < c ∧ s.1.piv i ≠ -1 := by
    intro i hi
    obtain ⟨h3, r, h4, h5⟩ := h2.supp i hi
    rw [hlen] at h3
    rw [hget i h3] at h5
    have h6 : s.1.piv i = r := by injection h5
    exact ⟨h3, by rw [h6]; omega⟩
  obtain ⟨hg1, hg2⟩ := hc.g2 c hcn hpc
  have hg : ∀ i, a i ≠ 0 → Tri i (E.Tc s.1 i) ∧ E.V s.1 i = E.ev (E.Tc s.1 i) := by
    intro i hi
    obtain ⟨h4, h5⟩ := hsupp i hi
    exact hc.g2 i (by omega) h5
  have hTs : ∀ l, c ≤ l → zv E.p (T.col c) l = E.Tc s.1 c l := by
    intro l hl
    rw [hT3, Pi.add_apply, Finset.sum_apply, Finset.sum_eq_zero, add_zero]
    · rfl
    · intro i hi
      rw [Pi.smul_apply, smul_eq_mul]
      by_cases hai : a i = 0
      · rw [hai, zero_mul]
      · have : E.Tc s.1 i l = 0 := by
          by_contra hne
          have := (hg i hai).1.2 l hne
          have := mem_range.1 hi
          omega
        have e : zv E.p (s.1.T.col i) l = 0 := this
        rw [e, mul_zero]
  refine ⟨M, T, q, h1, h2.ok, hT1, h2.other, hT2, ?_, ?_, ?_⟩
  · refine ⟨by rw [hTs c le_rfl]; exact hg1.1, ?_⟩
    intro l hl
    by_contra hlt
    rw [hTs l (by omega)] at hl
    exact hlt (hg1.2 l hl)
  · rw [h2.eq, hlen, hT3, map_add, map_sum]
    have e1 : zv E.p (s.1.im.col c) = E.ev (zv E.p (s.1.T.col c)) := hg2
    rw [e1]
    congr 1
    refine Finset.sum_congr rfl fun i _ => ?_
    rw [map_smul]
    by_cases hai : a i = 0
    · rw [hai, zero_smul, zero_smul]
    · have : zv E.p (s.1.im.col i) = E.ev (zv E.p (s.1.T.col i)) := (hg i hai).2
      rw [this]
  · rcases h2.res with ⟨h3, h4⟩ | ⟨r, h3, h4, h5⟩
    · exact Or.inl ⟨h3, fun i hi => h4 i ((hL.mB i).2 hi)⟩
    · right
      refine ⟨r, h3, ?_, ?_⟩
      · rw [haB] at h4; exact h4
      · intro k hk hkr
        apply h5
        have := List.mem_of_getElem? (hget k hk)
        rwa [hkr] at this

/-- The facts about the image part which both outcomes share. -/
structure IUpd (E : IKEnv α) (st st' : IK α) (c : ℕ) (M T : Mat) (q : Int) : Prop where
  im : st'.im = M
  T : st'.T = T
  pivIm : st'.pivIm = st.pivIm.set c q

theorem IUpd.piv {st st' : IK α} {M T : Mat} {q : Int} (h : IUpd E st st' c M T q)
    (hc : c < st.pivIm.length) (j : ℕ) : st'.piv j = if j = c then q else st.piv j := by
  unfold IK.piv
  rw [h.pivIm]
  exact getD_set _ _ _ _ _ hc

theorem IUpd.V_ne {st st' : IK α} {M T : Mat} {q : Int} (h : IUpd E st st' c M T q)
    (hr : IRed E rad st c M T q) {j : ℕ} (hj : j ≠ c) :
    E.V st' j = E.V st j ∧ E.Tc st' j = E.Tc st j := by
  unfold IKEnv.V IKEnv.Tc
  rw [h.im, h.T, hr.otherM j hj, hr.otherT j hj]
  exact ⟨rfl, rfl⟩

theorem IUpd.V_eq {st st' : IK α} {M T : Mat} {q : Int} (h : IUpd E st st' c M T q) :
    E.V st' c = zv E.p (M.col c) ∧ E.Tc st' c = zv E.p (T.col c) := by
  unfold IKEnv.V IKEnv.Tc
  rw [h.im, h.T]
  exact ⟨rfl, rfl⟩

/-- The step of the invariant, from the kernel part of the new state. -/
theorem IMid.update (hE : EnvOK E) (hL : Lists E rad aA aB dA bA dB) (h : IMid E rad st0 c s)
    (hcn : c < E.A.dim) (hpc : s.1.piv c ≠ -1) (hborn : BornBy (· ≤ rad) E.A.barcode c)
    {M T : Mat} {q : Int} (hr : IRed E rad s.1 c M T q) {st' : IK α}
    (hu : IUpd E s.1 st' c M T q) {N : List Int}
    (hdeath : (q ≠ -1 ∧ st'.imDeath = s.1.imDeath ∧ N = s.2 ++ [q]) ∨
      (q = -1 ∧ st'.imDeath = s.1.imDeath.set c rad ∧ N = s.2))
    (hker : (st'.kdim = s.1.kdim ∧ st'.ker = s.1.ker ∧ st'.pivKer = s.1.pivKer ∧
        st'.kerBar = s.1.kerBar ∧ (q = -1 → ¬ ActBy (· ≤ rad) E.A.barcode c)) ∨
      (q = -1 ∧ ActBy (· ≤ rad) E.A.barcode c ∧ st'.kdim = s.1.kdim + 1 ∧
        st'.ker = s.1.ker.setCol s.1.kdim (T.col c) ∧
        st'.pivKer = s.1.pivKer.set s.1.kdim (c : Int) ∧ st'.kerBar =
          s.1.kerBar.set s.1.kdim (rad, (s.1.kerBar.getD s.1.kdim (rad, rad)).2))) :
    IMid E rad st0 (c + 1) (st', N) := by
  classical
  have hc := h.core
  have hpl : c < s.1.pivIm.length := by rw [hc.sh.pivIm]; exact hcn
  have hpiv := fun j => hu.piv hpl j
  have hpne : ∀ j, j ≠ c → st'.piv j = s.1.piv j := fun j hj => by rw [hpiv, if_neg hj]
  have hpcc : st'.piv c = q := by rw [hpiv, if_pos rfl]
  have hVne : ∀ j, j ≠ c → E.V st' j = E.V s.1 j ∧ E.Tc st' j = E.Tc s.1 j :=
    fun j hj => hu.V_ne hr hj
  obtain ⟨hVc, hTc⟩ := hu.V_eq (E := E)
  have hq : q = -1 ∨ ∃ r : ℕ, q = r := by
    rcases hr.res with ⟨h1, -⟩ | ⟨r, h1, -⟩
    · exact Or.inl h1
    · exact Or.inr ⟨r, h1⟩
  -- no kernel generator has pivot `c`
  have hnoc : ∀ k, s.1.rho k ≠ c := by
    intro k hk
    rcases hc.pcase c hcn with h1 | h1 | ⟨r, h1⟩
    · rcases hc.kpiv k c hk with h2 | h2
      · have := (hc.unborn c hcn).1 h1
        rw [cutAt_hi le_rfl] at this
        exact this h2
      · omega
    · exact hpc h1
    · exact hc.disj c r h1 k hk
  -- the kernel is not full
  have hkcard : s.1.kdim < ((range E.A.dim).filter fun j => s.1.piv j = -1 ∨ j = c).card := by
    refine lt_of_le_of_lt hc.kdle (Finset.card_lt_card ?_)
    rw [Finset.ssubset_iff_of_subset (fun j hj => by
      simp only [Finset.mem_filter] at hj ⊢; exact ⟨hj.1, Or.inl hj.2⟩)]
    exact ⟨c, by simp [hcn], by simp [hpc]⟩
  have hkn : s.1.kdim < E.A.dim := by
    refine lt_of_lt_of_le hkcard ((Finset.card_filter_le _ _).trans (by simp))
  have hkpl : s.1.kdim < s.1.pivKer.length := by rw [hc.sh.pivKer]; exact hkn
  have hkbl : s.1.kdim < s.1.kerBar.length := by rw [hc.sh.kerBar]; exact hkn
  have hkcl : s.1.kdim < s.1.ker.cols.length := by rw [hc.sh.ker.ncols]; exact hkn
  -- old kernel generators
  have hold : ∀ k, k < s.1.kdim → st'.rho k = s.1.rho k ∧ E.Kc st' k = E.Kc s.1 k ∧
      st'.kerBar[k]? = s.1.kerBar[k]? := by
    intro k hk
    rcases hker with ⟨-, e2, e3, e4, -⟩ | ⟨-, -, -, e2, e3, e4⟩
    · unfold IK.rho IKEnv.Kc
      rw [e2, e3, e4]; exact ⟨rfl, rfl, rfl⟩
    · unfold IK.rho IKEnv.Kc
      rw [e2, e3, e4, getD_set _ _ _ _ _ hkpl, if_neg (by omega), Mat.col_setCol,
        if_neg (fun h => by omega), getElem?_set', if_neg (by omega)]
      exact ⟨rfl, rfl, rfl⟩
  have hnew : st'.kdim = s.1.kdim ∨ (st'.kdim = s.1.kdim + 1 ∧ q = -1 ∧
      ActBy (· ≤ rad) E.A.barcode c ∧ st'.rho s.1.kdim = c ∧
      E.Kc st' s.1.kdim = zv E.p (T.col c) ∧
      ∀ b, st'.kerBar[s.1.kdim]? = some b → b.1 = rad) := by
    rcases hker with ⟨e1, -⟩ | ⟨e5, e6, e1, e2, e3, e4⟩
    · exact Or.inl e1
    · right
      refine ⟨e1, e5, e6, ?_, ?_, ?_⟩
      · unfold IK.rho
        rw [e3, getD_set _ _ _ _ _ hkpl, if_pos rfl]
      · unfold IKEnv.Kc
        rw [e2, Mat.col_setCol, if_pos ⟨rfl, hkcl⟩]
      · intro b hb
        rw [e4, getElem?_set', if_pos rfl, Option.map_eq_some_iff] at hb
        obtain ⟨_, -, rfl⟩ := hb
        rfl
  have hkd : ∀ k, k < st'.kdim → k < s.1.kdim ∨ (k = s.1.kdim ∧ q = -1 ∧
      ActBy (· ≤ rad) E.A.barcode c ∧ st'.rho k = c ∧ E.Kc st' k = zv E.p (T.col c) ∧
      ∀ b, st'.kerBar[k]? = some b → b.1 = rad) := by
    intro k hk
    rcases hnew with h1 | ⟨h1, h2⟩
    · left; omega
    · by_cases hk' : k = s.1.kdim
      · subst hk'; right; exact ⟨rfl, h2⟩
      · left; omega
  have hkge : ∀ k, st'.kdim ≤ k → st'.rho k = -2 := by
    intro k hk
    rcases hker with ⟨e1, e2, e3, e4, -⟩ | ⟨-, -, e1, e2, e3, e4⟩
    · unfold IK.rho; rw [e3]; exact hc.kge k (by omega)
    · unfold IK.rho
      rw [e3, getD_set _ _ _ _ _ hkpl, if_neg (by omega)]
      exact hc.kge k (by omega)
  have hrlt : ∀ k, ∀ i : ℕ, st'.rho k = i → k < st'.kdim := by
    intro k i hk
    by_contra hcon
    rw [hkge k (by omega)] at hk
    omega
  have hkdn : st'.kdim ≤ E.A.dim := by
    rcases hnew with h1 | ⟨h1, -⟩ <;> have := hc.sh.kdim <;> omega
  have hcut : ∀ k, k < E.A.dim → cutAt (· < rad) (· ≤ rad) E.A.dim k = (· ≤ rad) :=
    fun k hk => cutAt_lo hk
  have hTborn : ∀ i, zv E.p (T.col c) i ≠ 0 → BornBy (· ≤ rad) E.A.barcode i :=
    hE.tri_born (down_le rad) hr.tri hborn
  have hzero : q = -1 → ∀ i, ActBy (· ≤ rad) E.B.barcode i → zv E.p (M.col c) i = 0 := by
    intro hq1
    rcases hr.res with ⟨-, h1⟩ | ⟨i, h1, -⟩
    · exact h1
    · omega
  have halive : ∀ r : ℕ, q = r → IsPivOn (ActBy (· ≤ rad) E.B.barcode) (zv E.p (M.col c)) r ∧
      ∀ k, k < c → s.1.piv k ≠ r := by
    intro r hq1
    rcases hr.res with ⟨h1, -⟩ | ⟨i, h1, h2⟩
    · omega
    · have : i = r := by rw [h1] at hq1; exact_mod_cast hq1
      subst this; exact h2
  have hdl : st'.imDeath.length = E.A.dim := by
    rcases hdeath with ⟨-, e, -⟩ | ⟨-, e, -⟩
    · rw [e]; exact hc.sh.imDeath
    · rw [e]; simp [hc.sh.imDeath]
  have hdne : ∀ j, j ≠ c → st'.imDeath[j]? = s.1.imDeath[j]? := by
    intro j hj
    rcases hdeath with ⟨-, e, -⟩ | ⟨-, e, -⟩
    · rw [e]
    · rw [e, getElem?_set', if_neg hj]
  have hdc : q = -1 → ∀ d, st'.imDeath[c]? = some d → d = rad := by
    intro hq1 d hd
    rcases hdeath with ⟨e, -⟩ | ⟨-, e, -⟩
    · exact absurd hq1 e
    · rw [e, getElem?_set', if_pos rfl, Option.map_eq_some_iff] at hd
      obtain ⟨_, -, h⟩ := hd
      exact h.symm
  refine ⟨{
    sh := ⟨by rw [hu.im]; exact hr.okM, by rw [hu.T]; exact hr.okT, ?_, ?_, hdl, ?_, ?_, hkdn⟩
    unborn := ?_
    pcase := ?_
    alive := ?_
    injLo := ?_
    injHi := ?_
    dead := ?_
    g1 := ?_
    g2 := ?_
    gm := ?_
    kcase := ?_
    kge := hkge
    kalive := ?_
    kinjLo := ?_
    kinjHi := ?_
    kdead := ?_
    ksupp := ?_
    kker := ?_
    cover := ?_
    disj := ?_
    upA := ?_
    kdle := ?_
    kb := ?_
    kbmono := ?_
    kbs := ?_
    db := ?_
    kpiv := ?_ }, ?_, ?_, ?_, ?_, h.oinj⟩
  · -- ker
    rcases hker with ⟨-, e2, -⟩ | ⟨-, -, -, e2, -⟩
    · rw [e2]; exact hc.sh.ker
    · rw [e2]; exact hc.sh.ker.setCol _ (hr.okT.col_len hcn) (hr.okT.col_red c)
  · rw [hu.pivIm]; simp [hc.sh.pivIm]
  · rcases hker with ⟨-, -, e2, -⟩ | ⟨-, -, -, -, e2, -⟩ <;> rw [e2] <;> simp [hc.sh.pivKer]
  · rcases hker with ⟨-, -, -, e2, -⟩ | ⟨-, -, -, -, -, e2⟩ <;> rw [e2] <;> simp [hc.sh.kerBar]
  · -- unborn
    intro j hj
    by_cases hjc : j = c
    · subst hjc
      rw [cutAt_lo (by omega), hpcc]
      constructor
      · intro h2; rcases hq with h1 | ⟨r, h1⟩ <;> omega
      · intro h2; exact absurd hborn h2
    · rw [cut_succ_ne hjc, hpne j hjc]; exact hc.unborn j hj
  · intro j hj
    by_cases hjc : j = c
    · subst hjc; rw [hpcc]; exact Or.inr hq
    · rw [hpne j hjc]; exact hc.pcase j hj
  · intro j hj r hjr
    by_cases hjc : j = c
    · subst hjc
      rw [cutAt_lo (by omega), hVc]
      exact (halive r (hpcc ▸ hjr)).1
    · rw [cut_succ_ne hjc, (hVne j hjc).1]; exact hc.alive j hj r (hpne j hjc ▸ hjr)
  · have key : ∀ k, k < c → ∀ i : ℕ, st'.piv k = i → st'.piv c = i → False := by
      intro k hk i h1 h2
      exact (halive i (hpcc ▸ h2)).2 k hk (hpne k (by omega) ▸ h1)
    intro k k' hk hk' i h1 h2
    by_cases hkc : k = c
    · by_cases hkc' : k' = c
      · omega
      · exact (key k' (by omega) i h2 (hkc ▸ h1)).elim
    · by_cases hkc' : k' = c
      · exact (key k (by omega) i h1 (hkc' ▸ h2)).elim
      · exact hc.injLo k k' (by omega) (by omega) i (hpne k hkc ▸ h1) (hpne k' hkc' ▸ h2)
  · intro k k' hk hk' i h1 h2
    exact hc.injHi k k' (by omega) (by omega) i (hpne k (by omega) ▸ h1) (hpne k' (by omega) ▸ h2)
  · intro j hj hj1
    by_cases hjc : j = c
    · subst hjc; rw [hVc]; exact hzero (hpcc ▸ hj1)
    · rw [(hVne j hjc).1]; exact hc.dead j hj (hpne j hjc ▸ hj1)
  · intro j hj
    by_cases hjc : j = c
    · subst hjc; rw [hVc]; exact ⟨_, hr.tri, hr.eq⟩
    · rw [(hVne j hjc).1]; exact hc.g1 j hj
  · intro j hj hj1
    by_cases hjc : j = c
    · subst hjc; rw [hVc, hTc]; exact ⟨hr.tri, hr.eq⟩
    · rw [(hVne j hjc).1, (hVne j hjc).2]; exact hc.g2 j hj (hpne j hjc ▸ hj1)
  · intro hm j hj
    by_cases hjc : j = c
    · subst hjc; rw [hVc, hTc]; exact hr.eq
    · rw [(hVne j hjc).1, (hVne j hjc).2]; exact hc.gm hm j hj
  · intro k hk
    rcases hkd k hk with h1 | ⟨h1, h2, h3, h4, h5⟩
    · rw [(hold k h1).1]; exact hc.kcase k h1
    · right; exact ⟨c, h4⟩
  · intro k i hk
    have hk' := hrlt k i hk
    rw [hcut k (by omega)]
    rcases hkd k hk' with h1 | ⟨h1, h2, h3, h4, h5, h6⟩
    · rw [(hold k h1).2.1]
      have := hc.kalive k i ((hold k h1).1 ▸ hk)
      rwa [hcut k (by omega)] at this
    · rw [h4] at hk
      have : c = i := by exact_mod_cast hk
      subst this
      rw [h5]
      refine ⟨h3, hr.tri.1, fun l hl _ => ?_⟩
      by_contra hne
      have := hr.tri.2 l hne
      omega
  · have key : ∀ k, k < s.1.kdim → ∀ i : ℕ, st'.rho k = i → i = c → False := by
      intro k hk i h1 h2
      rw [(hold k hk).1, h2] at h1
      exact hnoc k h1
    intro k k' hk hk' i h1 h2
    rcases hkd k (hrlt k i h1) with h3 | ⟨h3, -, -, h4, -⟩
    · rcases hkd k' (hrlt k' i h2) with h3' | ⟨h3', -, -, h4', -⟩
      · exact hc.kinjLo k k' hk hk' i ((hold k h3).1 ▸ h1) ((hold k' h3').1 ▸ h2)
      · exact (key k h3 i h1 (by rw [h4'] at h2; exact_mod_cast h2.symm)).elim
    · rcases hkd k' (hrlt k' i h2) with h3' | ⟨h3', -, -, h4', -⟩
      · exact (key k' h3' i h2 (by rw [h4] at h1; exact_mod_cast h1.symm)).elim
      · omega
  · intro k k' hk hk' i h1 h2
    have := hrlt k i h1
    omega
  · intro k hk hk1
    rcases hkd k hk with h1 | ⟨-, -, -, h4, -⟩
    · rw [(hold k h1).2.1]; exact hc.kdead k h1 ((hold k h1).1 ▸ hk1)
    · rw [h4] at hk1; omega
  · intro k hk
    rcases hkd k hk with h1 | ⟨-, -, -, -, h5, -⟩
    · rw [(hold k h1).2.1]; exact hc.ksupp k h1
    · rw [h5]; exact hTborn
  · intro k hk
    rcases hkd k hk with h1 | ⟨-, hq1, -, -, h5, -⟩
    · rw [(hold k h1).2.1]; exact hc.kker k h1
    · rw [h5]
      funext r
      by_cases hrB : ActBy (· ≤ rad) E.B.barcode r
      · rw [hE.mor_eq (down_le rad) hTborn r hrB, ← hr.eq]
        exact hzero hq1 r hrB
      · rw [IKEnv.mor_apply, restr_apply_neg hrB]; rfl
  · intro i hi hib
    by_cases hic : i = c
    · subst hic
      rcases hq with h1 | ⟨r, h1⟩
      · right
        rcases hker with ⟨-, -, -, -, e⟩ | ⟨-, -, e1, -⟩
        · exact absurd hi (e h1)
        · rcases hnew with h2 | ⟨h2, -, -, h3, -⟩
          · omega
          · exact ⟨s.1.kdim, by rw [h2]; exact Nat.lt_succ_self _, h3⟩
      · left; exact ⟨r, hpcc.trans h1⟩
    · rcases hc.cover i hi (hib.imp id (by omega)) with ⟨r, h1⟩ | ⟨k, h1, h2⟩
      · left; exact ⟨r, by rw [hpne i hic]; exact h1⟩
      · right
        have hlt : k < st'.kdim := by
          clear hq hib
          rcases hnew with h3 | ⟨h3, -⟩ <;> omega
        exact ⟨k, hlt, by rw [(hold k h1).1]; exact h2⟩
  · intro i r hi k hk
    rcases hkd k (hrlt k i hk) with h1 | ⟨-, hq1, -, h4, -⟩
    · have hk0 : s.1.rho k = i := (hold k h1).1 ▸ hk
      by_cases hic : i = c
      · subst hic; exact hnoc k hk0
      · exact hc.disj i r (hpne i hic ▸ hi) k hk0
    · rw [h4] at hk
      have : c = i := by exact_mod_cast hk
      subst this
      rw [hpcc, hq1] at hi
      omega
  · intro j hj r hjr
    exact hc.upA j (by omega) r (hpne j (by omega) ▸ hjr)
  · -- kdle
    rcases hnew with h1 | ⟨h1, h2, -⟩
    · rw [h1]
      refine hc.kdle.trans (Finset.card_le_card ?_)
      intro j hj
      simp only [Finset.mem_filter] at hj ⊢
      refine ⟨hj.1, ?_⟩
      have hjc : j ≠ c := by rintro rfl; exact hpc hj.2
      rw [hpne j hjc]; exact hj.2
    · rw [h1]
      refine Nat.succ_le_of_lt (lt_of_lt_of_le hkcard (Finset.card_le_card ?_))
      intro j hj
      simp only [Finset.mem_filter] at hj ⊢
      refine ⟨hj.1, ?_⟩
      by_cases hjc : j = c
      · rw [hjc, hpcc]; exact h2
      · rw [hpne j hjc]
        exact hj.2.resolve_right hjc
  · intro k hk b hb
    rcases hkd k hk with h1 | ⟨-, -, -, h4, -, h6⟩
    · rw [(hold k h1).1]; exact hc.kb k h1 b ((hold k h1).2.2 ▸ hb)
    · refine ⟨le_of_eq (h6 b hb), fun h => ?_⟩
      rw [h4] at h; omega
  · intro k k' hkk hk' b b' hb hb'
    rcases hkd k' hk' with h1 | ⟨h1, -, -, -, -, h6⟩
    · exact hc.kbmono k k' hkk h1 b b' ((hold k (by omega)).2.2 ▸ hb) ((hold k' h1).2.2 ▸ hb')
    · rw [h6 b' hb']
      rcases hkd k (lt_of_le_of_lt hkk hk') with h2 | ⟨h2, -, -, -, -, h6'⟩
      · exact (hc.kb k h2 b ((hold k h2).2.2 ▸ hb)).1
      · exact le_of_eq (h6' b hb)
  · intro k hk b hb
    rcases hkd k hk with h1 | ⟨-, -, -, -, h5, h6⟩
    · rw [(hold k h1).2.1]; exact hc.kbs k h1 b ((hold k h1).2.2 ▸ hb)
    · rw [h5, h6 b hb]; exact hTborn
  · intro j hj hj1 e he
    by_cases hjc : j = c
    · subst hjc; exact le_of_eq (hdc (hpcc ▸ hj1) e he)
    · exact hc.db j hj (hpne j hjc ▸ hj1) e (hdne j hjc ▸ he)
  · intro k i hk
    rcases hkd k (hrlt k i hk) with h1 | ⟨-, -, -, h4, -⟩
    · exact (hc.kpiv k i ((hold k h1).1 ▸ hk)).imp id (by omega)
    · right
      rw [h4] at hk
      have : c = i := by exact_mod_cast hk
      omega
  · -- hist
    intro t ht
    obtain ⟨U, W, h1, h2, h3⟩ := h.hist t ht
    refine ⟨U, W, ?_, ?_, h3⟩
    · refine HistIm.update ht h1 ?_ hE.lenA
      intro j hj
      by_cases hjc : j = c
      · subst hjc
        right
        rcases hq with hq1 | ⟨r, hq1⟩
        · left
          exact ⟨hpcc.trans hq1, hdc hq1, fun h => absurd h hpc⟩
        · right
          exact ⟨hpc, by rw [hpcc, hq1]; omega⟩
      · left
        exact ⟨hpne j hjc, (hVne j hjc).1, hdne j hjc⟩
    · rcases hnew with h4 | ⟨h4, -, -, -, -, h5⟩
      · refine ⟨fun k => (h2.mem k).trans ?_, ?_, ?_, ?_⟩
        · unfold KAlive
          rw [h4]
          constructor
          · rintro ⟨h5, h6⟩
            rw [(hold k h5).1, (hold k h5).2.2]; exact ⟨h5, h6⟩
          · rintro ⟨h5, h6⟩
            rw [(hold k h5).1, (hold k h5).2.2] at h6; exact ⟨h5, h6⟩
        · have : (fun k : W => restr (ActBy (· ≤ t) E.A.barcode) (E.Kc st' k)) =
              fun k : W => restr (ActBy (· ≤ t) E.A.barcode) (E.Kc s.1 k) := by
            funext k
            rw [(hold k ((h2.mem k).1 k.2).1).2.1]
          rw [this]; exact h2.indep
        · intro k hk
          rw [(hold k ((h2.mem k).1 hk).1).2.1]; exact h2.ker k hk
        · intro k hk b hb hbt hkW
          rw [h4] at hk
          rw [(hold k hk).1, (hold k hk).2.1]
          exact h2.dead k hk b ((hold k hk).2.2 ▸ hb) hbt hkW
      · exact HistKer.birth ht h2 h4 hold h5
  · -- N
    intro q' hq'
    have hmem : q' ∈ s.2 ∨ (q' = q ∧ q ≠ -1) := by
      rcases hdeath with ⟨e1, -, e⟩ | ⟨-, -, e⟩
      · rw [e] at hq'
        rcases List.mem_append.1 hq' with h1 | h1
        · exact Or.inl h1
        · exact Or.inr ⟨by simpa using h1, e1⟩
      · rw [e] at hq'; exact Or.inl hq'
    rcases hmem with h1 | ⟨h1, h2⟩
    · obtain ⟨l, h1, k, h2, h3⟩ := h.N q' h1
      exact ⟨l, h1, k, by omega, by rw [hpne k (by omega)]; exact h3⟩
    · rcases hq with h3 | ⟨r, h3⟩
      · exact absurd h3 h2
      · exact ⟨r, h1.trans h3, c, by omega, hpcc.trans h3⟩
  · intro k hk l hl
    by_cases hkc : k = c
    · left
      rw [hkc, hpcc] at hl
      rcases hdeath with ⟨e1, -, e⟩ | ⟨e1, -, e⟩
      · rw [e, hl]; simp
      · omega
    · rcases h.N2 k (by omega) l (hpne k hkc ▸ hl) with h1 | h1
      · left
        rcases hdeath with ⟨-, -, e⟩ | ⟨-, -, e⟩
        · rw [e]; exact List.mem_append_left _ h1
        · rw [e]; exact h1
      · right; exact h1
  · intro k hk
    rw [hpne k (by omega)]; exact h.un k (by omega)

end Permaviss
