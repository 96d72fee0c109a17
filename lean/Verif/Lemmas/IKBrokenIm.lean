import Verif.Lemmas.IKBroken

/-!
# `image_kernel` with a broken barcode basis: the loop over the columns
-/

namespace Permaviss

open Finset

variable {α : Type} [LinearOrder α]

/-- A column whose pivot is not taken is left alone. -/
theorem pivotCheckReduce_fresh {p m n : ℕ} {active : List ℕ} {col : ℕ} {pivPrev : List Int} {M : Mat}
    {T : Option Mat} (hM : MatOK p m n M) (hp : 0 < p) (hs : active.Pairwise (· < ·)) {r : ℕ}
    (h : IsPivOn (· ∈ active) (zv p (M.col col)) r) (hr : (r : Int) ∉ pivPrev) :
    pivotCheckReduce p M active col pivPrev T = .ok (M, T, r) := by
  unfold pivotCheckReduce pcrLoop
  rw [pcr_red hM hp]
  cases hk : indexPivot (active.map fun r => (M.col col).getD r 0) with
  | none => exact absurd (pcr_none (hM.col_red col) hp hk r h.1) h.2.1
  | some k =>
    obtain ⟨hkl, hra, hpiv⟩ := pcr_pivot (hM.col_red col) hp hs hk
    have e : active.getD k 0 = r := by
      rcases lt_trichotomy (active.getD k 0) r with h1 | h1 | h1
      · exact absurd (hpiv.2.2 r h1 h.1) h.2.1
      · exact h1
      · exact absurd (h.2.2 _ h1 hra) hpiv.2.1
    dsimp only
    rw [e]
    have : pivPrev.findIdx? (· == (r : Int)) = none := by
      rw [List.findIdx?_eq_none_iff]
      intro x hx
      simp only [beq_eq_false_iff_ne]
      rintro rfl; exact hr hx
    rw [this]

/-- The reduction does not leave a set of rows which is closed in the appropriate sense. -/
theorem pcrLoop_stays {p m n : ℕ} (hp : 0 < p) {active : List ℕ} {col : ℕ} {pivPrev : List Int}
    (hs : active.Pairwise (· < ·)) (hcol : col < n) (hlen : pivPrev.length ≤ col) (Q : ℕ → Prop)
    (fuel : ℕ) : ∀ (M : Mat) (T : Option Mat) M' T' q, MatOK p m n M →
      (∀ l, zv p (M.col col) l ≠ 0 → Q l) →
      (∀ i (r : ℕ), pivPrev[i]? = some (r : Int) → Q r → ∀ l, zv p (M.col i) l ≠ 0 → Q l) →
      pcrLoop p active col pivPrev fuel M T = .ok (M', T', q) → ∀ l, zv p (M'.col col) l ≠ 0 → Q l := by
  induction fuel with
  | zero => intro M T M' T' q _ _ _ h; simp [pcrLoop] at h
  | succ f ih =>
    intro M T M' T' q hM hc hprev h
    rw [pcrLoop, pcr_red hM hp] at h
    cases hk : indexPivot (active.map fun r => (M.col col).getD r 0) with
    | none =>
      rw [hk] at h
      obtain ⟨rfl, -⟩ := Prod.mk.inj (Except.ok.inj h)
      exact hc
    | some k =>
      obtain ⟨hkl, hra, hpiv⟩ := pcr_pivot (hM.col_red col) hp hs hk
      rw [hk] at h
      dsimp only at h
      cases hfind : pivPrev.findIdx? (· == (active.getD k 0 : Int)) with
      | none =>
        rw [hfind] at h
        obtain ⟨rfl, -⟩ := Prod.mk.inj (Except.ok.inj h)
        exact hc
      | some prev =>
        rw [hfind] at h
        rw [List.findIdx?_eq_some_iff_getElem] at hfind
        obtain ⟨hpl, hpe, -⟩ := hfind
        have hpe' : pivPrev[prev] = (active.getD k 0 : Int) := by simpa using hpe
        have hget : pivPrev[prev]? = some ((active.getD k 0 : ℕ) : Int) := by
          rw [List.getElem?_eq_getElem hpl, hpe']
        dsimp only at h
        cases hinv : invModP ((M.col prev).getD (active.getD k 0) 0) p with
        | error e => rw [hinv] at h; cases h
        | ok inv =>
          rw [hinv] at h
          dsimp only at h
          have hpn : prev < n := by omega
          refine ih _ _ _ _ _ (hM.addPrevCol hp inv hpn hcol) ?_ ?_ h
          · intro l hl
            rw [addPrevCol_col hM inv hpn hcol, if_pos rfl] at hl
            by_cases h1 : zv p (M.col col) l = 0
            · refine hprev prev _ hget (hc _ hpiv.2.1) l ?_
              intro h2
              apply hl
              simp [h1, h2]
            · exact hc l h1
          · intro i r hi hQ
            have hil := (List.getElem?_eq_some_iff.1 hi).1
            rw [addPrevCol_other _ _ _ (by omega : i ≠ col)]
            exact hprev i r hi hQ

/-- The invariant of the loop over image generators; `s.2` is `new_pivots`. -/
structure BMid (E : IKEnv α) [Fact E.p.Prime] (BD : Mat) (U : ℕ → Prop) (rad : α) (st0 : IK α)
    (c : ℕ) (s : IK α × List Int) : Prop where
  core : BCore E BD U (· < rad) (· ≤ rad) c s.1
  hist : BHist E BD s.1 (· < rad)
  N : ∀ q ∈ s.2, ∃ i : ℕ, q = i ∧ ∃ k, k < c ∧ s.1.piv k = i
  N2 : ∀ k, k < c → ∀ i : ℕ, s.1.piv k = i → (i : Int) ∈ s.2 ∨ st0.piv k = i
  un : ∀ k, c ≤ k → s.1.piv k = st0.piv k
  oinj : ∀ k k', ∀ i : ℕ, st0.piv k = i → st0.piv k' = i → k = k'

variable {E : IKEnv α} [Fact E.p.Prime] {BD : Mat} {U : ℕ → Prop} {rad R : α}
  {aA aB dA bA dB : List ℕ} {st0 : IK α} {c : ℕ} {s : IK α × List Int}

/-- Nothing happens. -/
theorem BMid.skip (hL : Lists E rad aA aB dA bA dB) (h : BMid E BD U rad st0 c s)
    (hdB : ∀ i : ℕ, st0.piv c = i → i ∉ dB) (hN : st0.piv c ∉ s.2)
    (hb : c ∉ bA) : BMid E BD U rad st0 (c + 1) s := by
  have hc := h.core
  have hrc : s.1.piv c = st0.piv c := h.un c le_rfl
  have hbb : BornBy (· ≤ rad) E.A.barcode c ↔ BornBy (· < rad) E.A.barcode c := by
    rw [born_le_iff]
    constructor
    · rintro (h1 | h1)
      · exact h1
      · exact absurd ((hL.mbA c).2 h1) hb
    · exact Or.inl
  refine ⟨{ hc with
      unborn := ?_, aliveLo := ?_, aliveHi := ?_, actHi := ?_, injLo := ?_, injHi := ?_, pre := ?_ },
    h.hist, ?_, ?_, ?_, h.oinj⟩
  · intro j hj
    by_cases hjc : j = c
    · subst hjc
      have := hc.unborn j hj
      rw [cutAt_hi le_rfl] at this
      rw [cutAt_lo (by omega), this, hbb]
    · rw [cut_succ_ne hjc]; exact hc.unborn j hj
  · intro j hj r hjr
    by_cases hjc : j = c
    · subst hjc
      refine hc.aliveHi j le_rfl r hjr ?_
      exact act_new (hc.actHi j le_rfl r hjr) fun hb => hdB r (hrc ▸ hjr) ((hL.mdB r).2 hb)
    · exact hc.aliveLo j (by omega) r hjr
  · intro j hj; exact hc.aliveHi j (by omega)
  · intro j hj; exact hc.actHi j (by omega)
  · have key : ∀ k, k < c → ∀ i : ℕ, s.1.piv k = i → s.1.piv c = i → False := by
      intro k hk i h1 h2
      rcases h.N2 k hk i h1 with h3 | h3
      · rw [← h2, hrc] at h3; exact hN h3
      · have := h.oinj k c i h3 (hrc ▸ h2); omega
    intro k k' hk hk' i h1 h2
    by_cases hkc : k = c
    · by_cases hkc' : k' = c
      · omega
      · exact (key k' (by omega) i h2 (hkc ▸ h1)).elim
    · by_cases hkc' : k' = c
      · exact (key k (by omega) i h1 (hkc' ▸ h2)).elim
      · exact hc.injLo k k' (by omega) (by omega) i h1 h2
  · intro k k' hk hk'
    exact hc.injHi k k' (by omega) (by omega)
  · intro m
    rw [hc.pre m]
    refine spn_congr (fun j _ => ?_) fun _ _ _ => rfl
    by_cases hjc : j = c
    · subst hjc
      rw [cutAt_hi le_rfl, cutAt_lo (by omega)]
      exact hbb.symm
    · rw [cut_succ_ne hjc]
  · intro q hq
    obtain ⟨i, h1, k, h2, h3⟩ := h.N q hq
    exact ⟨i, h1, k, by omega, h3⟩
  · intro k hk i hi
    by_cases hkc : k = c
    · subst hkc; right; rw [← hrc]; exact hi
    · exact h.N2 k (by omega) i hi
  · intro k hk; exact h.un k (by omega)

/-- What the reduction of column `c` does. -/
structure BRed (E : IKEnv α) [Fact E.p.Prime] (U : ℕ → Prop) (rad : α) (s : IK α) (c : ℕ) (M T : Mat)
    (q : Int) (a : ℕ → ZMod E.p) : Prop where
  okM : MatOK E.p E.B.dim E.A.dim M
  okT : MatOK E.p E.A.dim E.A.dim T
  otherM : ∀ j, j ≠ c → M.col j = s.im.col j
  supp : ∀ i, a i ≠ 0 → i < c ∧ s.Has i
  eq : zv E.p (M.col c) = E.V s c + ∑ i ∈ range c, a i • E.V s i
  res : (q = -1 ∧ ∀ i, ActBy (· ≤ rad) E.B.barcode i → zv E.p (M.col c) i = 0) ∨
    ∃ i : ℕ, q = i ∧ IsPivOn (ActBy (· ≤ rad) E.B.barcode) (zv E.p (M.col c)) i ∧
      ∀ k, k < c → s.piv k ≠ i
  up : U c → ActBy (· ≤ rad) E.B.barcode c → zv E.p (M.col c) = Pi.single c 1
  low : (U c → ¬ ActBy (· ≤ rad) E.B.barcode c) → ∀ l, zv E.p (M.col c) l ≠ 0 → ¬ U l

theorem isPivOn_single {K : Type*} [Semiring K] [Nontrivial K] {S : ℕ → Prop} {c : ℕ} (h : S c) :
    IsPivOn S (Pi.single c (1 : K) : ℕ → K) c := by
  refine ⟨h, by simp, fun j hj _ => Pi.single_eq_of_ne (by omega) _⟩

theorem BMid.reduce (hE : BrkOK E BD U R) (hL : Lists E rad aA aB dA bA dB)
    (h : BMid E BD U rad st0 c s) (hcn : c < E.A.dim) (hpc : s.1.piv c ≠ -1)
    (hborn : BornBy (· ≤ rad) E.A.barcode c) :
    ∃ M T q a, pivotCheckReduce E.p s.1.im aB c (s.1.pivIm.take c) (some s.1.T) =
      .ok (M, some T, q) ∧ BRed E U rad s.1 c M T q a := by
  have hc := h.core
  have hlen : (s.1.pivIm.take c).length = c := by
    rw [List.length_take, hc.pivIm]; omega
  have hget : ∀ i, i < c → (s.1.pivIm.take c)[i]? = some (s.1.piv i) := by
    intro i hi
    rw [List.getElem?_take, if_pos hi]
    unfold IK.piv
    rw [List_getD_eq_getElem _ _ (by rw [hc.pivIm]; omega)]
    exact List.getElem?_eq_getElem _
  have haB : (fun r => r ∈ aB) = ActBy (· ≤ rad) E.B.barcode := funext fun r => propext (hL.mB r)
  -- a column with a pivot at an upper row is the corresponding unit vector
  have hupper : ∀ i, i < c → ∀ r : ℕ, s.1.piv i = r → U r → i = r ∧ ActBy (· ≤ rad) E.B.barcode i := by
    intro i hi r hr hU
    have hp := hc.aliveLo i hi r hr
    by_cases hi' : U i ∧ ActBy (· ≤ rad) E.B.barcode i
    · have := hc.up i ⟨r, hr⟩ hi'.1 hi'.2
      refine ⟨?_, hi'.2⟩
      by_contra hne
      apply hp.2.1
      rw [this]
      exact Pi.single_eq_of_ne (fun e => hne e.symm) _
    · exact absurd hU (hc.low i ⟨r, hr⟩ (fun h1 h2 => hi' ⟨h1, h2⟩) r hp.2.1)
  by_cases hup : U c ∧ ActBy (· ≤ rad) E.B.barcode c
  · -- nothing to do
    have hV : E.V s.1 c = Pi.single c 1 := by
      rcases hc.pcase c hcn with h1 | h1 | h1
      · exact hc.orig c hcn h1
      · exact absurd h1 hpc
      · exact hc.up c h1 hup.1 hup.2
    have hpv : IsPivOn (ActBy (· ≤ rad) E.B.barcode) (E.V s.1 c) c := by
      rw [hV]; exact isPivOn_single hup.2
    have hfree : ∀ k, k < c → s.1.piv k ≠ (c : ℕ) := by
      intro k hk hkc
      have := (hupper k hk c hkc hup.1).1
      omega
    have hnot : ((c : ℕ) : Int) ∉ s.1.pivIm.take c := by
      intro hm
      obtain ⟨k, hk⟩ := List.getElem?_of_mem hm
      have hkc : k < c := by
        have := (List.getElem?_eq_some_iff.1 hk).1
        omega
      rw [hget k hkc, Option.some.injEq] at hk
      exact hfree k hkc hk
    refine ⟨s.1.im, s.1.T, c, 0, ?_, hc.im, hc.T, fun _ _ => rfl, fun i hi => absurd rfl hi, ?_, ?_, ?_,
      ?_⟩
    · refine pivotCheckReduce_fresh hc.im hE.hp.pos hL.sB (r := c) ?_ hnot
      rw [haB]; exact hpv
    · simp [IKEnv.V]
    · exact Or.inr ⟨c, rfl, hpv, hfree⟩
    · intro _ _; exact hV
    · intro h1; exact absurd hup.2 (h1 hup.1)
  have hlow : U c → ¬ ActBy (· ≤ rad) E.B.barcode c := fun h1 h2 => hup ⟨h1, h2⟩
  obtain ⟨M, T', q, a, h1, h2, -, h3⟩ := pivotCheckReduce_spec hE.hp (m := E.B.dim) (n := E.A.dim)
    (nT := E.A.dim) (col := c) (pivPrev := s.1.pivIm.take c) (T := some s.1.T) hL.sB
    (fun r hr => by rw [hE.lenB]; exact ((hL.mB r).1 hr).lt) hcn hcn (by omega) hc.im
    (fun _ h => by cases h; exact ⟨_, hc.T⟩) (by
      intro i r hi hr
      have hic : i < c := by
        have := (List.getElem?_eq_some_iff.1 hi).1
        omega
      rw [hget i hic] at hi
      have := hc.aliveLo i hic r (by injection hi)
      rw [haB]; exact this)
  obtain ⟨T, rfl, hT1, -, -⟩ := h3 s.1.T _ rfl hc.T
  refine ⟨M, T, q, a, h1, h2.ok, hT1, h2.other, ?_, ?_, ?_, ?_, ?_⟩
  · intro i hi
    obtain ⟨h3, r, h4, h5⟩ := h2.supp i hi
    rw [hlen] at h3
    rw [hget i h3] at h5
    exact ⟨h3, r, by injection h5⟩
  · rw [h2.eq, hlen]; rfl
  · rcases h2.res with ⟨h3, h4⟩ | ⟨r, h3, h4, h5⟩
    · exact Or.inl ⟨h3, fun i hi => h4 i ((hL.mB i).2 hi)⟩
    · right
      refine ⟨r, h3, ?_, ?_⟩
      · rw [haB] at h4; exact h4
      · intro k hk hkr
        apply h5
        have := List.mem_of_getElem? (hget k hk)
        rwa [hkr] at this
  · intro h1 h2; exact absurd h2 (hlow h1)
  · intro _
    refine pcrLoop_stays hE.hp.pos (m := E.B.dim) (n := E.A.dim) hL.sB hcn (by omega) (fun l => ¬ U l) _
      s.1.im (some s.1.T) M (some T) q hc.im ?_ ?_ h1
    · rcases hc.pcase c hcn with k1 | k1 | k1
      · intro l hl hUl
        have : zv E.p (s.1.im.col c) = Pi.single c 1 := hc.orig c hcn k1
        rw [this] at hl
        have hlc : l = c := by
          by_contra hne; exact hl (Pi.single_eq_of_ne hne _)
        subst hlc
        refine hlow hUl ?_
        obtain ⟨b, hb, hbr⟩ := (hE.born_iff _ l).1 hborn
        refine ⟨b, hb, hbr, ?_⟩
        have hnb := (hc.unborn l hcn).1 k1
        rw [cutAt_hi le_rfl, hE.born_iff] at hnb
        have hrb : ¬ b.1 < rad := fun hlt => hnb ⟨b, hb, hlt⟩
        intro hd
        exact hrb (lt_of_lt_of_le (hE.wf b (List.mem_of_getElem? hb)).1 hd)
      · exact absurd k1 hpc
      · exact hc.low c k1 hlow
    · intro i r hi hQ
      have hic : i < c := by
        have := (List.getElem?_eq_some_iff.1 hi).1
        omega
      rw [hget i hic, Option.some.injEq] at hi
      refine hc.low i ⟨r, hi⟩ ?_
      intro k1 k2
      have := hc.up i ⟨r, hi⟩ k1 k2
      have hp := hc.aliveLo i hic r hi
      have hir : r = i := by
        by_contra hne
        apply hp.2.1
        rw [this]
        exact Pi.single_eq_of_ne hne _
      exact hQ (hir ▸ k1)

/-- The step of the invariant. -/
theorem BMid.update (hE : BrkOK E BD U R) (h : BMid E BD U rad st0 c s)
    (hcn : c < E.A.dim) (hpc : s.1.piv c ≠ -1) (hborn : BornBy (· ≤ rad) E.A.barcode c)
    {M T : Mat} {q : Int} {a : ℕ → ZMod E.p} (hr : BRed E U rad s.1 c M T q a) {st' : IK α}
    {N : List Int} (hpiv' : st'.pivIm = s.1.pivIm.set c q) (him : st'.im = M) (hT : st'.T = T)
    (hstep : (q ≠ -1 ∧ st'.imDeath = s.1.imDeath ∧ N = s.2 ++ [q]) ∨
      (q = -1 ∧ st'.imDeath = s.1.imDeath.set c rad ∧ N = s.2)) :
    BMid E BD U rad st0 (c + 1) (st', N) := by
  have hc := h.core
  have hpl : c < s.1.pivIm.length := by rw [hc.pivIm]; exact hcn
  have hpiv : ∀ j, st'.piv j = if j = c then q else s.1.piv j := by
    intro j
    unfold IK.piv
    rw [hpiv']
    exact getD_set _ _ _ _ _ hpl
  have hpne : ∀ j, j ≠ c → st'.piv j = s.1.piv j := fun j hj => by rw [hpiv, if_neg hj]
  have hpcc : st'.piv c = q := by rw [hpiv, if_pos rfl]
  have hVne : ∀ j, j ≠ c → E.V st' j = E.V s.1 j := by
    intro j hj
    unfold IKEnv.V
    rw [← hr.otherM j hj, him]
  have hVc : E.V st' c = zv E.p (M.col c) := by unfold IKEnv.V; rw [him]
  have hq : q = -1 ∨ ∃ r : ℕ, q = r := by
    rcases hr.res with ⟨h1, -⟩ | ⟨r, h1, -⟩
    · exact Or.inl h1
    · exact Or.inr ⟨r, h1⟩
  have hHne : ∀ j, j ≠ c → (st'.Has j ↔ s.1.Has j) := by
    intro j hj; unfold IK.Has; rw [hpne j hj]
  have hlen : st'.pivIm.length = E.A.dim := by rw [hpiv', List.length_set, hc.pivIm]
  have hdl : st'.imDeath.length = E.A.dim := by
    rcases hstep with ⟨-, e, -⟩ | ⟨-, e, -⟩
    · rw [e]; exact hc.imDeath
    · rw [e, List.length_set]; exact hc.imDeath
  have hres : ∀ r : ℕ, q = r → IsPivOn (ActBy (· ≤ rad) E.B.barcode) (zv E.p (M.col c)) r ∧
      ∀ k, k < c → s.1.piv k ≠ r := by
    intro r hqr
    rcases hr.res with ⟨h1, -⟩ | ⟨r', h1, h2⟩
    · omega
    · have : r = r' := by omega
      subst this; exact h2
  have hcsupp : ∀ l, E.V s.1 c l ≠ 0 → ActBy (· ≤ rad) E.B.barcode l := by
    intro l hl
    rcases hc.pcase c hcn with h1 | h1 | h1
    · rw [hc.orig c hcn h1] at hl
      have hlc : l = c := by
        by_contra hne; exact hl (Pi.single_eq_of_ne hne _)
      subst hlc
      obtain ⟨b, hb, hbr⟩ := (hE.born_iff _ l).1 hborn
      refine ⟨b, hb, hbr, ?_⟩
      have hnb := (hc.unborn l hcn).1 h1
      rw [cutAt_hi le_rfl, hE.born_iff] at hnb
      have hrb : ¬ b.1 < rad := fun hlt => hnb ⟨b, hb, hlt⟩
      intro hd
      exact hrb (lt_of_lt_of_le (hE.wf b (List.mem_of_getElem? hb)).1 hd)
    · exact absurd h1 hpc
    · exact hc.supp c h1 l hl
  have hMsupp : ∀ l, zv E.p (M.col c) l ≠ 0 → ActBy (· ≤ rad) E.B.barcode l := by
    intro l hl
    rw [hr.eq, Pi.add_apply, Finset.sum_apply] at hl
    by_cases h1 : E.V s.1 c l = 0
    · rw [h1, zero_add] at hl
      obtain ⟨i, -, hi⟩ := Finset.exists_ne_zero_of_sum_ne_zero hl
      rw [Pi.smul_apply, smul_eq_mul] at hi
      obtain ⟨h2, h3⟩ := hr.supp i (left_ne_zero_of_mul hi)
      exact hc.supp i h3 l (right_ne_zero_of_mul hi)
    · exact hcsupp l h1
  -- spans
  have hpre1 : ∀ m, spn (ZMod E.p) (fun j => E.V s.1 j) (fun j => s.1.Has j ∨ j = c) m =
      spn (ZMod E.p) (fun j => E.tr BD (· ≤ rad) j)
        (fun j => BornBy (cutAt (· < rad) (· ≤ rad) (c + 1) j) E.A.barcode j) m := by
    intro m
    rcases hc.pcase c hcn with h1 | h1 | h1
    · have hxy : E.V s.1 c = E.tr BD (· ≤ rad) c := by
        have hV := hc.orig c hcn h1
        have hA : ActBy (· ≤ rad) E.B.barcode c := hcsupp c (by rw [hV]; simp)
        obtain ⟨b, hb, -, hd⟩ := hA
        rw [hV, E.tr_neg (P := (· ≤ rad)) hb hd]
      rw [spn_insert_congr (x := fun j => E.V s.1 j) hc.pre hxy m]
      refine spn_congr (fun j _ => ?_) fun _ _ _ => rfl
      by_cases hjc : j = c
      · subst hjc
        have e : BornBy (cutAt (· < rad) (· ≤ rad) (j + 1) j) E.A.barcode j := by
          rw [cutAt_lo (Nat.lt_succ_self j)]; exact hborn
        simp [e]
      · rw [cut_succ_ne hjc]; simp [hjc]
    · exact absurd h1 hpc
    · have hcb : BornBy (· < rad) E.A.barcode c := by
        by_contra hnb
        have := (hc.unborn c hcn).2 (by rw [cutAt_hi le_rfl]; exact hnb)
        obtain ⟨r, hr⟩ := h1
        omega
      have e1 : spn (ZMod E.p) (fun j => E.V s.1 j) (fun j => s.1.Has j ∨ j = c) m =
          spn (ZMod E.p) (fun j => E.V s.1 j) s.1.Has m :=
        spn_congr (fun j _ => ⟨fun h => h.elim id (fun e => e ▸ h1), Or.inl⟩) fun _ _ _ => rfl
      rw [e1, hc.pre m]
      refine spn_congr (fun j _ => ?_) fun _ _ _ => rfl
      by_cases hjc : j = c
      · subst hjc
        have e : BornBy (cutAt (· < rad) (· ≤ rad) (j + 1) j) E.A.barcode j := by
          rw [cutAt_lo (Nat.lt_succ_self j)]; exact hborn
        have e' : BornBy (cutAt (· < rad) (· ≤ rad) j j) E.A.barcode j := by
          rw [cutAt_hi le_rfl]; exact hcb
        exact ⟨fun _ => e, fun _ => e'⟩
      · rw [cut_succ_ne hjc]
  have hcomb : (∑ i ∈ range c, a i • E.V s.1 i) ∈
      spn (ZMod E.p) (fun j => E.V s.1 j) (fun j => s.1.Has j ∨ j = c) c := by
    refine Submodule.sum_mem _ fun i hi => ?_
    by_cases hai : a i = 0
    · rw [hai, zero_smul]; exact Submodule.zero_mem _
    · exact Submodule.smul_mem _ _ (mem_spn (x := fun j => E.V s.1 j)
        (mem_range.1 hi) (Or.inl (hr.supp i hai).2))
  refine ⟨⟨by dsimp only; rw [him]; exact hr.okM, by dsimp only; rw [hT]; exact hr.okT, hlen, hdl, ?_,
    ?_, ?_, ?_, ?_, ?_, ?_, ?_, ?_, ?_, ?_, ?_, ?_⟩, ?_, ?_, ?_, ?_, h.oinj⟩
  · intro j hj
    by_cases hjc : j = c
    · subst hjc
      rw [hpcc, cutAt_lo (by omega)]
      refine ⟨fun e => ?_, fun e => absurd hborn e⟩
      rcases hq with h1 | ⟨r, h1⟩ <;> omega
    · rw [hpne j hjc, cut_succ_ne hjc]; exact hc.unborn j hj
  · intro j hj hj2
    by_cases hjc : j = c
    · subst hjc
      rw [hpcc] at hj2
      rcases hq with h1 | ⟨r, h1⟩ <;> omega
    · rw [hpne j hjc] at hj2
      rw [hVne j hjc]; exact hc.orig j hj hj2
  · intro j hj
    by_cases hjc : j = c
    · subst hjc
      rw [hpcc]
      rcases hq with h1 | ⟨r, h1⟩
      · exact Or.inr (Or.inl h1)
      · exact Or.inr (Or.inr ⟨r, by rw [hpcc]; exact h1⟩)
    · rw [hpne j hjc, hHne j hjc]; exact hc.pcase j hj
  · intro j hj' r hj
    by_cases hjc : j = c
    · subst hjc
      rw [hpcc] at hj
      rw [hVc]
      exact (hres r hj).1
    · rw [hpne j hjc] at hj
      rw [hVne j hjc]; exact hc.aliveLo j (by omega) r hj
  · intro j hj' r hj
    have hjc : j ≠ c := by omega
    rw [hpne j hjc] at hj
    rw [hVne j hjc]; exact hc.aliveHi j (by omega) r hj
  · intro j hj' r hj
    have hjc : j ≠ c := by omega
    rw [hpne j hjc] at hj
    exact hc.actHi j (by omega) r hj
  · intro j hj l hl
    by_cases hjc : j = c
    · subst hjc
      rw [hVc] at hl
      exact hMsupp l hl
    · rw [hHne j hjc] at hj
      rw [hVne j hjc] at hl
      exact hc.supp j hj l hl
  · intro j hj hU hA
    by_cases hjc : j = c
    · subst hjc
      rw [hVc]; exact hr.up hU hA
    · rw [hHne j hjc] at hj
      rw [hVne j hjc]; exact hc.up j hj hU hA
  · intro j hj hU l hl
    by_cases hjc : j = c
    · subst hjc
      rw [hVc] at hl; exact hr.low hU l hl
    · rw [hHne j hjc] at hj
      rw [hVne j hjc] at hl; exact hc.low j hj hU l hl
  · have key : ∀ k, k < c → ∀ i : ℕ, st'.piv k = i → st'.piv c = i → False := by
      intro k hk i h1 h2
      rw [hpcc] at h2
      rw [hpne k (by omega)] at h1
      exact (hres i h2).2 k hk h1
    intro k k' hk hk' i h1 h2
    by_cases hkc : k = c
    · by_cases hkc' : k' = c
      · omega
      · exact (key k' (by omega) i h2 (hkc ▸ h1)).elim
    · by_cases hkc' : k' = c
      · exact (key k (by omega) i h1 (hkc' ▸ h2)).elim
      · rw [hpne k hkc] at h1
        rw [hpne k' hkc'] at h2
        exact hc.injLo k k' (by omega) (by omega) i h1 h2
  · intro k k' hk hk' i h1 h2
    rw [hpne k (by omega)] at h1
    rw [hpne k' (by omega)] at h2
    exact hc.injHi k k' (by omega) (by omega) i h1 h2
  · intro m
    rw [← hpre1 m]
    rcases hq with hq1 | ⟨r, hq1⟩
    · have hz : zv E.p (M.col c) = 0 := by
        funext l
        by_contra hne
        rcases hr.res with ⟨-, h2⟩ | ⟨r', h1, -⟩
        · exact hne (h2 l (hMsupp l hne))
        · omega
      rw [hr.eq] at hz
      have hin : E.V s.1 c ∈
          spn (ZMod E.p) (fun j => E.V s.1 j) (fun j => s.1.Has j ∨ j = c) c := by
        rw [eq_neg_of_add_eq_zero_left hz]
        exact Submodule.neg_mem _ hcomb
      rw [← spn_remove (x := fun j => E.V s.1 j) hin]
      refine spn_congr (fun j _ => ?_) fun j _ hj => ?_
      · by_cases hjc : j = c
        · subst hjc
          simp only [ne_eq, not_true_eq_false, and_false, iff_false]
          rintro ⟨r, hr⟩
          rw [hpcc] at hr; omega
        · rw [hHne j hjc]; simp [hjc]
      · have hjc : j ≠ c := by
          rintro rfl
          obtain ⟨r, hr⟩ := hj
          rw [hpcc] at hr; omega
        rw [hVne j hjc]
    · have hop : E.V st' c - E.V s.1 c ∈
          spn (ZMod E.p) (fun j => E.V s.1 j) (fun j => s.1.Has j ∨ j = c) c := by
        rw [hVc, hr.eq, add_sub_cancel_left]
        exact hcomb
      rw [← spn_op (x := fun j => E.V s.1 j) (x' := fun j => E.V st' j)
        (fun j hj => by simp only [hVne j hj]) hop]
      refine spn_congr (fun j _ => ?_) fun _ _ _ => rfl
      by_cases hjc : j = c
      · subst hjc
        simp only [or_true, iff_true]
        exact ⟨r, by rw [hpcc]; exact hq1⟩
      · rw [hHne j hjc]; simp [hjc]
  · intro j hj hj1 e he
    rcases hstep with ⟨h1, h2, -⟩ | ⟨h1, h2, -⟩
    · have hjc : j ≠ c := by rintro rfl; exact h1 (hpcc ▸ hj1)
      rw [hpne j hjc] at hj1
      dsimp only at he
      rw [h2] at he
      exact hc.db j hj hj1 e he
    · dsimp only at he
      rw [h2, List.getElem?_set] at he
      by_cases hjc : j = c
      · subst hjc
        rw [if_pos rfl, if_pos (by rw [hc.imDeath]; exact hj), Option.some.injEq] at he
        exact he ▸ le_rfl
      · rw [if_neg (fun e => hjc e.symm)] at he
        rw [hpne j hjc] at hj1
        exact hc.db j hj hj1 e he
  · refine h.hist.update hE.lenA.symm ?_ ?_
    · intro j hj hj1
      have hjc : j ≠ c := by rintro rfl; exact hpc hj1
      refine ⟨by rw [hpne j hjc]; exact hj1, ?_⟩
      rcases hstep with ⟨-, h2, -⟩ | ⟨-, h2, -⟩
      · dsimp only; rw [h2]
      · dsimp only; rw [h2, List.getElem?_set, if_neg (fun e => hjc e.symm)]
    · intro j hj hj1 hj2
      have hjc : j = c := by
        by_contra hjc
        rw [hpne j hjc] at hj2
        exact hj1 hj2
      subst hjc
      rcases hstep with ⟨h1, -⟩ | ⟨-, h2, -⟩
      · exact absurd (hpcc ▸ hj2) h1
      · dsimp only
        rw [h2, List.getElem?_set, if_pos rfl, if_pos (by rw [hc.imDeath]; exact hj)]
  · intro q' hq'
    have hold : q' ∈ s.2 → ∃ i : ℕ, q' = i ∧ ∃ k, k < c + 1 ∧ st'.piv k = i := by
      intro h1
      obtain ⟨i, h2, k, h3, h4⟩ := h.N q' h1
      exact ⟨i, h2, k, by omega, by rw [hpne k (by omega)]; exact h4⟩
    rcases hstep with ⟨h1, -, rfl⟩ | ⟨h1, -, rfl⟩
    · rcases List.mem_append.1 hq' with h2 | h2
      · exact hold h2
      · obtain ⟨r, h3⟩ := hq.resolve_left h1
        refine ⟨r, (List.mem_singleton.1 h2).trans h3, c, by omega, hpcc.trans h3⟩
    · exact hold hq'
  · intro k hk i hi
    by_cases hkc : k = c
    · subst hkc
      rw [hpcc] at hi
      left
      rcases hstep with ⟨-, -, rfl⟩ | ⟨h1, -⟩
      · simp [hi]
      · omega
    · rw [hpne k hkc] at hi
      refine (h.N2 k (by omega) i hi).imp (fun h1 => ?_) id
      rcases hstep with ⟨-, -, rfl⟩ | ⟨-, -, rfl⟩
      · exact List.mem_append_left _ h1
      · exact h1
  · intro k hk
    rw [hpne k (by omega)]
    exact h.un k (by omega)

theorem BMid.step (hE : BrkOK E BD U R) (hL : Lists E rad aA aB dA bA dB)
    (h : BMid E BD U rad st0 c s) (hcn : c < E.A.dim) (hst0 : st0.pivIm.length = E.A.dim) :
    ∃ s', imStep E rad aB dA bA dB st0.pivIm s c = .ok s' ∧ BMid E BD U rad st0 (c + 1) s' := by
  have hc := h.core
  have hrc : s.1.piv c = st0.piv c := h.un c le_rfl
  have hold : st0.pivIm.getD c 0 = st0.piv c := by
    unfold IK.piv
    have : c < st0.pivIm.length := by omega
    rw [List_getD_eq_getElem _ _ this, List_getD_eq_getElem _ _ this]
  unfold imStep
  rw [hold]
  by_cases ht : ((decide (0 ≤ st0.piv c) &&
        decide ((s.1.im.col c).getD (st0.piv c).toNat 0 % (E.p : Int) = 0)) ||
      dB.any (fun d => (d : Int) == st0.piv c) || s.2.contains (st0.piv c) ||
      bA.contains c) = true
  · rw [if_pos ht]
    have hcase : c ∈ bA ∨ ∃ r : ℕ, s.1.piv c = r := by
      rw [Bool.or_eq_true, Bool.or_eq_true, Bool.or_eq_true, Bool.and_eq_true] at ht
      rcases ht with ((⟨h1, -⟩ | h1) | h1) | h1
      · right
        have h1 : 0 ≤ st0.piv c := by simpa using h1
        exact ⟨(st0.piv c).toNat, by rw [hrc]; omega⟩
      · right
        rw [List.any_eq_true] at h1
        obtain ⟨d, -, h3⟩ := h1
        have : (d : Int) = st0.piv c := by simpa using h3
        exact ⟨d, by rw [hrc, this]⟩
      · right
        have h1 : st0.piv c ∈ s.2 := by simpa using h1
        obtain ⟨i, h2, -⟩ := h.N _ h1
        exact ⟨i, by rw [hrc, h2]⟩
      · left; simpa using h1
    have hpc : s.1.piv c ≠ -1 ∧ BornBy (· ≤ rad) E.A.barcode c := by
      rcases hcase with h1 | ⟨r, h1⟩
      · have hb := (hL.mbA c).1 h1
        refine ⟨?_, born_le_iff.2 (Or.inr hb)⟩
        have := (hc.unborn c hcn).2 (by rw [cutAt_hi le_rfl]; exact not_born_of_birth hb)
        omega
      · refine ⟨by omega, ?_⟩
        by_contra hnb
        have := (hc.unborn c hcn).2 (by rw [cutAt_hi le_rfl]; exact fun h => hnb h.le)
        omega
    obtain ⟨hpc, hborn⟩ := hpc
    obtain ⟨M, T, q, a, h1, h2⟩ := h.reduce hE hL hcn hpc hborn
    rw [h1]
    dsimp only
    simp only [Option.getD_some]
    by_cases hq : q = -1
    · subst hq
      rw [if_neg (by simp)]
      unfold imDie
      rw [if_neg (by rw [hE.full]; simp), if_neg (by rw [hE.start]; omega)]
      exact ⟨_, rfl, h.update hE hcn hpc hborn h2 rfl rfl rfl (Or.inr ⟨rfl, rfl, rfl⟩)⟩
    · rw [if_pos hq]
      exact ⟨_, rfl, h.update hE hcn hpc hborn h2 rfl rfl rfl (Or.inl ⟨hq, rfl, rfl⟩)⟩
  · rw [if_neg ht]
    rw [Bool.or_eq_true, Bool.or_eq_true, Bool.or_eq_true] at ht
    push Not at ht
    obtain ⟨⟨⟨-, h2⟩, h3⟩, h4⟩ := ht
    refine ⟨s, rfl, h.skip hL ?_ (by simpa using h3) (by simpa using h4)⟩
    intro i hi hd
    apply h2
    rw [List.any_eq_true]
    exact ⟨i, hd, by simp [hi]⟩

/-- One radius. -/
theorem ikRadius_brk (hE : BrkOK E BD U R) {st : IK α}
    (hc : BCore E BD U (· < rad) (· < rad) E.A.dim st) (hh : BHist E BD st (· < rad)) :
    ∃ st', ikRadius E st rad = .ok st' ∧
      BCore E BD U (· ≤ rad) (· ≤ rad) E.A.dim st' ∧ BHist E BD st' (· < rad) := by
  let aA := barIndices E.A.barcode fun b => decide (b.1 ≤ rad) && decide (rad < b.2)
  let aB := barIndices E.B.barcode fun b => decide (b.1 ≤ rad) && decide (rad < b.2)
  let dA := barIndices E.A.barcode fun b => decide (b.2 = rad)
  let bA := barIndices E.A.barcode fun b => decide (b.1 = rad)
  let dB := barIndices E.B.barcode fun b => decide (b.2 = rad)
  have hL : Lists E rad aA aB dA bA dB := by
    refine ⟨?_, barIndices_sorted _ _, ?_, barIndices_sorted _ _, ?_, ?_, ?_⟩
    · intro i; simp [aA, mem_barIndices, ActBy]
    · intro i; simp [aB, mem_barIndices, ActBy]
    · intro i; simp [dA, mem_barIndices]
    · intro i; simp [bA, mem_barIndices]
    · intro i; simp [dB, mem_barIndices]
  obtain ⟨st1, h1, h2, h3, hinj⟩ := hc.enter hE hL.mdA hh
  have h0 : BMid E BD U rad st1 0 (st1, []) :=
    ⟨h2, h3, by simp, fun k hk => absurd hk (by omega), fun _ _ => rfl, hinj⟩
  obtain ⟨s, h4, h5⟩ := foldlM_range_inv (imStep E rad aB dA bA dB st1.pivIm)
    (fun c s => BMid E BD U rad st1 c s) E.A.dim (st1, []) h0
    (fun c hcn s hs => hs.step hE hL hcn h2.pivIm)
  refine ⟨s.1, ?_, ?_, h5.hist⟩
  · unfold ikRadius Basis.active Basis.death Basis.birth
    rw [hE.flatA, hE.flatB]
    simp only [hE.full, bind, Except.bind, Bool.false_eq_true, if_false]
    have h1' : relPhase E rad (barIndices E.A.barcode fun b => decide (b.2 = rad)) st = .ok st1 := h1
    rw [h1']
    dsimp only
    change imPhase E rad aB dA bA dB st1 = _
    unfold imPhase
    rw [h4]
  · have hc := h5.core
    have hpl : ∀ j, s.1.Has j → j < E.A.dim := fun j h => IK.has_lt hc.pivIm h
    have hcc : ∀ j, j < E.A.dim → cutAt (· < rad) (· ≤ rad) E.A.dim j = (· ≤ rad) :=
      fun j hj => cutAt_lo hj
    have hc0 : ∀ j, cutAt (· ≤ rad) (· ≤ rad) E.A.dim j = (· ≤ rad) := fun j => by
      unfold cutAt; split <;> rfl
    exact { hc with
      unborn := fun j hj => by rw [hc0, ← hcc j hj]; exact hc.unborn j hj
      aliveHi := fun j hj r hr => absurd (hpl j ⟨r, hr⟩) (by omega)
      actHi := fun j hj r hr => absurd (hpl j ⟨r, hr⟩) (by omega)
      injHi := fun j j' hj _ r hr => absurd (hpl j ⟨r, hr⟩) (by omega)
      pre := fun m => by
        rw [hc.pre m]
        refine spn_congr (fun j _ => ?_) fun _ _ _ => rfl
        rw [hc0]
        by_cases hj : j < E.A.dim
        · rw [hcc j hj]
        · have hn : ∀ P : α → Prop, ¬ BornBy P E.A.barcode j := fun P hb => hj (hE.lenA ▸ hb.lt)
          exact ⟨fun h => absurd h (hn _), fun h => absurd h (hn _)⟩ }

/-- The history at the present. -/
theorem BCore.present (hE : BrkOK E BD U R) {t : α} {st : IK α}
    (hc : BCore E BD U (· ≤ t) (· ≤ t) E.A.dim st) (m : ℕ) :
    Module.finrank (ZMod E.p) (spn (ZMod E.p) (fun j => E.tr BD (· ≤ t) j)
      (BornBy (· ≤ t) E.A.barcode) m) = (rset E st t m).card := by
  classical
  have hc0 : ∀ j, cutAt (· ≤ t) (· ≤ t) E.A.dim j = (· ≤ t) := fun j => by
    unfold cutAt; split <;> rfl
  have h1 := hc.pre m
  simp only [hc0] at h1
  have hset : ∀ j, j ∈ rset E st t m ↔ j < m ∧ st.Has j := by
    intro j
    unfold rset
    rw [Finset.mem_filter, mem_range]
    refine and_congr_right fun _ => ?_
    constructor
    · rintro ⟨hb, hd⟩
      have hj : j < E.A.dim := hE.lenA ▸ hb.lt
      rcases hc.pcase j hj with h2 | h2 | h2
      · have := (hc.unborn j hj).1 h2
        rw [hc0] at this
        exact absurd hb this
      · have hl : j < st.imDeath.length := by rw [hc.imDeath]; exact hj
        have e := List.getElem?_eq_getElem hl
        exact absurd (hd h2 _ e) (not_lt.2 (hc.db j hj h2 _ e))
      · exact h2
    · intro hH
      have hj := IK.has_lt hc.pivIm hH
      refine ⟨?_, fun h2 => ?_⟩
      · by_contra hnb
        have := (hc.unborn j hj).2 (by rw [hc0]; exact hnb)
        obtain ⟨r, hr⟩ := hH
        omega
      · obtain ⟨r, hr⟩ := hH
        omega
  have hres : ∀ j, st.Has j → restr (ActBy (· ≤ t) E.B.barcode) (E.V st j) = E.V st j :=
    fun j hj => restr_of_supp (hc.supp j hj)
  have hind : LinearIndependent (ZMod E.p)
      fun j : rset E st t m => restr (ActBy (· ≤ t) E.B.barcode) (E.V st j) := by
    refine indep_of_pivots _ (fun j => (st.piv j).toNat) ?_ ?_
    · intro j hj
      obtain ⟨-, r, hr⟩ := (hset j).1 hj
      have := hc.aliveLo j (IK.has_lt hc.pivIm ⟨r, hr⟩) r hr
      simpa only [hr, Int.toNat_natCast] using this
    · intro j hj j' hj' he
      obtain ⟨-, r, hr⟩ := (hset j).1 hj
      obtain ⟨-, r', hr'⟩ := (hset j').1 hj'
      have : r = r' := by simpa [hr, hr'] using he
      subst this
      exact hc.injLo j j' (IK.has_lt hc.pivIm ⟨r, hr⟩) (IK.has_lt hc.pivIm ⟨r, hr'⟩) r hr hr'
  have h2 : spn (ZMod E.p) (fun j => E.V st j) st.Has m =
      Submodule.span (ZMod E.p) (Set.range fun j : rset E st t m =>
        restr (ActBy (· ≤ t) E.B.barcode) (E.V st j)) := by
    unfold spn
    congr 1
    ext x
    constructor
    · rintro ⟨j, hj, rfl⟩; exact ⟨⟨j, (hset j).2 hj⟩, hres j hj.2⟩
    · rintro ⟨⟨j, hj⟩, rfl⟩; exact ⟨j, (hset j).1 hj, (hres j ((hset j).1 hj).2).symm⟩
  rw [← h1, h2, finrank_span_eq_card hind, Fintype.card_coe]

/-- The whole invariant. -/
def BInv (E : IKEnv α) [Fact E.p.Prime] (BD : Mat) (U : ℕ → Prop) (P : α → Prop) (st : IK α) : Prop :=
  BCore E BD U P P E.A.dim st ∧ BHist E BD st P

/-- The core only depends on which end points have passed. -/
theorem BCore.congr {P P' : α → Prop} {st : IK α} (hc : BCore E BD U P P E.A.dim st)
    (h1 : ∀ x, P x → P' x)
    (hA : ∀ b ∈ E.A.barcode, (P' b.1 → P b.1) ∧ (P' b.2 → P b.2))
    (hB : ∀ b ∈ E.B.barcode, (P' b.1 → P b.1) ∧ (P' b.2 → P b.2)) :
    BCore E BD U P' P' E.A.dim st := by
  obtain ⟨eA1, eA2⟩ := born_act_congr h1 _ hA
  obtain ⟨eB1, eB2⟩ := born_act_congr h1 _ hB
  have hcut : ∀ (Q : α → Prop) j, cutAt Q Q E.A.dim j = Q := fun Q j => by
    unfold cutAt; split <;> rfl
  have er : E.rB P' = E.rB P := by unfold IKEnv.rB; rw [eB2]
  have et : ∀ j, E.tr BD P' j = E.tr BD P j := by
    intro j
    have : (∃ b, E.B.barcode[j]? = some b ∧ P' b.2) ↔ (∃ b, E.B.barcode[j]? = some b ∧ P b.2) := by
      constructor
      · rintro ⟨b, h2, h3⟩; exact ⟨b, h2, (hB b (List.mem_of_getElem? h2)).2 h3⟩
      · rintro ⟨b, h2, h3⟩; exact ⟨b, h2, h1 _ h3⟩
    by_cases h2 : ∃ b, E.B.barcode[j]? = some b ∧ P b.2
    · obtain ⟨b, hb, h3⟩ := h2
      rw [E.tr_pos (P := P) hb h3, E.tr_pos (P := P') hb (h1 _ h3), er]
    · by_cases hj : j < E.B.barcode.length
      · have hb := List.getElem?_eq_getElem hj
        rw [E.tr_neg (P := P) hb (fun h => h2 ⟨_, hb, h⟩),
          E.tr_neg (P := P') hb (fun h => h2 (this.1 ⟨_, hb, h⟩))]
      · have hb : E.B.barcode[j]? = none := List.getElem?_eq_none (not_lt.1 hj)
        unfold IKEnv.tr
        rw [if_neg (by simp [hb]), if_neg (by simp [hb])]
  exact { hc with
    unborn := fun j hj => by have := hc.unborn j hj; rw [hcut] at this ⊢; rw [eA1]; exact this
    aliveLo := fun j hj r hr => by rw [eB2]; exact hc.aliveLo j hj r hr
    aliveHi := fun j hj r hr h => by rw [eB2] at h ⊢; exact hc.aliveHi j hj r hr h
    actHi := fun j hj r hr => by rw [eB2]; exact hc.actHi j hj r hr
    supp := fun j hj => by rw [eB2]; exact hc.supp j hj
    up := fun j hj hU h => by rw [eB2] at h; exact hc.up j hj hU h
    low := fun j hj hU => by rw [eB2] at hU; exact hc.low j hj hU
    pre := fun m => by
      have := hc.pre m
      simp only [hcut, et] at this ⊢
      rw [eA1]; exact this
    db := fun j hj h e he => h1 _ (hc.db j hj h e he) }

/-- Between two radii nothing happens. -/
theorem BInv.extend (hE : BrkOK E BD U R) {P P' : α → Prop} {st : IK α} (h : BInv E BD U P st)
    (hP : Down P) (h1 : ∀ x, P x → P' x) (hP' : Down P')
    (hA : ∀ b ∈ E.A.barcode, (P' b.1 → P b.1) ∧ (P' b.2 → P b.2))
    (hB : ∀ b ∈ E.B.barcode, (P' b.1 → P b.1) ∧ (P' b.2 → P b.2)) : BInv E BD U P' st := by
  refine ⟨h.1.congr h1 hA hB, ?_⟩
  intro t ht
  by_cases hPt : P t
  · exact h.2 t hPt
  · refine BCore.present hE (h.1.congr (P' := (· ≤ t)) ?_ ?_ ?_)
    · intro x hx
      by_contra hlt
      exact hPt (hP x t (le_of_lt (not_le.1 hlt)) hx)
    · intro b hb
      exact ⟨fun h => (hA b hb).1 (hP' _ _ h ht), fun h => (hA b hb).2 (hP' _ _ h ht)⟩
    · intro b hb
      exact ⟨fun h => (hB b hb).1 (hP' _ _ h ht), fun h => (hB b hb).2 (hP' _ _ h ht)⟩

theorem ikRadius_binv (hE : BrkOK E BD U R) {st : IK α} (h : BInv E BD U (· < rad) st) :
    ∃ st', ikRadius E st rad = .ok st' ∧ BInv E BD U (· ≤ rad) st' := by
  obtain ⟨st', h1, h2, h3⟩ := ikRadius_brk hE h.1 h.2
  refine ⟨st', h1, h2, ?_⟩
  intro t ht
  rcases lt_or_eq_of_le ht with h4 | rfl
  · exact h3 t h4
  · exact h2.present hE

/-- What is known about the state after the loop. -/
structure BFinal (E : IKEnv α) [Fact E.p.Prime] (BD : Mat) (st : IK α) : Prop where
  im : MatOK E.p E.B.dim E.A.dim st.im
  T : MatOK E.p E.A.dim E.A.dim st.T
  pivIm : st.pivIm.length = E.A.dim
  imDeath : st.imDeath.length = E.A.dim
  dead : ∀ j, j < E.A.dim → st.piv j = -1
  count : ∀ t m, Module.finrank (ZMod E.p) (spn (ZMod E.p) (fun j => E.tr BD (· ≤ t) j)
    (BornBy (· ≤ t) E.A.barcode) m) = (rset E st t m).card

theorem init_binv [Zero α] (hE : BrkOK E BD U R) : BInv E BD U (fun _ => False) E.init := by
  have hp1 : 1 < E.p := hE.hp.one_lt
  have hnb : ∀ bars i, ¬ BornBy (fun _ : α => False) bars i := fun bars i ⟨_, _, h⟩ => h
  have hcut : ∀ j, cutAt (fun _ : α => False) (fun _ => False) E.A.dim j = fun _ => False :=
    fun j => by unfold cutAt; split <;> rfl
  have hpiv : ∀ j, (E.init).piv j = -2 := by
    intro j
    simp only [IK.piv, IKEnv.init, List.getD_eq_getElem?_getD, List.getElem?_replicate]
    split <;> simp
  have hH : ∀ j, ¬ (E.init).Has j := by
    rintro j ⟨r, h⟩
    rw [hpiv] at h; omega
  refine ⟨{
    im := hE.F
    T := identity_ok hp1 _
    pivIm := by simp [IKEnv.init]
    imDeath := by simp [IKEnv.init]
    unborn := fun j _ => by rw [hcut]; simp [hpiv, hnb]
    orig := fun j hj _ => hE.f j hj
    pcase := fun j _ => Or.inl (hpiv j)
    aliveLo := fun j _ r h => by rw [hpiv] at h; omega
    aliveHi := fun j _ r h => by rw [hpiv] at h; omega
    actHi := fun j _ r h => by rw [hpiv] at h; omega
    supp := fun j h => absurd h (hH j)
    up := fun j h => absurd h (hH j)
    low := fun j h => absurd h (hH j)
    injLo := fun j j' _ _ r h => by rw [hpiv] at h; omega
    injHi := fun j j' _ _ r h => by rw [hpiv] at h; omega
    pre := fun m => by
      simp only [hcut]
      exact (le_antisymm (spn_le fun j _ h => absurd h (hH j))
        (spn_le fun j _ h => absurd h (hnb _ _)))
    db := fun j _ h => by rw [hpiv] at h; omega }, fun t h => h.elim⟩

theorem ikLoop_brk [Zero α] (hE : BrkOK E BD U R) :
    ∃ st, ikLoop E E.radii E.init = .ok st ∧ BFinal E BD st := by
  obtain ⟨st, h1, h2⟩ := ikLoop_induct (E := E) (BInv E BD U)
    (fun P P' st h hP h1 hP' hA hB => h.extend hE hP h1 hP' hA hB)
    (fun rad st h => ikRadius_binv hE h) E.radii (fun _ => False) E.init (fun _ _ _ h => h)
    (init_binv hE) (npUnique_strict _) (fun _ _ h => h) (by
      intro b hb
      have : ∀ y, (y = b.1 ∨ y = b.2) → y ∈ E.radii := by
        intro y hy
        unfold IKEnv.radii Basis.changesList
        rw [mem_npUnique, List.mem_append, mem_npUnique, mem_npUnique]
        simp only [List.mem_flatMap]
        rcases List.mem_append.1 hb with h | h
        · left; exact ⟨b, h, by simpa using hy⟩
        · right; exact ⟨b, h, by simpa using hy⟩
      exact ⟨Or.inr (this _ (Or.inl rfl)), Or.inr (this _ (Or.inr rfl))⟩)
  obtain ⟨hc, hh⟩ := h2
  have hcut : ∀ j, cutAt (fun _ : α => True) (fun _ => True) E.A.dim j = fun _ => True :=
    fun j => by unfold cutAt; split <;> rfl
  refine ⟨st, h1, hc.im, hc.T, hc.pivIm, hc.imDeath, ?_, fun t m => hh t trivial m⟩
  intro j hj
  rcases hc.pcase j hj with h3 | h3 | ⟨r, h3⟩
  · have := (hc.unborn j hj).1 h3
    rw [hcut] at this
    exact absurd ⟨_, List.getElem?_eq_getElem (hE.lenA ▸ hj), trivial⟩ this
  · exact h3
  · obtain ⟨⟨_, _, _, h4⟩, _⟩ := hc.aliveLo j hj r h3
    exact absurd trivial h4

end Permaviss
