import Verif.Lemmas.QuotTri

/-!
# The generators of a quotient generate it

For any submodule `M`, at the radii where all generators of `N` are born.
-/

namespace Permaviss

open Finset

attribute [-instance] instMulZeroClassOfSemiring

variable {α : Type} [LinearOrder α]

section

variable {E : IKEnv α} [Fact E.p.Prime]

/-- The columns below `c` of the second part. -/
noncomputable def MSp (E : IKEnv α) [Fact E.p.Prime] (t : α) (c : ℕ) :
    Submodule (ZMod E.p) (ℕ → ZMod E.p) :=
  spn (ZMod E.p) (fun j => E.rB (· ≤ t) (E.f j)) (fun j => E.start ≤ j) c

/-- All the columns of the first part are born at `t`. -/
def FirstBorn (E : IKEnv α) (t : α) : Prop := ∀ k < E.start, BornBy (· ≤ t) E.A.barcode k

/-- What the loop keeps. -/
structure MidInv (E : IKEnv α) [Fact E.p.Prime] (st : IK α) : Prop where
  val : ∀ c < E.A.dim, E.V st c = ∑ k ∈ range E.A.dim, E.Tc st c k • E.f k
  tri : ∀ c < E.A.dim, ∀ j, c < j → E.Tc st c j = 0
  low : ∀ c < E.A.dim, c < E.start → ∀ j, E.start ≤ j → E.Tc st c j = 0
  diag : ∀ c < E.A.dim, E.start ≤ c → E.Tc st c c = 1
  dead : ∀ c < E.A.dim, E.start ≤ c → st.piv c = -1 → ∀ e, st.imDeath[c]? = some e → ∀ t, e ≤ t →
    FirstBorn E t → E.rB (· ≤ t) (E.f c) ∈ NSp E t ⊔ MSp E t c

theorem MidInv.step (hE : RelOK E) {rad : α} {aA aB dA bA dB : List ℕ} {st0 : IK α}
    {c : ℕ} {s s' : IK α × List Int} (hL : Lists E rad aA aB dA bA dB) (h : RMid E rad st0 c s)
    (hcn : c < E.A.dim) (hst0 : st0.pivIm.length = E.A.dim)
    (hs : imStep E rad aB dA bA dB st0.pivIm s c = .ok s') (hj : MidInv E s.1) : MidInv E s'.1 := by
  have hc := h.core
  have hrc : s.1.piv c = st0.piv c := h.un c le_rfl
  have hold : st0.pivIm.getD c 0 = st0.piv c := by
    unfold IK.piv
    have : c < st0.pivIm.length := by omega
    rw [List_getD_eq_getElem _ _ this, List_getD_eq_getElem _ _ this]
  unfold imStep at hs
  rw [hold] at hs
  by_cases ht : ((decide (0 ≤ st0.piv c) &&
        decide ((s.1.im.col c).getD (st0.piv c).toNat 0 % (E.p : Int) = 0)) ||
      dB.any (fun d => (d : Int) == st0.piv c) || s.2.contains (st0.piv c) ||
      bA.contains c) = true
  swap
  · rw [if_neg ht, Except.ok.injEq] at hs
    exact hs ▸ hj
  rw [if_pos ht] at hs
  have hcb : BornBy (· ≤ rad) E.A.barcode c := by
    by_contra hnb
    have hm2 := (hc.unborn _ hcn).2 (by rw [cutAt_hi le_rfl]; exact fun h => hnb h.le)
    rw [Bool.or_eq_true, Bool.or_eq_true, Bool.or_eq_true, Bool.and_eq_true] at ht
    rcases ht with ((⟨h3, -⟩ | h3) | h3) | h3
    · have h3 : 0 ≤ st0.piv c := by simpa using h3
      omega
    · rw [List.any_eq_true] at h3
      obtain ⟨d, -, h4⟩ := h3
      have : (d : Int) = st0.piv c := by simpa using h4
      omega
    · have h3 : st0.piv c ∈ s.2 := by simpa using h3
      obtain ⟨i', h4, -⟩ := h.N _ h3
      omega
    · exact hnb (born_le_iff.2 (Or.inr ((hL.mbA _).1 (by simpa using h3))))
  obtain ⟨M, T, q, a, h1, h2⟩ := h.reduce hE hL hcn
  rw [h1] at hs
  dsimp only at hs
  simp only [Option.getD_some] at hs
  have hpl : c < s.1.pivIm.length := by rw [hc.pivIm]; exact hcn
  -- the new column
  have nval : zv E.p (M.col c) = ∑ k ∈ range E.A.dim, zv E.p (T.col c) k • E.f k := by
    rw [h2.eq, hj.val c hcn, h2.eqT]
    simp only [Pi.add_apply, Finset.sum_apply, Pi.smul_apply, add_smul, Finset.sum_add_distrib,
      Finset.sum_smul]
    congr 1
    rw [Finset.sum_comm]
    refine Finset.sum_congr rfl fun i hi => ?_
    have hi' := mem_range.1 hi
    rw [hj.val i (by omega), Finset.smul_sum]
    refine Finset.sum_congr rfl fun k _ => ?_
    rw [smul_smul, smul_eq_mul]
  have ntri : ∀ j, c < j → zv E.p (T.col c) j = 0 := by
    intro j hj'
    rw [h2.eqT, Pi.add_apply, Finset.sum_apply, hj.tri c hcn j hj', zero_add]
    refine Finset.sum_eq_zero fun k hk => ?_
    have hk' := mem_range.1 hk
    rw [Pi.smul_apply, hj.tri k (by omega) j (by omega), smul_zero]
  have nlow : c < E.start → ∀ j, E.start ≤ j → zv E.p (T.col c) j = 0 :=
    fun hcs j hj' => ntri j (by omega)
  have ndiag : E.start ≤ c → zv E.p (T.col c) c = 1 := by
    intro hcs
    rw [h2.eqT, Pi.add_apply, Finset.sum_apply, hj.diag c hcn hcs]
    rw [Finset.sum_eq_zero, add_zero]
    intro k hk
    have hk' := mem_range.1 hk
    rw [Pi.smul_apply, hj.tri k (by omega) c (by omega), smul_zero]
  -- the rows of the new column are born
  have hsV : ∀ l, E.V s.1 c l ≠ 0 → BornBy (· ≤ rad) E.B.barcode l := by
    intro l hl
    rcases hc.pcase c hcn with h3 | h3 | h3
    · rw [hc.orig c hcn h3] at hl
      exact hE.f_born (down_le rad) hcb l hl
    · exfalso
      rw [Bool.or_eq_true, Bool.or_eq_true, Bool.or_eq_true, Bool.and_eq_true] at ht
      rcases ht with ((⟨h4, -⟩ | h4) | h4) | h4
      · have h4 : 0 ≤ st0.piv c := by simpa using h4
        omega
      · rw [List.any_eq_true] at h4
        obtain ⟨d, -, h5⟩ := h4
        have : (d : Int) = st0.piv c := by simpa using h5
        omega
      · have h4 : st0.piv c ∈ s.2 := by simpa using h4
        obtain ⟨i', h5, -⟩ := h.N _ h4
        omega
      · obtain ⟨b, hb, hbr⟩ := (hL.mbA _).1 (by simpa using h4)
        have h5 : s.1.piv c = -2 := by
          refine (hc.unborn c hcn).2 ?_
          rw [cutAt_hi le_rfl]
          rintro ⟨b', hb', hlt⟩
          rw [hb, Option.some.injEq] at hb'
          subst hb'
          exact absurd hbr hlt.ne
        omega
    · have := hc.supp c h3 l hl
      rw [cutAt_hi le_rfl] at this
      exact this.le
  have hsM : ∀ l, zv E.p (M.col c) l ≠ 0 → BornBy (· ≤ rad) E.B.barcode l := by
    intro l hl
    by_contra hnb
    apply hl
    rw [h2.eq, Pi.add_apply, Finset.sum_apply]
    rw [not_not.1 (fun h0 => hnb (hsV l h0)), zero_add]
    refine Finset.sum_eq_zero fun i _ => ?_
    rw [Pi.smul_apply, smul_eq_mul]
    by_cases hai : a i = 0
    · rw [hai, zero_mul]
    · obtain ⟨h3, h4⟩ := h2.supp i hai
      have : E.V s.1 i l = 0 := by
        by_contra h0
        have h5 := hc.supp i h4 l h0
        rw [cutAt_lo h3] at h5
        exact hnb h5
      rw [this, mul_zero]
  by_cases hq : q = -1
  · subst hq
    rw [if_neg (by simp)] at hs
    unfold imDie at hs
    rw [if_neg (by rw [hE.full]; simp), if_pos hE.start] at hs
    dsimp only at hs
    rw [Except.ok.injEq] at hs
    subst hs
    dsimp only
    set S1 : IK α := { s.1 with
      im := M, T := T, pivIm := s.1.pivIm.set c (-1), imDeath := s.1.imDeath.set c rad } with hS1
    set w := overwriteAt (List.range E.start) (T.col c) [] with hw
    have hpiv : ∀ j, IK.piv (stripPrev E c S1) j = if j = c then -1 else s.1.piv j := fun j =>
      getD_set _ _ _ _ _ hpl
    have hV : ∀ j, j ≠ c → E.V (stripPrev E c S1) j = E.V s.1 j := by
      intro j hjc
      unfold IKEnv.V
      simp only [stripPrev, Mat.col_setCol]
      rw [if_neg (fun e => hjc e.1.symm), h2.otherM j hjc]
    have hT : ∀ j, j ≠ c → E.Tc (stripPrev E c S1) j = E.Tc s.1 j := by
      intro j hjc
      unfold IKEnv.Tc
      simp only [stripPrev, Mat.col_setCol]
      rw [if_neg (fun e => hjc e.1.symm), h2.otherT j hjc]
    have hVc : E.V (stripPrev E c S1) c =
        zv E.p (mulAt E.p E.F (List.range E.F.ncols) w) := by
      unfold IKEnv.V
      simp only [stripPrev, Mat.col_setCol]
      rw [if_pos ⟨trivial, by rw [h2.okM.ncols]; exact hcn⟩]
    have hTc : E.Tc (stripPrev E c S1) c = zv E.p w := by
      unfold IKEnv.Tc
      simp only [stripPrev, Mat.col_setCol]
      rw [if_pos ⟨trivial, by rw [h2.okT.ncols]; exact hcn⟩]
    have hD : (stripPrev E c S1).imDeath = s.1.imDeath.set c rad := rfl
    refine ⟨?_, ?_, ?_, ?_, ?_⟩
    · intro k hk
      by_cases hkc : k = c
      · subst hkc
        rw [hVc, hTc, zv_mulAt_all hE (by rw [hw, overwriteAt_len, h2.okT.col_len hcn])]
      · rw [hV k hkc, hT k hkc]; exact hj.val k hk
    · intro k hk j hj'
      by_cases hkc : k = c
      · subst hkc
        rw [hTc, hw, zv_strip]
        split
        · rfl
        · exact ntri j hj'
      · rw [hT k hkc]; exact hj.tri k hk j hj'
    · intro k hk hks j hj'
      by_cases hkc : k = c
      · subst hkc
        rw [hTc, hw, zv_strip, if_neg (by omega)]
        exact nlow hks j hj'
      · rw [hT k hkc]; exact hj.low k hk hks j hj'
    · intro k hk hks
      by_cases hkc : k = c
      · subst hkc
        rw [hTc, hw, zv_strip, if_neg (by omega)]
        exact ndiag hks
      · rw [hT k hkc]; exact hj.diag k hk hks
    · intro k hk hks he e hee t het htN
      rw [hpiv] at he
      rw [hD] at hee
      by_cases hkc : k = c
      swap
      · rw [if_neg hkc] at he
        rw [List.getElem?_set, if_neg (fun e => hkc e.symm)] at hee
        exact hj.dead k hk hks he e hee t het htN
      subst hkc
      rw [List.getElem?_set, if_pos rfl, if_pos (by rw [hc.imDeath]; exact hcn),
        Option.some.injEq] at hee
      subst hee
      have hz : E.rB (· ≤ rad) (zv E.p (M.col k)) = 0 := by
        unfold IKEnv.rB
        rw [restr_eq_zero]
        rcases h2.res with ⟨-, h3⟩ | ⟨r', h3, -⟩
        · exact h3
        · omega
      have hz' : E.rB (· ≤ t) (zv E.p (M.col k)) = 0 := by
        rw [← rB_le (E := E) (P0 := (· ≤ rad)) (P1 := (· ≤ t)) (fun y hy => le_trans hy het), hz, map_zero]
        exact hsM
      rw [nval, map_sum] at hz'
      have hsplit : ∑ i ∈ range E.A.dim, E.rB (· ≤ t) (zv E.p (T.col k) i • E.f i) =
          E.rB (· ≤ t) (E.f k) + ∑ i ∈ range k, zv E.p (T.col k) i • E.rB (· ≤ t) (E.f i) := by
        have e1 : ∑ i ∈ range E.A.dim, E.rB (· ≤ t) (zv E.p (T.col k) i • E.f i) =
            ∑ i ∈ range (k + 1), E.rB (· ≤ t) (zv E.p (T.col k) i • E.f i) := by
          symm
          refine Finset.sum_subset (fun i hi => by
            rw [mem_range] at hi ⊢; omega) fun i _ hi => ?_
          rw [ntri i (by rw [mem_range] at hi; omega), zero_smul, map_zero]
        rw [e1, Finset.sum_range_succ, ndiag hks, one_smul, add_comm]
        congr 1
        exact Finset.sum_congr rfl fun i _ => map_smul _ _ _
      rw [hsplit] at hz'
      rw [eq_neg_of_add_eq_zero_left hz']
      refine Submodule.neg_mem _ (Submodule.sum_mem _ fun i hi => Submodule.smul_mem _ _ ?_)
      have hik := mem_range.1 hi
      by_cases his : i < E.start
      · refine Submodule.mem_sup_left ?_
        exact mem_spn (x := fun j => E.rB (· ≤ t) (E.f j)) his (htN i his)
      · exact Submodule.mem_sup_right (mem_spn (x := fun j => E.rB (· ≤ t) (E.f j)) hik (by omega))
  · rw [if_pos hq, Except.ok.injEq] at hs
    subst hs
    dsimp only
    have hpiv : ∀ j, IK.piv { s.1 with im := M, T := T, pivIm := s.1.pivIm.set c q } j =
        if j = c then q else s.1.piv j := fun j => getD_set _ _ _ _ _ hpl
    have hV : ∀ j, j ≠ c → E.V { s.1 with im := M, T := T, pivIm := s.1.pivIm.set c q } j =
        E.V s.1 j := fun j hjc => congrArg (zv E.p) (h2.otherM j hjc)
    have hT : ∀ j, j ≠ c → E.Tc { s.1 with im := M, T := T, pivIm := s.1.pivIm.set c q } j =
        E.Tc s.1 j := fun j hjc => congrArg (zv E.p) (h2.otherT j hjc)
    refine ⟨?_, ?_, ?_, ?_, ?_⟩
    · intro k hk
      by_cases hkc : k = c
      · subst hkc; exact nval
      · rw [hV k hkc, hT k hkc]; exact hj.val k hk
    · intro k hk j hj'
      by_cases hkc : k = c
      · subst hkc; exact ntri j hj'
      · rw [hT k hkc]; exact hj.tri k hk j hj'
    · intro k hk hks j hj'
      by_cases hkc : k = c
      · subst hkc; exact nlow hks j hj'
      · rw [hT k hkc]; exact hj.low k hk hks j hj'
    · intro k hk hks
      by_cases hkc : k = c
      · subst hkc; exact ndiag hks
      · rw [hT k hkc]; exact hj.diag k hk hks
    · intro k hk hks he e hee t het htN
      rw [hpiv] at he
      by_cases hkc : k = c
      · rw [if_pos hkc] at he
        exact absurd he hq
      · rw [if_neg hkc] at he
        exact hj.dead k hk hks he e hee t het htN

theorem MidInv.kill (hE : RelOK E) {rad : α} {st : IK α} {c : ℕ}
    (hc : RCore E (· < rad) (· ≤ rad) 0 st)
    (hcd : ∃ b, E.A.barcode[c]? = some b ∧ b.2 = rad) (h : MidInv E st) :
    MidInv E (relKill E.start rad st c) := by
  unfold relKill
  split_ifs with hif
  swap
  · exact h
  obtain ⟨b, hb, hbr⟩ := hcd
  have hcn : c < E.A.dim := hE.lenA ▸ (List.getElem?_eq_some_iff.1 hb).1
  have hpiv : ∀ j, IK.piv { st with imDeath := st.imDeath.set c rad, pivIm := st.pivIm.set c (-1) } j
      = if j = c then -1 else st.piv j := fun j =>
    getD_set _ _ _ _ _ (by rw [hc.pivIm]; exact hcn)
  refine ⟨h.val, h.tri, h.low, h.diag, ?_⟩
  intro k hk hks he e hee t het htN
  rw [hpiv] at he
  change (st.imDeath.set c rad)[k]? = some e at hee
  by_cases hkc : k = c
  · subst hkc
    rw [List.getElem?_set, if_pos rfl, if_pos (by rw [hc.imDeath]; exact hcn), Option.some.injEq] at hee
    rw [hE.f_dead hks hb (by rw [hbr, hee]; exact het)]
    exact Submodule.zero_mem _
  · rw [if_neg hkc] at he
    rw [List.getElem?_set, if_neg (fun e => hkc e.symm)] at hee
    exact h.dead k hk hks he e hee t het htN

theorem midInv_kept (hE : RelOK E) : Kept E (MidInv E) :=
  ⟨fun _ _ _ hc hcd h => h.kill hE hc hcd,
    fun _ _ _ _ _ _ _ _ _ _ hL h hcn hst0 hs hj => hj.step hE hL h hcn hst0 hs⟩

theorem midInv_init [Zero α] : MidInv E E.init := by
  have hpiv : ∀ j, (E.init).piv j = -2 := by
    intro j
    simp only [IK.piv, IKEnv.init, List.getD_eq_getElem?_getD, List.getElem?_replicate]
    split <;> simp
  have hT : ∀ k, k < E.A.dim → E.Tc E.init k = Pi.single k 1 := by
    intro k hk
    have hk' : k < (identityCols E.A.dim).length := by rw [length_identityCols]; exact hk
    rw [← zv_identityCols (p := E.p) hk']
    unfold IKEnv.Tc Mat.col
    simp only [IKEnv.init]
    rw [List_getD_eq_getElem _ _ hk']
  refine ⟨?_, ?_, ?_, ?_, ?_⟩
  · intro c hc
    rw [hT c hc, Finset.sum_eq_single c]
    · rw [Pi.single_eq_same, one_smul]; rfl
    · intro k _ hk; rw [Pi.single_eq_of_ne hk, zero_smul]
    · intro h; exact absurd (mem_range.2 hc) h
  · intro c hc j hj
    rw [hT c hc, Pi.single_eq_of_ne (by omega)]
  · intro c hc hcs j hj
    rw [hT c hc, Pi.single_eq_of_ne (by omega)]
  · intro c hc _
    rw [hT c hc, Pi.single_eq_same]
  · intro c _ _ h
    rw [hpiv] at h; omega

end

/-- The generators of a quotient of a submodule: like `QuotGen`, but nothing is known about a generator
when its bar ends. -/
structure QuotGenM (p : ℕ) (amb : List (α × α)) (X : Basis α)
    (Mt Nt : α → Submodule (ZMod p) (ℕ → ZMod p)) : Prop where
  flat : X.flat = false
  dim : X.dim = X.barcode.length
  bars : ∀ b ∈ X.barcode, b.1 < b.2
  mat : MatOK p amb.length X.barcode.length X.coords
  born : BornInTime p amb X
  mem : ∀ t i b, X.barcode[i]? = some b → b.1 ≤ t → barRestr p amb t (X.coords.zcol p i) ∈ Mt t
  span : ∀ t, Mt t ≤ Nt t ⊔ Submodule.span (ZMod p)
    (Set.range fun i : {i // AliveBar X.barcode i t} => barRestr p amb t (X.coords.zcol p i))
  indep : ∀ t, LinearIndependent (ZMod p)
    fun i : {i // AliveBar X.barcode i t} => (Nt t).mkQ (barRestr p amb t (X.coords.zcol p i))

/-- At the radii where all generators of `N` are born, the generators of the quotient are right. -/
theorem quotient_late [Zero α] {rnd : α → α} {p : ℕ} {M N amb : Basis α} (h : QOK rnd p M N amb) :
    ∃ Q, quotient rnd p M N amb true = .ok Q ∧ QOut p M N amb Q ∧
      MatOK p amb.barcode.length Q.barcode.length Q.coords ∧
      (∀ (i : ℕ) (b : α × α), Q.barcode[i]? = some b → ∃ b' ∈ M.barcode, b.1 = b'.1) ∧
      (∀ (i : ℕ) (b : α × α), Q.barcode[i]? = some b → Q.coords.zcol p i ∈ Submodule.span (ZMod p)
        ({x | ∃ j < N.barcode.length, x = N.coords.zcol p j} ∪
          {x | ∃ j b', M.barcode[j]? = some b' ∧ b'.1 ≤ b.1 ∧ x = M.coords.zcol p j})) ∧
      ∀ t, (∀ a ∈ N.barcode, a.1 ≤ t) →
        (∀ i b, Q.barcode[i]? = some b → b.1 ≤ t → barRestr p amb.barcode t (Q.coords.zcol p i) ∈
          bornSpan p amb.barcode N.barcode N.coords t t ⊔ bornSpan p amb.barcode M.barcode M.coords t t) ∧
        bornSpan p amb.barcode M.barcode M.coords t t ≤
          bornSpan p amb.barcode N.barcode N.coords t t ⊔ Submodule.span (ZMod p)
            (Set.range fun i : {i // AliveBar Q.barcode i t} =>
              barRestr p amb.barcode t (Q.coords.zcol p i)) ∧
        LinearIndependent (ZMod p) fun i : {i // AliveBar Q.barcode i t} =>
          (bornSpan p amb.barcode N.barcode N.coords t t).mkQ
            (barRestr p amb.barcode t (Q.coords.zcol p i)) := by
  classical
  have := Fact.mk h.prime
  obtain ⟨Q, hQ, hout, A, B, F, st, σ, τ, oA, oB, retA, retB, idx, hr⟩ := quotient_run h
  obtain ⟨Q', hQ', -, hmat, htri⟩ := quotient_tri h
  rw [hQ, Except.ok.injEq] at hQ'
  subst hQ'
  refine ⟨Q, hQ, hout, hmat, ?_⟩
  set s0 := N.barcode.length with hs0
  set m := amb.barcode.length with hm
  let E : IKEnv α := ⟨p, A, B, F, s0⟩
  have hE : RelOK E := hr.rel
  have hF : Fact E.p.Prime := this
  have hEB : E.B.dim = m := hr.dimB
  have hEA : E.A.dim = s0 + M.barcode.length := hr.dimA
  have hgl : (gather M.barcode oA).length = M.barcode.length := hr.ordA.gather_len rfl
  have hAl : A.barcode.length = s0 + M.barcode.length := hE.lenA.symm.trans hEA
  have hAN : ∀ j, j < s0 → A.barcode[j]? = N.barcode[j]? := by
    intro j hj
    rw [hr.barA, List.getElem?_append_left hj]
  have hAM : ∀ j, A.barcode[s0 + j]? = M.barcode[τ j]? := by
    intro j
    rw [hr.barA, List.getElem?_append_right (by omega), Nat.add_sub_cancel_left, hr.ordA.gather_get rfl]
  have hAM' : ∀ j, A.barcode[s0 + j]? = (gather M.barcode oA)[j]? := by
    intro j
    rw [hr.barA, List.getElem?_append_right (by omega), Nat.add_sub_cancel_left]
  have hO : ∀ k c a b, s0 ≤ k → k ≤ c → A.barcode[k]? = some a → A.barcode[c]? = some b → a.1 ≤ b.1 := by
    intro k c a b hk hkc ha hb
    obtain ⟨c', rfl⟩ := Nat.exists_eq_add_of_le (hk.trans hkc)
    obtain ⟨k', rfl⟩ := Nat.exists_eq_add_of_le hk
    rw [hAM'] at ha hb
    obtain ⟨l1, rfl⟩ := List.getElem?_eq_some_iff.1 ha
    obtain ⟨l2, rfl⟩ := List.getElem?_eq_some_iff.1 hb
    rcases lt_or_eq_of_le (show k' ≤ c' by omega) with hlt | rfl
    · exact List.pairwise_iff_getElem.1 hr.sortedA _ _ l1 l2 hlt
    · exact le_rfl
  obtain ⟨st', e1, hfin, hinv⟩ := ikLoop_kept hE (midInv_kept hE) midInv_init
  have e2 : ikLoop E E.radii E.init = .ok st := hr.loop
  rw [e2, Except.ok.injEq] at e1
  subst e1
  have hDl : st.imDeath.length = s0 + M.barcode.length := hfin.imDeath.trans hEA
  have hrawget : ∀ (i : ℕ) (b : α × α), (rawBars A st s0)[i]? = some b ↔
      ∃ a, A.barcode[s0 + i]? = some a ∧ st.imDeath[s0 + i]? = some b.2 ∧ b.1 = a.1 := by
    intro i b
    unfold rawBars
    rw [List.getElem?_drop, List.getElem?_zip_eq_some, List.getElem?_map]
    constructor
    · rintro ⟨h1, h2⟩
      obtain ⟨a, ha, e⟩ := Option.map_eq_some_iff.1 h1
      exact ⟨a, ha, h2, e.symm⟩
    · rintro ⟨a, ha, h2, e⟩
      exact ⟨by rw [ha, e]; rfl, h2⟩
  have hidx : ∀ k ∈ idx, k < M.barcode.length := by
    intro k hk
    have := hr.picks.lt k hk
    unfold rawBars at this
    rw [List.length_drop, List.length_zip, List.length_map] at this
    omega
  have hcl : ((st.im.gatherRows retB).cols.drop s0).length = M.barcode.length := by
    have := hfin.im.ncols
    unfold Mat.ncols at this
    simp [Mat.gatherRows, this, hEA]
  have hcolQ : ∀ j k, idx[j]? = some k → Q.coords.zcol p j = reName σ (E.V st (s0 + k)) := by
    intro j k hjk
    have hk := hidx k (List.mem_of_getElem? hjk)
    have e : Q.coords.col j = (st.im.cols.map fun c => gather c retB).getD (s0 + k) [] := by
      unfold Mat.col
      rw [hr.coords]
      dsimp only
      rw [List.getD_eq_getElem?_getD, gather_getElem? (fun i hi => by rw [hcl]; exact hidx i hi), hjk]
      simp only [Option.bind_some, List.getElem?_drop]
      rw [List.getD_eq_getElem?_getD]
      rfl
    change zv p (Q.coords.col j) = _
    rw [e]
    exact zv_gatherRows hfin.im (by rw [hEB]; exact hr.ordB) (by rw [hEA]; omega)
  have hrB : ∀ t x, barRestr p amb.barcode t (reName σ x) = reName σ (E.rB (· ≤ t) x) := by
    intro t x
    rw [hr.reB.restr, barRestr_eq]; rfl
  have hNcol : ∀ j, j < s0 → N.coords.zcol p j = reName σ (E.f j) := by
    intro j hj
    funext i
    rw [reName_apply]
    have := hr.zN (σ.symm i) j hj
    rw [Equiv.apply_symm_apply] at this
    exact this.symm
  have hMcol : ∀ j, j < M.barcode.length → M.coords.zcol p (τ j) = reName σ (E.f (s0 + j)) := by
    intro j hj
    funext i
    rw [reName_apply]
    have := hr.zM (σ.symm i) j hj
    rw [Equiv.apply_symm_apply] at this
    exact this.symm
  have hQget : ∀ j : ℕ, Q.barcode[j]? = (idx[j]?).bind (fun k : ℕ => (rawBars A st s0)[k]?) := by
    intro j
    rw [hr.bars, gather_getElem? hr.picks.lt j]
  -- every bar of `Q` is born with a bar of `M`
  have hQM : ∀ (i : ℕ) (b : α × α), Q.barcode[i]? = some b → ∃ b' ∈ M.barcode, b.1 = b'.1 := by
    intro i b hb
    rw [hQget] at hb
    obtain ⟨k, hk, hk'⟩ := Option.bind_eq_some_iff.1 hb
    obtain ⟨a, ha, -, e⟩ := (hrawget k b).1 hk'
    rw [hAM] at ha
    exact ⟨a, List.mem_of_getElem? ha, e⟩
  refine ⟨hQM, htri, fun t htN => ?_⟩
  have hmem : ∀ i b, Q.barcode[i]? = some b → b.1 ≤ t → barRestr p amb.barcode t (Q.coords.zcol p i) ∈
      bornSpan p amb.barcode N.barcode N.coords t t ⊔ bornSpan p amb.barcode M.barcode M.coords t t := by
    intro i b hb hbt
    have h1 := htri i b hb
    have h2 : barRestr p amb.barcode t (Q.coords.zcol p i) ∈ (Submodule.span (ZMod p)
        ({x | ∃ j < N.barcode.length, x = N.coords.zcol p j} ∪
          {x | ∃ j b', M.barcode[j]? = some b' ∧ b'.1 ≤ b.1 ∧ x = M.coords.zcol p j})).map
        (barRestr p amb.barcode t) := ⟨_, h1, rfl⟩
    rw [Submodule.map_span] at h2
    refine (Submodule.span_le.2 ?_) h2
    rintro _ ⟨x, ⟨j, hj, rfl⟩ | ⟨j, b', hj, hb', rfl⟩, rfl⟩
    · refine Submodule.mem_sup_left (Submodule.subset_span ⟨j, ⟨_, List.getElem?_eq_getElem hj, ?_⟩, rfl⟩)
      exact htN _ (List.getElem_mem hj)
    · exact Submodule.mem_sup_right (Submodule.subset_span ⟨j, ⟨b', hj, hb'.trans hbt⟩, rfl⟩)
  -- spanning
  have hspan : bornSpan p amb.barcode M.barcode M.coords t t ≤
      bornSpan p amb.barcode N.barcode N.coords t t ⊔ Submodule.span (ZMod p)
        (Set.range fun i : {i // AliveBar Q.barcode i t} =>
          barRestr p amb.barcode t (Q.coords.zcol p i)) := by
    set W := bornSpan p amb.barcode N.barcode N.coords t t ⊔ Submodule.span (ZMod p)
        (Set.range fun i : {i // AliveBar Q.barcode i t} =>
          barRestr p amb.barcode t (Q.coords.zcol p i)) with hW
    have hNW : ∀ j, j < s0 → BornBy (· ≤ t) A.barcode j → reName σ (E.rB (· ≤ t) (E.f j)) ∈ W := by
      intro j hj hb
      obtain ⟨b, h1, h2⟩ := hb
      rw [hAN j hj] at h1
      refine Submodule.mem_sup_left (Submodule.subset_span ⟨j, ⟨b, h1, h2⟩, ?_⟩)
      rw [hNcol j hj, hrB]
    have hNt : ∀ k, k < s0 → BornBy (· ≤ t) A.barcode k := by
      intro k hk
      refine ⟨N.barcode[k], ?_, htN _ (List.getElem_mem hk)⟩
      rw [hAN k hk, List.getElem?_eq_getElem hk]
    have key : ∀ i, i < M.barcode.length → BornBy (· ≤ t) A.barcode (s0 + i) →
        reName σ (E.rB (· ≤ t) (E.f (s0 + i))) ∈ W := by
      intro i
      induction i using Nat.strong_induction_on with
      | _ i ih =>
        intro hi hb
        have hbelow : ∀ k, s0 ≤ k → k ≤ s0 + i → BornBy (· ≤ t) A.barcode k := by
          intro k hk0 hk
          obtain ⟨b, hb1, hb2⟩ := hb
          have hkl : k < A.barcode.length := by omega
          exact ⟨_, List.getElem?_eq_getElem hkl,
            (hO k (s0 + i) _ b hk0 hk (List.getElem?_eq_getElem hkl) hb1).trans hb2⟩
        have hall : ∀ k, k < s0 + i → reName σ (E.rB (· ≤ t) (E.f k)) ∈ W := by
          intro k hk
          by_cases hks : k < s0
          · exact hNW k hks (hNt k hks)
          · obtain ⟨k', rfl⟩ := Nat.exists_eq_add_of_le (Nat.le_of_not_lt hks)
            exact ih k' (by omega) (by omega) (hbelow _ (by omega) (by omega))
        have hd : s0 + i < st.imDeath.length := by omega
        have hci : s0 + i < E.A.dim := by rw [hEA]; omega
        have hsi : E.start ≤ s0 + i := by change s0 ≤ _; omega
        rcases le_or_gt (st.imDeath[s0 + i]) t with hle | hlt
        · have h1 := hinv.dead _ hci hsi (hfin.dead _ hci) _ (List.getElem?_eq_getElem hd) t hle hNt
          have h2 : reName σ (E.rB (· ≤ t) (E.f (s0 + i))) ∈
              (NSp E t ⊔ MSp E t (s0 + i)).map (reName σ).toLinearMap := ⟨_, h1, rfl⟩
          rw [Submodule.map_sup] at h2
          refine (sup_le ?_ ?_ : _ ≤ W) h2
          · unfold NSp
            rw [spn_map]
            exact spn_le fun j hj hbj => hNW j hj hbj
          · unfold MSp
            rw [spn_map]
            exact spn_le fun j hj _ => hall j hj
        · obtain ⟨a, ha, hat⟩ := hb
          have hraw : (rawBars A st s0)[i]? = some (a.1, st.imDeath[s0 + i]) :=
            (hrawget i _).2 ⟨a, ha, List.getElem?_eq_getElem hd, rfl⟩
          have hii : i ∈ idx := (hr.picks.mem i).2 ⟨_, hraw, lt_of_le_of_lt hat hlt⟩
          obtain ⟨j, hj, hji⟩ := List.getElem_of_mem hii
          have hj' : idx[j]? = some i := by rw [List.getElem?_eq_getElem hj, hji]
          have hVW : reName σ (E.rB (· ≤ t) (E.V st (s0 + i))) ∈ W := by
            refine Submodule.mem_sup_right (Submodule.subset_span ?_)
            refine ⟨⟨j, (a.1, st.imDeath[s0 + i]), ?_, hat, hlt⟩, ?_⟩
            · rw [hQget, hj']; exact hraw
            · dsimp only
              rw [hcolQ j i hj', hrB]
          have e : E.V st (s0 + i) = ∑ k ∈ range (s0 + i), E.Tc st (s0 + i) k • E.f k + E.f (s0 + i) := by
            rw [hinv.val _ hci]
            have e1 : ∑ k ∈ range E.A.dim, E.Tc st (s0 + i) k • E.f k =
                ∑ k ∈ range (s0 + i + 1), E.Tc st (s0 + i) k • E.f k := by
              symm
              refine Finset.sum_subset (fun k hk => by rw [mem_range] at hk ⊢; omega) fun k _ hk => ?_
              rw [hinv.tri _ hci k (by rw [mem_range] at hk; omega), zero_smul]
            rw [e1, Finset.sum_range_succ, hinv.diag _ hci hsi, one_smul]
          have e' : E.f (s0 + i) = E.V st (s0 + i) - ∑ k ∈ range (s0 + i), E.Tc st (s0 + i) k • E.f k := by
            rw [e]; abel
          rw [e', map_sub, map_sub, map_sum, map_sum]
          refine Submodule.sub_mem _ hVW (Submodule.sum_mem _ fun k hk => ?_)
          rw [map_smul, map_smul]
          exact Submodule.smul_mem _ _ (hall k (mem_range.1 hk))
    refine Submodule.span_le.2 ?_
    rintro x ⟨i, ⟨b, hb, hbt⟩, rfl⟩
    have hi : i < M.barcode.length := (List.getElem?_eq_some_iff.1 hb).1
    obtain ⟨k, rfl⟩ := τ.surjective i
    have hk : k < M.barcode.length := (hr.ordA.lt k).1 hi
    rw [hMcol k hk, hrB]
    exact key k hk ⟨b, by rw [hAM]; exact hb, hbt⟩
  refine ⟨hmem, hspan, ?_⟩
  have hfinN := bornSpan_finite (p := p) (amb := amb.barcode) (bars := N.barcode) (C := N.coords)
    (s := t) (t := t)
  have hfinM := bornSpan_finite (p := p) (amb := amb.barcode) (bars := M.barcode) (C := M.coords)
    (s := t) (t := t)
  set U := (range Q.barcode.length).filter fun j =>
    ∃ b, Q.barcode[j]? = some b ∧ (decide (b.1 ≤ t) && decide (t < b.2)) = true with hU
  have hUm : ∀ j, j ∈ U ↔ AliveBar Q.barcode j t := by
    intro j
    rw [hU, Finset.mem_filter, mem_range]
    constructor
    · rintro ⟨-, b, h1, h2⟩
      rw [Bool.and_eq_true, decide_eq_true_iff, decide_eq_true_iff] at h2
      exact ⟨b, h1, h2⟩
    · rintro ⟨b, h1, h2⟩
      refine ⟨(List.getElem?_eq_some_iff.1 h1).1, b, h1, ?_⟩
      rw [Bool.and_eq_true, decide_eq_true_iff, decide_eq_true_iff]
      exact h2
  let ft : Fintype {i // AliveBar Q.barcode i t} := Fintype.subtype U hUm
  have hcard : Fintype.card {i // AliveBar Q.barcode i t} =
      Q.barcode.countP (fun b => decide (b.1 ≤ t) && decide (t < b.2)) := by
    rw [countP_range]
    refine (Fintype.subtype_card U hUm).trans ?_
    rw [hU]
    congr!
  have hcnt := hout.count t t le_rfl
  refine indep_mkQ_of_card (bornSpan p amb.barcode N.barcode N.coords t t) _ ?_
  rw [hcard, hcnt]
  have hfs : FiniteDimensional (ZMod p) (Submodule.span (ZMod p)
      (Set.range fun i : {i // AliveBar Q.barcode i t} =>
        barRestr p amb.barcode t (Q.coords.zcol p i))) :=
    FiniteDimensional.span_of_finite _ (Set.finite_range _)
  exact Submodule.finrank_mono (sup_le le_sup_left hspan)

theorem quotient_mid [Zero α] {rnd : α → α} {p : ℕ} {M N amb : Basis α} (h : QOK rnd p M N amb)
    (hbirth : ∀ a ∈ N.barcode, ∀ b ∈ M.barcode, a.1 ≤ b.1) :
    ∃ Q, quotient rnd p M N amb true = .ok Q ∧
      QuotGenM p amb.barcode Q
        (fun t => bornSpan p amb.barcode N.barcode N.coords t t ⊔ bornSpan p amb.barcode M.barcode M.coords t t)
        (fun t => bornSpan p amb.barcode N.barcode N.coords t t) := by
  have := Fact.mk h.prime
  obtain ⟨Q, hQ, hout, hmat, hQM, htri, hlate⟩ := quotient_late h
  refine ⟨Q, hQ, ?_⟩
  -- before the generators of `N` are born there is nothing
  have hearly : ∀ t, ¬ (∀ a ∈ N.barcode, a.1 ≤ t) → ∀ b ∈ M.barcode, ¬ b.1 ≤ t := by
    intro t ht b hb hbt
    exact ht fun a ha => (hbirth a ha b hb).trans hbt
  have hborn : BornInTime p amb.barcode Q := by
    intro r i a b ha hb' hne
    by_contra hlt
    apply hne
    have hz : Submodule.span (ZMod p) ({x | ∃ j < N.barcode.length, x = N.coords.zcol p j} ∪
          {x | ∃ j b', M.barcode[j]? = some b' ∧ b'.1 ≤ a.1 ∧ x = M.coords.zcol p j}) ≤
        LinearMap.ker (LinearMap.proj r : (ℕ → ZMod p) →ₗ[ZMod p] ZMod p) := by
      refine Submodule.span_le.2 ?_
      rintro x (⟨j, hj, rfl⟩ | ⟨j, b', hj, hb2, rfl⟩)
      · rw [SetLike.mem_coe, LinearMap.mem_ker, LinearMap.proj_apply]
        by_contra h0
        obtain ⟨b', hb2, e⟩ := hQM i a ha
        exact hlt ((h.birthN r j _ b (List.getElem?_eq_getElem hj) hb' h0).trans
          (e ▸ hbirth _ (List.getElem_mem hj) b' hb2))
      · rw [SetLike.mem_coe, LinearMap.mem_ker, LinearMap.proj_apply]
        by_contra h0
        exact hlt ((h.birthM r j b' b hj hb' h0).trans hb2)
    have := hz (htri i a ha)
    rw [LinearMap.mem_ker, LinearMap.proj_apply] at this
    exact this
  refine ⟨hout.flat, hout.dim, hout.bars, hmat, hborn, ?_, ?_, ?_⟩
  · intro t i b hb hbt
    by_cases ht : ∀ a ∈ N.barcode, a.1 ≤ t
    · exact (hlate t ht).1 i b hb hbt
    · obtain ⟨b', hb', e⟩ := hQM i b hb
      exact absurd (e ▸ hbt) (hearly t ht b' hb')
  · intro t
    refine sup_le le_sup_left ?_
    by_cases ht : ∀ a ∈ N.barcode, a.1 ≤ t
    · exact (hlate t ht).2.1
    · refine Submodule.span_le.2 ?_
      rintro x ⟨i, ⟨b, hb, hbt⟩, rfl⟩
      exact absurd hbt (hearly t ht b (List.mem_of_getElem? hb))
  · intro t
    by_cases ht : ∀ a ∈ N.barcode, a.1 ≤ t
    · exact (hlate t ht).2.2
    · have : IsEmpty {i // AliveBar Q.barcode i t} := by
        constructor
        rintro ⟨i, b, hb, hbt, -⟩
        obtain ⟨b', hb', e⟩ := hQM i b hb
        exact hearly t ht b' hb' (e ▸ hbt)
      exact linearIndependent_empty_type

end Permaviss
