import Verif.Lemmas.QuotId

/-!
# The generators of a quotient are combinations of generators which are born
-/

namespace Permaviss

open Finset

attribute [-instance] instMulZeroClassOfSemiring

variable {α : Type} [LinearOrder α]

section

variable {E : IKEnv α} [Fact E.p.Prime]

/-- Every column is a combination of the columns up to it. -/
structure TriInv (E : IKEnv α) [Fact E.p.Prime] (st : IK α) : Prop where
  col : ∀ c < E.A.dim, E.V st c ∈ spn (ZMod E.p) E.f (fun _ => True) (c + 1)
  tri : ∀ c < E.A.dim, ∀ j, c < j → E.Tc st c j = 0

theorem TriInv.step (hE : RelOK E) {rad : α} {aA aB dA bA dB : List ℕ} {st0 : IK α} {c : ℕ}
    {s s' : IK α × List Int} (hL : Lists E rad aA aB dA bA dB) (h : RMid E rad st0 c s)
    (hcn : c < E.A.dim)
    (hs : imStep E rad aB dA bA dB st0.pivIm s c = .ok s') (hj : TriInv E s.1) : TriInv E s'.1 := by
  have hc := h.core
  unfold imStep at hs
  split at hs
  swap
  · exact Except.ok.inj hs ▸ hj
  obtain ⟨M, T, q, a, h1, h2⟩ := h.reduce hE hL hcn
  rw [h1] at hs
  dsimp only at hs
  simp only [Option.getD_some] at hs
  have hcol : zv E.p (M.col c) ∈ spn (ZMod E.p) E.f (fun _ => True) (c + 1) := by
    rw [h2.eq]
    refine Submodule.add_mem _ (hj.col c hcn) (Submodule.sum_mem _ fun i hi => ?_)
    have hi' := mem_range.1 hi
    exact Submodule.smul_mem _ _ (spn_mono (by omega) (fun _ _ h => h) (hj.col i (by omega)))
  have htri : ∀ j, c < j → zv E.p (T.col c) j = 0 := by
    intro j hj'
    rw [h2.eqT, Pi.add_apply, Finset.sum_apply, hj.tri c hcn j hj', zero_add]
    refine Finset.sum_eq_zero fun k hk => ?_
    have hk' := mem_range.1 hk
    rw [Pi.smul_apply, hj.tri k (by omega) j (by omega), smul_zero]
  by_cases hq : q = -1
  · subst hq
    rw [if_neg (by simp)] at hs
    unfold imDie at hs
    rw [if_neg (by rw [hE.full]; simp), if_pos hE.start] at hs
    dsimp only at hs
    rw [Except.ok.injEq] at hs
    subst hs
    refine ⟨fun k hk => ?_, fun k hk j hj' => ?_⟩
    · unfold IKEnv.V
      simp only [stripPrev, Mat.col_setCol]
      by_cases hkc : k = c
      · subst hkc
        rw [if_pos ⟨rfl, by rw [h2.okM.ncols]; exact hcn⟩]
        rw [zv_mulAt_all hE (by rw [overwriteAt_len, h2.okT.col_len hcn])]
        refine Submodule.sum_mem _ fun l _ => ?_
        rw [zv_strip]
        split
        · rw [zero_smul]; exact Submodule.zero_mem _
        · by_cases hl : l < k + 1
          · exact Submodule.smul_mem _ _ (mem_spn hl trivial)
          · rw [htri l (by omega), zero_smul]; exact Submodule.zero_mem _
      · rw [if_neg (fun e => hkc e.1.symm), h2.otherM k hkc]
        exact hj.col k hk
    · unfold IKEnv.Tc
      simp only [stripPrev, Mat.col_setCol]
      by_cases hkc : k = c
      · subst hkc
        rw [if_pos ⟨rfl, by rw [h2.okT.ncols]; exact hcn⟩, zv_strip]
        split
        · rfl
        · exact htri j hj'
      · rw [if_neg (fun e => hkc e.1.symm), h2.otherT k hkc]
        exact hj.tri k hk j hj'
  · rw [if_pos hq, Except.ok.injEq] at hs
    subst hs
    refine ⟨fun k hk => ?_, fun k hk j hj' => ?_⟩
    · by_cases hkc : k = c
      · subst hkc; exact hcol
      · unfold IKEnv.V
        rw [h2.otherM k hkc]; exact hj.col k hk
    · by_cases hkc : k = c
      · subst hkc; exact htri j hj'
      · unfold IKEnv.Tc
        rw [h2.otherT k hkc]; exact hj.tri k hk j hj'

theorem triInv_kept (hE : RelOK E) : Kept E (TriInv E) := by
  refine ⟨fun rad st c _ _ h => ?_, fun _ _ _ _ _ _ _ _ _ _ hL h hcn _ hs hj => hj.step hE hL h hcn hs⟩
  unfold relKill
  split
  · exact ⟨h.col, h.tri⟩
  · exact h

theorem triInv_init [Zero α] : TriInv E E.init := by
  refine ⟨fun c _ => mem_spn (x := E.f) (by omega) trivial, fun k hk j hj => ?_⟩
  have hk' : k < (identityCols E.A.dim).length := by rw [length_identityCols]; exact hk
  have : E.Tc E.init k = Pi.single k 1 := by
    rw [← zv_identityCols (p := E.p) hk']
    unfold IKEnv.Tc Mat.col
    simp only [IKEnv.init]
    rw [List_getD_eq_getElem _ _ hk']
  rw [this, Pi.single_eq_of_ne (by omega)]

end

/-- A generator of the quotient is a combination of generators of `N` and of the generators of `M` born
no later than it. -/
theorem quotient_tri [Zero α] {rnd : α → α} {p : ℕ} {M N amb : Basis α} (h : QOK rnd p M N amb) :
    ∃ Q, quotient rnd p M N amb true = .ok Q ∧ Q.dim = Q.barcode.length ∧
      MatOK p amb.barcode.length Q.barcode.length Q.coords ∧
      ∀ (i : ℕ) (b : α × α), Q.barcode[i]? = some b → Q.coords.zcol p i ∈ Submodule.span (ZMod p)
        ({x | ∃ j < N.barcode.length, x = N.coords.zcol p j} ∪
          {x | ∃ j b', M.barcode[j]? = some b' ∧ b'.1 ≤ b.1 ∧ x = M.coords.zcol p j}) := by
  have := Fact.mk h.prime
  obtain ⟨Q, hQ, hout, A, B, F, st, σ, τ, oA, oB, retA, retB, idx, hr⟩ := quotient_run h
  set s0 := N.barcode.length with hs0
  set m := amb.barcode.length with hm
  let E : IKEnv α := ⟨p, A, B, F, s0⟩
  have hE : RelOK E := hr.rel
  have hF : Fact E.p.Prime := this
  obtain ⟨st', e1, hfin, hinv⟩ := ikLoop_kept hE (triInv_kept hE) triInv_init
  have e2 : ikLoop E E.radii E.init = .ok st := hr.loop
  rw [e2, Except.ok.injEq] at e1
  subst e1
  have hEB : E.B.dim = m := hr.dimB
  have hEA : E.A.dim = s0 + M.barcode.length := hr.dimA
  have hgl : (gather M.barcode oA).length = M.barcode.length := hr.ordA.gather_len rfl
  have hAl : A.barcode.length = s0 + M.barcode.length := hE.lenA.symm.trans hEA
  have hrawget : ∀ (i : ℕ) (b : α × α), (rawBars A st s0)[i]? = some b →
      ∃ a, (gather M.barcode oA)[i]? = some a ∧ b.1 = a.1 := by
    intro i b hb
    unfold rawBars at hb
    rw [List.getElem?_drop, List.getElem?_zip_eq_some, List.getElem?_map, hr.barA,
      List.getElem?_append_right (by omega), Nat.add_sub_cancel_left] at hb
    obtain ⟨a, ha, e⟩ := Option.map_eq_some_iff.1 hb.1
    exact ⟨a, ha, e.symm⟩
  have hidx : ∀ k ∈ idx, k < M.barcode.length := by
    intro k hk
    have := hr.picks.lt k hk
    unfold rawBars at this
    rw [List.length_drop, List.length_zip, List.length_map] at this
    omega
  have hcl : ((st.im.gatherRows retB).cols.drop s0).length = M.barcode.length := by
    have := hfin.im.ncols
    unfold Mat.ncols at this
    simp [Mat.gatherRows, this, hEA]
  have hcolQ : ∀ j k, idx[j]? = some k → Q.coords.zcol p j = reName σ (E.V st (s0 + k)) := by
    intro j k hjk
    have hk := hidx k (List.mem_of_getElem? hjk)
    have e : Q.coords.col j = (st.im.cols.map fun c => gather c retB).getD (s0 + k) [] := by
      unfold Mat.col
      rw [hr.coords]
      dsimp only
      rw [List.getD_eq_getElem?_getD, gather_getElem? (fun i hi => by rw [hcl]; exact hidx i hi), hjk]
      simp only [Option.bind_some, List.getElem?_drop]
      rw [List.getD_eq_getElem?_getD]
      rfl
    change zv p (Q.coords.col j) = _
    rw [e]
    exact zv_gatherRows hfin.im (by rw [hEB]; exact hr.ordB) (by rw [hEA]; omega)
  have hQget : ∀ j : ℕ, Q.barcode[j]? = (idx[j]?).bind (fun k : ℕ => (rawBars A st s0)[k]?) := by
    intro j
    rw [hr.bars, gather_getElem? hr.picks.lt j]
  refine ⟨Q, hQ, hout.dim, ?_, ?_⟩
  · have hmem : ∀ c ∈ Q.coords.cols, ∃ c' ∈ st.im.cols, c = gather c' retB := by
      intro c hc
      rw [hr.coords] at hc
      simp only [gather, List.mem_filterMap] at hc
      obtain ⟨i, -, hi⟩ := hc
      have := List.mem_of_mem_drop (List.mem_of_getElem? hi)
      simp only [Mat.gatherRows, List.mem_map] at this
      obtain ⟨c', h1, h2⟩ := this
      exact ⟨c', h1, h2.symm⟩
    refine ⟨by rw [hr.coords], hout.ncols, ?_, ?_⟩
    · intro c hc
      obtain ⟨c', h1, rfl⟩ := hmem c hc
      exact hr.ordB.gather_rlen ((hfin.im.len c' h1).trans hEB)
    · intro c hc
      obtain ⟨c', h1, rfl⟩ := hmem c hc
      intro x hx
      simp only [gather, List.mem_filterMap] at hx
      obtain ⟨i, -, hi⟩ := hx
      exact hfin.im.red c' h1 x (List.mem_of_getElem? hi)
  · intro i b hb
    rw [hQget] at hb
    obtain ⟨k, hk, hk'⟩ := Option.bind_eq_some_iff.1 hb
    have hkM := hidx k (List.mem_of_getElem? hk)
    obtain ⟨a, ha, hba⟩ := hrawget k b hk'
    rw [hcolQ i k hk]
    have hmem := hinv.col (s0 + k) (by rw [hEA]; omega)
    have hle : (spn (ZMod p) E.f (fun _ => True) (s0 + k + 1)).map (reName σ).toLinearMap ≤
        Submodule.span (ZMod p) ({x | ∃ j < s0, x = N.coords.zcol p j} ∪
          {x | ∃ j b', M.barcode[j]? = some b' ∧ b'.1 ≤ b.1 ∧ x = M.coords.zcol p j}) := by
      rw [spn_map]
      refine spn_le fun j hj _ => Submodule.subset_span ?_
      rcases Nat.lt_or_ge j s0 with hjs | hjs
      · left
        refine ⟨j, hjs, ?_⟩
        funext i
        change reName σ (E.f j) i = _
        rw [reName_apply]
        have := hr.zN (σ.symm i) j hjs
        rw [Equiv.apply_symm_apply] at this
        exact this
      · right
        obtain ⟨l, rfl⟩ := Nat.exists_eq_add_of_le hjs
        have hlk : l ≤ k := by omega
        have hl : l < (gather M.barcode oA).length := by omega
        have hkl : k < (gather M.barcode oA).length := by omega
        refine ⟨τ l, (gather M.barcode oA)[l], ?_, ?_, ?_⟩
        · rw [← hr.ordA.gather_get rfl l, List.getElem?_eq_getElem hl]
        · rw [List.getElem?_eq_getElem hkl, Option.some.injEq] at ha
          rw [hba, ← ha]
          rcases Nat.lt_or_eq_of_le hlk with h3 | rfl
          · exact List.pairwise_iff_getElem.1 hr.sortedA l k hl hkl h3
          · exact le_rfl
        · funext i
          change reName σ (E.f (s0 + l)) i = _
          rw [reName_apply]
          have := hr.zM (σ.symm i) l (by omega)
          rw [Equiv.apply_symm_apply] at this
          exact this
    exact hle ⟨_, hmem, rfl⟩

end Permaviss
