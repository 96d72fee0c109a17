import Verif.Lemmas.IKFinal

/-!
# `image_kernel` of the zero morphism: no image generator lives
-/

namespace Permaviss

open Finset

variable {α : Type} [LinearOrder α] {E : IKEnv α}

theorem foldlM_pres {ε σ τ : Type*} {f : σ → τ → Except ε σ} {I : σ → Prop}
    (l : List τ) : (∀ c ∈ l, ∀ s s', I s → f s c = .ok s' → I s') → ∀ {s s' : σ}, I s →
    l.foldlM f s = .ok s' → I s' := by
  induction l with
  | nil =>
    intro _ s s' h e
    simp only [List.foldlM_nil, pure, Except.pure, Except.ok.injEq] at e
    exact e ▸ h
  | cons a l ih =>
    intro hf s s' h e
    rw [List.foldlM_cons] at e
    cases h1 : f s a with
    | error e' => rw [h1] at e; simp [bind, Except.bind] at e
    | ok s1 =>
      rw [h1] at e
      exact ih (fun c hc => hf c (List.mem_cons_of_mem _ hc)) (hf a (by simp) s s1 h h1) e

/-- The state when the morphism is zero. -/
structure ZInv (E : IKEnv α) (st : IK α) : Prop where
  im : st.im = E.F
  T : st.T = ⟨E.A.dim, identityCols E.A.dim⟩
  lenP : st.pivIm.length = E.A.dim
  lenD : st.imDeath.length = E.A.dim
  lenK : st.pivKer.length = E.A.dim
  piv : ∀ j, j < E.A.dim → st.piv j = -2 ∨
    (st.piv j = -1 ∧ st.imDeath[j]? = (E.A.barcode[j]?).map Prod.fst)
  kOK : MatOK E.p E.A.dim E.A.dim st.ker
  kcol : ∀ k i : ℕ, st.rho k = i → i < E.A.dim ∧
    st.ker.col k = (⟨E.A.dim, identityCols E.A.dim⟩ : Mat).col i

/-- The morphism vanishes where its columns are born. -/
def ZeroMor (E : IKEnv α) : Prop :=
  ∀ j a, E.A.barcode[j]? = some a → ∀ r, ActBy (· ≤ a.1) E.B.barcode r → E.F.z E.p r j = 0

/-- The state during the loop over kernel generators. -/
structure ZKer (E : IKEnv α) (old : List Int) (s : IK α × List Int) : Prop where
  inv : ZInv E s.1
  new : s.2 = []
  oldc : ∀ k i : ℕ, k < E.A.dim → old.getD k 0 = i → s.1.ker.col k = (⟨E.A.dim, identityCols E.A.dim⟩ : Mat).col i

theorem ZKer.step (hE : EnvOK E) {rad : α} {aA aB dA bA dB : List ℕ}
    (hL : Lists E rad aA aB dA bA dB) {old : List Int}
    {s s' : IK α × List Int} {c : ℕ} (hcn : c < E.A.dim) (h : ZKer E old s)
    (e : kerStep E rad aA aB dA old s c = .ok s') : ZKer E old s' := by
  have hi := h.inv
  unfold kerStep at e
  rw [h.new] at e
  by_cases ht : (dA.any (fun d => (d : Int) == old.getD c 0) || ([] : List Int).contains (old.getD c 0))
      = true
  · rw [if_pos ht] at e
    simp only [List.contains_nil, Bool.or_false, List.any_eq_true] at ht
    obtain ⟨d, hd, hdc⟩ := ht
    have hdc' : old.getD c 0 = (d : Int) := by simpa using Eq.symm (by simpa using hdc : (d : Int) = old.getD c 0)
    have hcol := h.oldc c d hcn hdc'
    have hz : ∀ r ∈ aA, zv E.p (s.1.ker.col c) r = 0 := by
      intro r hr
      obtain ⟨b, hb, hb2⟩ := (hL.mdA d).1 hd
      have hdn : d < E.A.dim := by
        rw [hE.lenA]; exact (List.getElem?_eq_some_iff.1 hb).1
      rw [hcol, zv_identity hdn]
      refine Pi.single_eq_of_ne ?_ _
      rintro rfl
      obtain ⟨b', hb', -, h3⟩ := (hL.mA r).1 hr
      rw [hb] at hb'; cases hb'
      exact h3 (le_of_eq hb2)
    rw [pivotCheckReduce_triv hi.kOK hE.hp.pos hz] at e
    simp only [ne_eq, not_true_eq_false, if_false, Except.ok.injEq] at e
    subst e
    refine ⟨⟨hi.im, hi.T, hi.lenP, hi.lenD, by simp [hi.lenK], hi.piv, hi.kOK, ?_⟩, rfl, h.oldc⟩
    intro k i hk
    change (s.1.pivKer.set c (-1)).getD k (-2) = _ at hk
    refine hi.kcol k i ?_
    unfold IK.rho
    rw [List.getD_eq_getElem?_getD, List.getElem?_set] at hk
    rw [List.getD_eq_getElem?_getD]
    split at hk
    · split at hk
      · simp at hk
      · simp at hk
    · exact hk
  · rw [if_neg ht] at e
    simp only [Except.ok.injEq] at e
    subst e; exact h

theorem ZInv.kerPhase (hE : EnvOK E) {rad : α} {aA aB dA bA dB : List ℕ}
    (hL : Lists E rad aA aB dA bA dB) {st st' : IK α} (h : ZInv E st)
    (e : kerPhase E rad aA aB dA st = .ok st') : ZInv E st' := by
  unfold Permaviss.kerPhase at e
  cases h1 : (List.range E.A.dim).foldlM (kerStep E rad aA aB dA st.pivKer) (st, []) with
  | error x => rw [h1] at e; cases e
  | ok s =>
    rw [h1] at e
    simp only [Except.ok.injEq] at e
    subst e
    refine (foldlM_pres (I := ZKer E st.pivKer) _
      (fun c hc s s' hs he => hs.step hE hL (List.mem_range.1 hc) he) ?_ h1).inv
    refine ⟨h, rfl, fun k i hkn hk => (h.kcol k i ?_).2⟩
    unfold IK.rho
    have : k < st.pivKer.length := by rw [h.lenK]; exact hkn
    rw [List_getD_eq_getElem _ _ this] at hk ⊢
    exact hk

theorem ZInv.imStep (hE : EnvOK E) (hfull : E.full = true) (hz : ZeroMor E) {rad : α}
    {aA aB dA bA dB : List ℕ} (hL : Lists E rad aA aB dA bA dB) {old : List Int}
    (hold : ∀ j, j < E.A.dim → old.getD j 0 = -2 ∨ old.getD j 0 = -1)
    {s s' : IK α × List Int} {c : ℕ} (hcn : c < E.A.dim) (h : ZInv E s.1 ∧ s.2 = [])
    (e : Permaviss.imStep E rad aB dA bA dB old s c = .ok s') : ZInv E s'.1 ∧ s'.2 = [] := by
  obtain ⟨hi, hn⟩ := h
  unfold Permaviss.imStep at e
  rw [hn] at e
  by_cases hb : c ∈ bA
  · rw [if_pos (by simp [hb])] at e
    obtain ⟨a, ha, ha1⟩ := (hL.mbA c).1 hb
    have hzero : ∀ r ∈ aB, zv E.p (s.1.im.col c) r = 0 := by
      intro r hr
      rw [hi.im]
      exact hz c a ha r (ha1 ▸ (hL.mB r).1 hr)
    have hFok : MatOK E.p E.B.dim E.A.dim s.1.im := by rw [hi.im]; exact hE.FOK
    rw [pivotCheckReduce_triv hFok hE.hp.pos hzero] at e
    simp only [ne_eq, not_true_eq_false, if_false, Option.getD_some] at e
    have hset : ∀ (l : List Int) (x : Int), l.length = E.A.dim → (l.set c x).getD c (-2) = x := by
      intro l x hl
      rw [List.getD_eq_getElem?_getD, List.getElem?_set_self (by omega)]; rfl
    have hsetne : ∀ (l : List Int) (x : Int) (i j : ℕ), j ≠ i →
        (l.set i x).getD j (-2) = l.getD j (-2) := by
      intro l x i j hj
      rw [List.getD_eq_getElem?_getD, List.getElem?_set_ne (Ne.symm hj), List.getD_eq_getElem?_getD]
    have hpiv : ∀ j, j < E.A.dim → (s.1.pivIm.set c (-1)).getD j (-2) = -2 ∨
        ((s.1.pivIm.set c (-1)).getD j (-2) = -1 ∧
          (s.1.imDeath.set c rad)[j]? = (E.A.barcode[j]?).map Prod.fst) := by
      intro j hj
      by_cases hjc : j = c
      · subst hjc
        right
        rw [hset _ _ hi.lenP, ha, List.getElem?_set_self (by rw [hi.lenD]; exact hj)]
        exact ⟨rfl, by simp [ha1]⟩
      · rw [hsetne _ _ _ _ hjc, List.getElem?_set_ne (Ne.symm hjc)]
        exact hi.piv j hj
    unfold imDie at e
    rw [if_pos hfull] at e
    by_cases hd : dA.contains c = true
    · rw [if_pos hd] at e
      simp only [Except.ok.injEq] at e
      subst e
      exact ⟨⟨hi.im, hi.T, by simp [hi.lenP], by simp [hi.lenD], hi.lenK, hpiv, hi.kOK, hi.kcol⟩, rfl⟩
    · rw [if_neg hd] at e
      unfold kerBirth at e
      by_cases hk : s.1.kdim < E.A.dim
      · simp only [hk, if_true, Except.ok.injEq] at e
        subst e
        refine ⟨⟨hi.im, hi.T, by simp [hi.lenP], by simp [hi.lenD], by simp [hi.lenK], hpiv, ?_, ?_⟩,
          rfl⟩
        · have hT : MatOK E.p E.A.dim E.A.dim s.1.T := by
            rw [hi.T]; exact identity_ok hE.hp.one_lt _
          exact hi.kOK.setCol _ (hT.col_len (by exact hcn)) (hT.col_red c)
        · intro k i hki
          change (s.1.pivKer.set s.1.kdim (c : Int)).getD k (-2) = _ at hki
          change i < _ ∧ (s.1.ker.setCol s.1.kdim (s.1.T.col c)).col k = _
          by_cases hkk : k = s.1.kdim
          · subst hkk
            rw [List.getD_eq_getElem?_getD, List.getElem?_set_self (by rw [hi.lenK]; exact hk)] at hki
            have : c = i := by simpa using hki
            subst this
            refine ⟨hcn, ?_⟩
            rw [← hi.T]
            unfold Mat.setCol Mat.col
            rw [List.getD_eq_getElem?_getD, List.getElem?_set_self (by rw [hi.kOK.ncols]; exact hk)]
            rfl
          · rw [hsetne _ _ _ _ hkk] at hki
            refine ⟨(hi.kcol k i hki).1, ?_⟩
            rw [← (hi.kcol k i hki).2]
            unfold Mat.setCol Mat.col
            rw [List.getD_eq_getElem?_getD, List.getElem?_set_ne (Ne.symm hkk),
              List.getD_eq_getElem?_getD]
      · simp [hk] at e
  · rw [if_neg] at e
    · simp only [Except.ok.injEq] at e
      subst e; exact ⟨hi, hn⟩
    · have ho := hold c hcn
      intro ht
      rw [Bool.or_eq_true, Bool.or_eq_true, Bool.or_eq_true, Bool.and_eq_true] at ht
      rcases ht with ((⟨h1, -⟩ | h1) | h1) | h1
      · have h1 : 0 ≤ old.getD c 0 := by simpa using h1
        omega
      · rw [List.any_eq_true] at h1
        obtain ⟨d, -, h3⟩ := h1
        have : (d : Int) = old.getD c 0 := by simpa using h3
        omega
      · simp at h1
      · exact hb (by simpa using h1)

theorem ZInv.radius (hE : EnvOK E) (hfull : E.full = true) (hz : ZeroMor E) {rad : α} {st st' : IK α}
    (h : ZInv E st) (e : ikRadius E st rad = .ok st') : ZInv E st' := by
  let aA := barIndices E.A.barcode fun b => decide (b.1 ≤ rad) && decide (rad < b.2)
  let aB := barIndices E.B.barcode fun b => decide (b.1 ≤ rad) && decide (rad < b.2)
  let dA := barIndices E.A.barcode fun b => decide (b.2 = rad)
  let bA := barIndices E.A.barcode fun b => decide (b.1 = rad)
  let dB := barIndices E.B.barcode fun b => decide (b.2 = rad)
  have hL : Lists E rad aA aB dA bA dB := by
    refine ⟨?_, barIndices_sorted _ _, ?_, barIndices_sorted _ _, ?_, ?_, ?_⟩
    · intro i; simp [aA, mem_barIndices, ActBy]
    · intro i; simp [aB, mem_barIndices, ActBy]
    · intro i; simp [dA, mem_barIndices]
    · intro i; simp [bA, mem_barIndices]
    · intro i; simp [dB, mem_barIndices]
  unfold ikRadius Basis.active Basis.death Basis.birth at e
  rw [hE.flatA, hE.flatB] at e
  simp only [hfull, bind, Except.bind, if_true, Bool.false_eq_true, if_false] at e
  cases h1 : Permaviss.kerPhase E rad aA aB dA st with
  | error x => rw [h1] at e; cases e
  | ok st1 =>
    rw [h1] at e
    have h2 := h.kerPhase hE hL h1
    dsimp only at e
    change imPhase E rad aB dA bA dB st1 = .ok st' at e
    unfold imPhase at e
    cases h3 : (List.range E.A.dim).foldlM (Permaviss.imStep E rad aB dA bA dB st1.pivIm) (st1, []) with
    | error x => rw [h3] at e; cases e
    | ok s =>
      rw [h3] at e
      simp only [Except.ok.injEq] at e
      subst e
      refine (foldlM_pres (I := fun s : IK α × List Int => ZInv E s.1 ∧ s.2 = []) _
        (fun c hc s s' hs he => ZInv.imStep hE hfull hz hL ?_ (List.mem_range.1 hc) hs he)
        ⟨h2, rfl⟩ h3).1
      intro j hj
      have hp := h2.piv j hj
      unfold IK.piv at hp
      have : j < st1.pivIm.length := by rw [h2.lenP]; exact hj
      rw [List_getD_eq_getElem _ _ this] at hp ⊢
      exact hp.imp id And.left

theorem ZInv.loop (hE : EnvOK E) (hfull : E.full = true) (hz : ZeroMor E) (l : List α) :
    ∀ {st st' : IK α}, ZInv E st → ikLoop E l st = .ok st' → ZInv E st' := by
  induction l with
  | nil =>
    intro st st' h e
    simp only [ikLoop, Except.ok.injEq] at e
    exact e ▸ h
  | cons rad l ih =>
    intro st st' h e
    unfold ikLoop at e
    cases h1 : ikRadius E st rad with
    | error x => rw [h1] at e; cases e
    | ok s =>
      rw [h1] at e
      exact ih (h.radius hE hfull hz h1) e

theorem ZInv.init [Zero α] (hE : EnvOK E) : ZInv E E.init := by
  refine ⟨rfl, rfl, by simp [IKEnv.init], by simp [IKEnv.init], by simp [IKEnv.init], ?_,
    (init_inv hE).1.sh.ker, ?_⟩
  · intro j hj
    left
    simp [IK.piv, IKEnv.init, List.getD_eq_getElem?_getD, List.getElem?_replicate, hj]
  · intro k i hk
    have : (E.init).rho k = -2 := by
      simp only [IK.rho, IKEnv.init, List.getD_eq_getElem?_getD, List.getElem?_replicate]
      split <;> simp
    omega

end Permaviss
