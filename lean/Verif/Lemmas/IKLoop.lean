import Verif.Lemmas.IKIm

/-!
# `image_kernel`: one radius, and the loop over all radii
-/

namespace Permaviss

open Finset

variable {α : Type} [LinearOrder α]

variable {E : IKEnv α} {rad : α} {aA aB dA bA dB : List ℕ} {st0 : IK α} {c : ℕ}
  {s : IK α × List Int}

theorem IMid.kd_lt (h : IMid E rad st0 c s) (hcn : c < E.A.dim) (hpc : s.1.piv c ≠ -1) :
    s.1.kdim < E.A.dim := by
  classical
  have h1 : s.1.kdim < ((range E.A.dim).filter fun j => s.1.piv j = -1 ∨ j = c).card := by
    refine lt_of_le_of_lt h.core.kdle (Finset.card_lt_card ?_)
    rw [Finset.ssubset_iff_of_subset (fun j hj => by
      simp only [Finset.mem_filter] at hj ⊢; exact ⟨hj.1, Or.inl hj.2⟩)]
    exact ⟨c, by simp [hcn], by simp [hpc]⟩
  exact lt_of_lt_of_le h1 ((Finset.card_filter_le _ _).trans (by simp))

theorem IMid.step (hE : EnvOK E) (hfull : E.full = true) (hL : Lists E rad aA aB dA bA dB)
    (h : IMid E rad st0 c s) (hcn : c < E.A.dim) (hst0 : st0.pivIm.length = E.A.dim) :
    ∃ s', imStep E rad aB dA bA dB st0.pivIm s c = .ok s' ∧ IMid E rad st0 (c + 1) s' := by
  have hc := h.core
  have hrc : s.1.piv c = st0.piv c := h.un c le_rfl
  have hold : st0.pivIm.getD c 0 = st0.piv c := by
    unfold IK.piv
    have : c < st0.pivIm.length := by omega
    rw [List_getD_eq_getElem _ _ this, List_getD_eq_getElem _ _ this]
  unfold imStep
  rw [hold]
  by_cases ht : ((decide (0 ≤ st0.piv c) &&
        decide ((s.1.im.col c).getD (st0.piv c).toNat 0 % (E.p : Int) = 0)) ||
      dB.any (fun d => (d : Int) == st0.piv c) || s.2.contains (st0.piv c) ||
      bA.contains c) = true
  · rw [if_pos ht]
    have hcase : c ∈ bA ∨ ∃ r : ℕ, s.1.piv c = r := by
      rw [Bool.or_eq_true, Bool.or_eq_true, Bool.or_eq_true, Bool.and_eq_true] at ht
      rcases ht with ((⟨h1, -⟩ | h1) | h1) | h1
      · right
        have h1 : 0 ≤ st0.piv c := by simpa using h1
        exact ⟨(st0.piv c).toNat, by rw [hrc]; omega⟩
      · right
        rw [List.any_eq_true] at h1
        obtain ⟨d, -, h3⟩ := h1
        have : (d : Int) = st0.piv c := by simpa using h3
        exact ⟨d, by rw [hrc, this]⟩
      · right
        have h1 : st0.piv c ∈ s.2 := by simpa using h1
        obtain ⟨i, h2, -⟩ := h.N _ h1
        exact ⟨i, by rw [hrc, h2]⟩
      · left; simpa using h1
    have hpc : s.1.piv c ≠ -1 ∧ BornBy (· ≤ rad) E.A.barcode c ∧
        (c ∉ dA → ActBy (· ≤ rad) E.A.barcode c) := by
      rcases hcase with h1 | ⟨r, h1⟩
      · have hb := (hL.mbA c).1 h1
        refine ⟨?_, born_le_iff.2 (Or.inr hb), fun _ => ?_⟩
        · have := (hc.unborn c hcn).2 (by rw [cutAt_hi le_rfl]; exact not_born_of_birth hb)
          omega
        · obtain ⟨b, hb1, hb2⟩ := hb
          refine ⟨b, hb1, le_of_eq hb2, ?_⟩
          have := hE.wfA b (List.mem_of_getElem? hb1)
          rw [hb2] at this
          exact not_le.2 this
      · have ha := hc.upA c le_rfl r h1
        exact ⟨by omega, ha.born.le, fun hd => act_new ha fun hb => hd ((hL.mdA c).2 hb)⟩
    obtain ⟨hpc, hborn, hact⟩ := hpc
    obtain ⟨M, T, q, h1, h2⟩ := h.reduce hE hL hcn hpc
    rw [h1]
    dsimp only
    simp only [Option.getD_some]
    by_cases hq : q = -1
    · subst hq
      rw [if_neg (by simp)]
      unfold imDie
      rw [if_pos hfull]
      by_cases hd : c ∈ dA
      · rw [if_pos (by simpa using hd)]
        refine ⟨_, rfl, h.update hE hL hcn hpc hborn h2 ⟨rfl, rfl, rfl⟩ (Or.inr ⟨rfl, rfl, rfl⟩)
          (Or.inl ⟨rfl, rfl, rfl, rfl, fun _ hA => ?_⟩)⟩
        obtain ⟨b, hb1, hb2⟩ := (hL.mdA c).1 hd
        obtain ⟨b', hb', -, h3⟩ := hA
        rw [hb1] at hb'; cases hb'
        exact h3 (le_of_eq hb2)
      · rw [if_neg (by simpa using hd)]
        unfold kerBirth
        dsimp only
        rw [if_pos (h.kd_lt hcn hpc)]
        exact ⟨_, rfl, h.update hE hL hcn hpc hborn h2 ⟨rfl, rfl, rfl⟩ (Or.inr ⟨rfl, rfl, rfl⟩)
          (Or.inr ⟨rfl, hact hd, rfl, rfl, rfl, rfl⟩)⟩
    · rw [if_pos hq]
      exact ⟨_, rfl, h.update hE hL hcn hpc hborn h2 ⟨rfl, rfl, rfl⟩ (Or.inl ⟨hq, rfl, rfl⟩)
        (Or.inl ⟨rfl, rfl, rfl, rfl, fun h => absurd h hq⟩)⟩
  · rw [if_neg ht]
    rw [Bool.or_eq_true, Bool.or_eq_true, Bool.or_eq_true] at ht
    refine ⟨s, rfl, h.skip hE hL hcn ?_ ?_ ?_⟩
    · intro i hi hd
      apply ht
      left; left; right
      rw [List.any_eq_true]
      exact ⟨i, hd, by simp [hi]⟩
    · intro hN
      apply ht
      left; right
      simpa using hN
    · intro hb
      apply ht
      right
      simpa using hb

/-- Image generators of inactive bars are dead. -/
theorem Core.inactive_dead (hE : EnvOK E) {st : IK α}
    (hc : Core E (· < rad) (· ≤ rad) (· ≤ rad) E.A.dim E.A.dim st) {j : ℕ} {r : ℕ}
    (hj : st.piv j = r) : ActBy (· ≤ rad) E.A.barcode j := by
  classical
  have := Fact.mk hE.hp
  by_contra hna
  have hlt : ∀ j, ∀ r : ℕ, st.piv j = r → j < E.A.dim := fun j r h => hc.piv_lt (by omega)
  let U : Finset ℕ := (range E.A.dim).filter fun j => ∃ r : ℕ, st.piv j = r
  have hU : ∀ j, j ∈ U ↔ ∃ r : ℕ, st.piv j = r := by
    intro j
    simp only [U, Finset.mem_filter, mem_range]
    exact ⟨fun h => h.2, fun ⟨r, h⟩ => ⟨hlt j r h, r, h⟩⟩
  have htri : ∀ j ∈ U, Tri j (E.Tc st j) ∧ E.V st j = E.ev (E.Tc st j) := by
    intro j hj
    obtain ⟨r, h⟩ := (hU j).1 hj
    exact hc.g2 j (hlt j r h) (by omega)
  have hborn : ∀ j ∈ U, BornBy (· ≤ rad) E.A.barcode j := by
    intro j hj
    obtain ⟨r, h⟩ := (hU j).1 hj
    by_contra hb
    have := (hc.unborn j (hlt j r h)).2 (by rw [cutAt_lo (hlt j r h)]; exact hb)
    omega
  have hmor : ∀ j ∈ U, E.mor (· ≤ rad) (E.Tc st j) = restr (ActBy (· ≤ rad) E.B.barcode) (E.V st j) := by
    intro j hj
    funext i
    by_cases hi : ActBy (· ≤ rad) E.B.barcode i
    · rw [hE.mor_eq (down_le rad) (hE.tri_born (down_le rad) (htri j hj).1 (hborn j hj)) i hi,
        restr_apply_pos hi, (htri j hj).2]
    · rw [IKEnv.mor_apply, restr_apply_neg hi, restr_apply_neg hi]
  let π : ℕ → ℕ := fun j => (st.piv j).toNat
  have hind : LinearIndependent (ZMod E.p)
      fun j : U => restr (ActBy (· ≤ rad) E.B.barcode) (E.V st j) := by
    refine indep_of_pivots _ π ?_ ?_
    · intro j hj
      obtain ⟨r, h⟩ := (hU j).1 hj
      have := hc.alive j (hlt j r h) r h
      rw [cutAt_lo (hlt j r h)] at this
      simp only [π, h, Int.toNat_natCast]
      exact this
    · intro j hj j' hj' he
      obtain ⟨r, h⟩ := (hU j).1 hj
      obtain ⟨r', h'⟩ := (hU j').1 hj'
      have : r = r' := by simpa [π, h, h'] using he
      subst this
      exact hc.injLo j j' (hlt j r h) (hlt j' r h') r h h'
  have hjU : j ∈ U := (hU j).2 ⟨r, hj⟩
  -- the value at `j` is a combination of the values at smaller ones
  have hspan : E.mor (· ≤ rad) (E.Tc st j) ∈ Submodule.span (ZMod E.p)
      ((fun i : U => restr (ActBy (· ≤ rad) E.B.barcode) (E.V st i)) '' (Set.univ \ {⟨j, hjU⟩})) := by
    have hk : ∀ i, ActBy (· ≤ rad) E.A.barcode i → i ∉ U → ∃ x : ℕ → ZMod E.p, x i ≠ 0 ∧
        (∀ l, x l ≠ 0 → l ≤ i) ∧
        E.mor (· ≤ rad) x ∈ (⊥ : Submodule (ZMod E.p) (ℕ → ZMod E.p)) := by
      intro i hi hiU
      rcases hc.cover i hi (Or.inr (by rw [hE.lenA]; exact hi.lt)) with h1 | ⟨k, h1, h2⟩
      · exact absurd ((hU i).2 h1) hiU
      · have ha := hc.kalive k i h2
        rw [cutAt_lo (by have := hc.sh.kdim; omega)] at ha
        refine ⟨restr (ActBy (· ≤ rad) E.A.barcode) (E.Kc st k), ?_, ?_, ?_⟩
        · rw [restr_apply_pos ha.1]; exact ha.2.1
        · intro l hl
          by_contra hli
          by_cases hla : ActBy (· ≤ rad) E.A.barcode l
          · rw [restr_apply_pos hla] at hl
            exact hl (ha.2.2 l (by omega) hla)
          · exact hl (restr_apply_neg hla)
        · rw [EnvOK.mor_act, hc.kker k h1]; exact Submodule.zero_mem _
    have hts := tri_span (E.mor (· ≤ rad)) (S := ActBy (· ≤ rad) E.A.barcode) (n := E.A.dim)
      (fun i hi => by rw [hE.lenA]; exact hi.lt) (fun i hi => EnvOK.mor_single i hi)
      ⊥ (U := U) (fun j => E.Tc st j) (fun j hj => (htri j hj).1) hk
    rw [eq_sum_single (x := E.Tc st j) (n := j + 1)
      (fun l hl => by have := (htri j hjU).1.2 l hl; omega), map_sum]
    refine Submodule.sum_mem _ fun l hl => ?_
    rw [map_smul]
    refine Submodule.smul_mem _ _ ?_
    by_cases hla : ActBy (· ≤ rad) E.A.barcode l
    · have hlj : l ≠ j := by rintro rfl; exact hna hla
      have := hts l hla
      rw [bot_sup_eq] at this
      refine Submodule.span_mono ?_ this
      rintro y ⟨i, hi, hil, rfl⟩
      refine ⟨⟨i, hi⟩, ⟨trivial, ?_⟩, (hmor i hi).symm⟩
      intro e
      have : i = j := congrArg Subtype.val e
      have := mem_range.1 hl
      omega
    · rw [EnvOK.mor_single l hla]; exact Submodule.zero_mem _
  rw [hmor j hjU] at hspan
  exact linearIndependent_iff_notMem_span.1 hind ⟨j, hjU⟩ hspan

/-- One radius. -/
theorem ikRadius_spec (hE : EnvOK E) (hfull : E.full = true) {st : IK α}
    (hc : Core E (· < rad) (· < rad) (· < rad) 0 0 st) (hh : Hist E st (· < rad)) :
    ∃ st', ikRadius E st rad = .ok st' ∧
      Core E (· ≤ rad) (· ≤ rad) (· ≤ rad) 0 0 st' ∧ Hist E st' (· < rad) := by
  let aA := barIndices E.A.barcode fun b => decide (b.1 ≤ rad) && decide (rad < b.2)
  let aB := barIndices E.B.barcode fun b => decide (b.1 ≤ rad) && decide (rad < b.2)
  let dA := barIndices E.A.barcode fun b => decide (b.2 = rad)
  let bA := barIndices E.A.barcode fun b => decide (b.1 = rad)
  let dB := barIndices E.B.barcode fun b => decide (b.2 = rad)
  have hL : Lists E rad aA aB dA bA dB := by
    refine ⟨?_, barIndices_sorted _ _, ?_, barIndices_sorted _ _, ?_, ?_, ?_⟩
    · intro i; simp [aA, mem_barIndices, ActBy]
    · intro i; simp [aB, mem_barIndices, ActBy]
    · intro i; simp [dA, mem_barIndices]
    · intro i; simp [bA, mem_barIndices]
    · intro i; simp [dB, mem_barIndices]
  obtain ⟨st1, h1, h2, h3⟩ := kerPhase_spec hE hL hc hh
  have h0 : IMid E rad st1 0 (st1, []) :=
    ⟨h2, h3, by simp, fun k hk => absurd hk (by omega), fun _ _ => rfl,
      fun k k' i => h2.injHi k k' (by omega) (by omega) i⟩
  obtain ⟨s, h4, h5⟩ := foldlM_range_inv (imStep E rad aB dA bA dB st1.pivIm)
    (fun c s => IMid E rad st1 c s) E.A.dim (st1, []) h0
    (fun c hcn s hs => hs.step hE hfull hL hcn h2.sh.pivIm)
  refine ⟨s.1, ?_, ?_, h5.hist⟩
  · unfold ikRadius Basis.active Basis.death Basis.birth
    rw [hE.flatA, hE.flatB]
    simp only [hfull, bind, Except.bind, if_true, Bool.false_eq_true, if_false]
    rw [h1]
    dsimp only
    unfold imPhase
    rw [h4]
  · have hc := h5.core
    have hpl : ∀ j, ∀ r : ℕ, s.1.piv j = r → j < E.A.dim := fun j r h => hc.piv_lt (by omega)
    have hcc : ∀ j, j < E.A.dim → cutAt (· < rad) (· ≤ rad) E.A.dim j = (· ≤ rad) :=
      fun j hj => cutAt_lo hj
    have hc0 : ∀ j, cutAt (· ≤ rad) (· ≤ rad) 0 j = (· ≤ rad) := fun j => cutAt_hi (by omega)
    have hrl : ∀ k, ∀ i : ℕ, s.1.rho k = i → k < E.A.dim := by
      intro k i h
      have := hc.rho_lt (k := k) (by omega)
      have := hc.sh.kdim
      omega
    exact { hc with
      unborn := fun j hj => by rw [hc0, ← hcc j hj]; exact hc.unborn j hj
      alive := fun j hj => by rw [hc0, ← hcc j hj]; exact hc.alive j hj
      injLo := fun j j' h => absurd h (by omega)
      injHi := fun j j' _ _ r h1 h2 => hc.injLo j j' (hpl j r h1) (hpl j' r h2) r h1 h2
      kalive := fun k i hk => by rw [hc0, ← hcc k (hrl k i hk)]; exact hc.kalive k i hk
      kinjLo := fun j j' h => absurd h (by omega)
      kinjHi := fun k k' _ _ i h1 h2 => hc.kinjLo k k' (hrl k i h1) (hrl k' i h2) i h1 h2
      cover := fun i hi _ => hc.cover i hi (Or.inr (by rw [hE.lenA]; exact hi.lt))
      upA := fun j _ r hj => hc.inactive_dead hE hj
      kpiv := fun k i hk => by
        have := hc.kalive k i hk
        rw [hcc k (hrl k i hk)] at this
        exact Or.inl this.1.born }

/-- The history at the present. -/
theorem Core.present (hE : EnvOK E) {t : α} {st : IK α}
    (hc : Core E (· ≤ t) (· ≤ t) (· ≤ t) 0 0 st) :
    ∃ U W, HistIm E st t U ∧ HistKer E st t W ∧ W.card + U.card = (actSet E t).card := by
  classical
  have := Fact.mk hE.hp
  have hc0 : ∀ j, cutAt (· ≤ t) (· ≤ t) 0 j = (· ≤ t) := fun j => cutAt_hi (by omega)
  have hlt : ∀ j, ∀ r : ℕ, st.piv j = r → j < E.A.dim := fun j r h => hc.piv_lt (by omega)
  let U : Finset ℕ := (range E.A.dim).filter fun j => ∃ r : ℕ, st.piv j = r
  have hU : ∀ j, j ∈ U ↔ ∃ r : ℕ, st.piv j = r := by
    intro j
    simp only [U, Finset.mem_filter, mem_range]
    exact ⟨fun h => h.2, fun ⟨r, h⟩ => ⟨hlt j r h, r, h⟩⟩
  let W : Finset ℕ := (range st.kdim).filter fun k => ∃ i : ℕ, st.rho k = i
  have hW : ∀ k, k ∈ W ↔ ∃ i : ℕ, st.rho k = i := by
    intro k
    simp only [W, Finset.mem_filter, mem_range]
    exact ⟨fun h => h.2, fun ⟨r, h⟩ => ⟨hc.rho_lt (by omega), r, h⟩⟩
  have hact : ∀ j ∈ U, ActBy (· ≤ t) E.A.barcode j := by
    intro j hj
    obtain ⟨r, h⟩ := (hU j).1 hj
    exact hc.upA j (by omega) r h
  have htri : ∀ j ∈ U, Tri j (E.Tc st j) ∧ E.V st j = E.ev (E.Tc st j) := by
    intro j hj
    obtain ⟨r, h⟩ := (hU j).1 hj
    exact hc.g2 j (hlt j r h) (by omega)
  have hmor : ∀ j ∈ U, E.mor (· ≤ t) (E.Tc st j) = restr (ActBy (· ≤ t) E.B.barcode) (E.V st j) := by
    intro j hj
    funext i
    by_cases hi : ActBy (· ≤ t) E.B.barcode i
    · rw [hE.mor_eq (down_le t) (hE.tri_born (down_le t) (htri j hj).1 (hact j hj).born) i hi,
        restr_apply_pos hi, (htri j hj).2]
    · rw [IKEnv.mor_apply, restr_apply_neg hi, restr_apply_neg hi]
  have hind : LinearIndependent (ZMod E.p)
      fun j : U => restr (ActBy (· ≤ t) E.B.barcode) (E.V st j) := by
    refine indep_of_pivots _ (fun j => (st.piv j).toNat) ?_ ?_
    · intro j hj
      obtain ⟨r, h⟩ := (hU j).1 hj
      have := hc.alive j (hlt j r h) r h
      rw [hc0] at this
      simp only [h, Int.toNat_natCast]
      exact this
    · intro j hj j' hj' he
      obtain ⟨r, h⟩ := (hU j).1 hj
      obtain ⟨r', h'⟩ := (hU j').1 hj'
      have : r = r' := by simpa [h, h'] using he
      subst this
      exact hc.injHi j j' (by omega) (by omega) r h h'
  have hkp : ∀ k, ∀ i : ℕ, st.rho k = i → IsPivOn (ActBy (· ≤ t) E.A.barcode) (E.Kc st k) i := by
    intro k i h
    have := hc.kalive k i h
    rwa [hc0] at this
  have hborn : ∀ j, BornBy (· ≤ t) E.A.barcode j → j ∉ U → j < E.A.dim ∧ st.piv j = -1 := by
    intro j hb hj
    have hjn : j < E.A.dim := by rw [hE.lenA]; exact hb.lt
    refine ⟨hjn, ?_⟩
    rcases hc.pcase j hjn with h | h | h
    · exact absurd hb (by have := (hc.unborn j hjn).1 h; rwa [hc0] at this)
    · exact h
    · exact absurd ((hU j).2 h) hj
  refine ⟨U, W, ⟨hact, ⟨fun j => restr (ActBy (· ≤ t) E.B.barcode) (E.V st j), ?_, hind⟩, ?_, ?_, ?_,
    ?_⟩, ⟨?_, ?_, ?_, ?_⟩, ?_⟩
  · intro j hj; exact ⟨_, (hmor j hj).symm⟩
  · intro i hi hiU
    rcases hc.cover i hi (Or.inl hi.born) with h1 | ⟨k, h1, h2⟩
    · exact absurd ((hU i).2 h1) hiU
    · have ha := hkp k i h2
      refine ⟨restr (ActBy (· ≤ t) E.A.barcode) (E.Kc st k), ?_, ?_, ?_⟩
      · rw [restr_apply_pos ha.1]; exact ha.2.1
      · intro l hl
        by_contra hli
        by_cases hla : ActBy (· ≤ t) E.A.barcode l
        · rw [restr_apply_pos hla] at hl
          exact hl (ha.2.2 l (by omega) hla)
        · exact hl (restr_apply_neg hla)
      · rw [EnvOK.mor_act, hc.kker k h1]
  · intro j hj hj1
    obtain ⟨r, h⟩ := (hU j).1 hj
    omega
  · intro j hb hj
    obtain ⟨h1, h2⟩ := hborn j hb hj
    exact ⟨h2, hc.dead j h1 h2⟩
  · intro _ j hb hj d hd
    obtain ⟨h1, h2⟩ := hborn j hb hj
    exact hc.db j h1 h2 d hd
  · intro k
    rw [hW]
    constructor
    · rintro ⟨i, h⟩
      have hk := hc.rho_lt (k := k) (by omega)
      have hkl : k < st.kerBar.length := by rw [hc.sh.kerBar]; exact lt_of_lt_of_le hk hc.sh.kdim
      exact ⟨hk, _, List.getElem?_eq_getElem hkl,
        (hc.kb k hk _ (List.getElem?_eq_getElem hkl)).1, fun h1 => by omega⟩
    · rintro ⟨hk, b, hb, hbt, hd⟩
      rcases hc.kcase k hk with h1 | h1
      · exact absurd (hd h1) (not_lt.2 ((hc.kb k hk b hb).2 h1))
      · exact h1
  · refine indep_of_pivots _ (fun j => (st.rho j).toNat) ?_ ?_
    · intro k hk
      obtain ⟨i, h⟩ := (hW k).1 hk
      simp only [h, Int.toNat_natCast]
      exact hkp k i h
    · intro k hk k' hk' he
      obtain ⟨i, h⟩ := (hW k).1 hk
      obtain ⟨i', h'⟩ := (hW k').1 hk'
      have : i = i' := by simpa [h, h'] using he
      subst this
      exact hc.kinjHi k k' (by omega) (by omega) i h h'
  · intro k hk
    obtain ⟨i, h⟩ := (hW k).1 hk
    exact hc.kker k (hc.rho_lt (by omega))
  · intro k hk b hb _ hkW
    rcases hc.kcase k hk with h1 | h1
    · exact ⟨h1, hc.kdead k hk h1⟩
    · exact absurd ((hW k).2 h1) hkW
  · -- cardinalities
    have hWim : W.card = (W.image fun k => (st.rho k).toNat).card := by
      rw [Finset.card_image_of_injOn]
      intro k hk k' hk' he
      obtain ⟨i, h⟩ := (hW k).1 hk
      obtain ⟨i', h'⟩ := (hW k').1 hk'
      have : i = i' := by simpa [h, h'] using he
      subst this
      exact hc.kinjHi k k' (by omega) (by omega) i h h'
    rw [hWim, ← Finset.card_union_of_disjoint]
    · congr 1
      ext i
      simp only [Finset.mem_union, Finset.mem_image, actSet, Finset.mem_filter, mem_range]
      constructor
      · rintro (⟨k, hk, rfl⟩ | h)
        · obtain ⟨i, h⟩ := (hW k).1 hk
          have := (hkp k i h).1
          simp only [h, Int.toNat_natCast]
          exact ⟨by rw [hE.lenA]; exact this.lt, this⟩
        · exact ⟨by rw [hE.lenA]; exact (hact i h).lt, hact i h⟩
      · rintro ⟨-, hi⟩
        rcases hc.cover i hi (Or.inl hi.born) with h1 | ⟨k, h1, h2⟩
        · right; exact (hU i).2 h1
        · left; exact ⟨k, (hW k).2 ⟨i, h2⟩, by simp [h2]⟩
    · rw [Finset.disjoint_left]
      rintro i hi hiU
      obtain ⟨k, hk, rfl⟩ := Finset.mem_image.1 hi
      obtain ⟨i, h⟩ := (hW k).1 hk
      simp only [h, Int.toNat_natCast] at hiU
      obtain ⟨r, h2⟩ := (hU i).1 hiU
      exact hc.disj i r h2 k h

/-- The core only depends on which end points have passed. -/
theorem Core.congr {P P' : α → Prop} {st : IK α} (hc : Core E P P P 0 0 st)
    (h1 : ∀ x, P x → P' x)
    (hA : ∀ b ∈ E.A.barcode, (P' b.1 → P b.1) ∧ (P' b.2 → P b.2))
    (hB : ∀ b ∈ E.B.barcode, (P' b.1 → P b.1) ∧ (P' b.2 → P b.2)) : Core E P' P' P' 0 0 st := by
  have key : ∀ bars : List (α × α), (∀ b ∈ bars, (P' b.1 → P b.1) ∧ (P' b.2 → P b.2)) →
      (BornBy P' bars = BornBy P bars) ∧ (ActBy P' bars = ActBy P bars) := by
    intro bars hb
    constructor
    · funext i
      apply propext
      constructor
      · rintro ⟨b, h2, h3⟩; exact ⟨b, h2, (hb b (List.mem_of_getElem? h2)).1 h3⟩
      · rintro ⟨b, h2, h3⟩; exact ⟨b, h2, h1 _ h3⟩
    · funext i
      apply propext
      constructor
      · rintro ⟨b, h2, h3, h4⟩
        exact ⟨b, h2, (hb b (List.mem_of_getElem? h2)).1 h3, fun h => h4 (h1 _ h)⟩
      · rintro ⟨b, h2, h3, h4⟩
        exact ⟨b, h2, h1 _ h3, fun h => h4 ((hb b (List.mem_of_getElem? h2)).2 h)⟩
  obtain ⟨eA1, eA2⟩ := key _ hA
  obtain ⟨eB1, eB2⟩ := key _ hB
  have hcut : ∀ (Q : α → Prop) j, cutAt Q Q 0 j = Q := fun Q j => cutAt_hi (by omega)
  have emor : E.mor P' = E.mor P := by
    unfold IKEnv.mor; rw [eA2, eB2]
  exact { hc with
    unborn := fun j hj => by have := hc.unborn j hj; rw [hcut] at this ⊢; rw [eA1]; exact this
    alive := fun j hj => by have := hc.alive j hj; rw [hcut] at this ⊢; rw [eB2]; exact this
    dead := fun j hj h => by rw [eB2]; exact hc.dead j hj h
    kalive := fun k => by have := hc.kalive k; rw [hcut] at this ⊢; rw [eA2]; exact this
    kdead := fun k hk h => by rw [eA2]; exact hc.kdead k hk h
    ksupp := fun k hk => by rw [eA1]; exact hc.ksupp k hk
    kker := fun k hk => by rw [emor]; exact hc.kker k hk
    cover := fun i hi hb => by
      rw [eA2] at hi; rw [eA1] at hb; exact hc.cover i hi hb
    upA := fun j hj => by rw [eA2]; exact hc.upA j hj
    kb := fun k hk b hb => ⟨h1 _ (hc.kb k hk b hb).1, fun h => h1 _ ((hc.kb k hk b hb).2 h)⟩
    db := fun j hj h e he => h1 _ (hc.db j hj h e he)
    kpiv := fun k => by rw [eA1]; exact hc.kpiv k }

/-- The whole invariant. -/
def IKInv (E : IKEnv α) (P : α → Prop) (st : IK α) : Prop := Core E P P P 0 0 st ∧ Hist E st P

/-- Between two radii nothing happens. -/
theorem IKInv.extend (hE : EnvOK E) {P P' : α → Prop} {st : IK α} (h : IKInv E P st) (hP : Down P)
    (h1 : ∀ x, P x → P' x) (hP' : Down P')
    (hA : ∀ b ∈ E.A.barcode, (P' b.1 → P b.1) ∧ (P' b.2 → P b.2))
    (hB : ∀ b ∈ E.B.barcode, (P' b.1 → P b.1) ∧ (P' b.2 → P b.2)) : IKInv E P' st := by
  refine ⟨h.1.congr h1 hA hB, ?_⟩
  intro t ht
  by_cases hPt : P t
  · exact h.2 t hPt
  · refine Core.present hE (h.1.congr (P' := (· ≤ t)) ?_ ?_ ?_)
    · intro x hx
      by_contra hlt
      exact hPt (hP x t (le_of_lt (not_le.1 hlt)) hx)
    · intro b hb
      exact ⟨fun h => (hA b hb).1 (hP' _ _ h ht), fun h => (hA b hb).2 (hP' _ _ h ht)⟩
    · intro b hb
      exact ⟨fun h => (hB b hb).1 (hP' _ _ h ht), fun h => (hB b hb).2 (hP' _ _ h ht)⟩

theorem ikRadius_inv (hE : EnvOK E) (hfull : E.full = true) {st : IK α}
    (h : IKInv E (· < rad) st) : ∃ st', ikRadius E st rad = .ok st' ∧ IKInv E (· ≤ rad) st' := by
  obtain ⟨st', h1, h2, h3⟩ := ikRadius_spec hE hfull h.1 h.2
  refine ⟨st', h1, h2, ?_⟩
  intro t ht
  rcases lt_or_eq_of_le ht with h4 | rfl
  · exact h3 t h4
  · exact h2.present hE

/-- The loop: if the end points which have not passed are exactly those in the list, afterwards
everything has passed. -/
theorem ikLoop_spec (hE : EnvOK E) (hfull : E.full = true) (l : List α) :
    ∀ (P : α → Prop) (st : IK α), Down P → IKInv E P st → l.Pairwise (· < ·) →
    (∀ x ∈ l, ¬ P x) →
    (∀ b ∈ E.A.barcode ++ E.B.barcode, (P b.1 ∨ b.1 ∈ l) ∧ (P b.2 ∨ b.2 ∈ l)) →
    ∃ st', ikLoop E l st = .ok st' ∧ IKInv E (fun _ => True) st' := by
  induction l with
  | nil =>
    intro P st hP h _ _ hl
    refine ⟨st, rfl, h.extend hE hP (fun _ _ => trivial) (fun _ _ _ _ => trivial) ?_ ?_⟩
    · intro b hb
      have := hl b (List.mem_append_left _ hb)
      simp only [List.not_mem_nil, or_false] at this
      exact ⟨fun _ => this.1, fun _ => this.2⟩
    · intro b hb
      have := hl b (List.mem_append_right _ hb)
      simp only [List.not_mem_nil, or_false] at this
      exact ⟨fun _ => this.1, fun _ => this.2⟩
  | cons rad l ih =>
    intro P st hP h hs hn hl
    rw [List.pairwise_cons] at hs
    have hPr : ¬ P rad := hn rad (by simp)
    have hlt : ∀ x, P x → x < rad := by
      intro x hx
      by_contra hge
      exact hPr (hP x rad (not_lt.1 hge) hx)
    have hback : ∀ y, (P y ∨ y ∈ rad :: l) → y < rad → P y := by
      intro y hy hlt
      rcases hy with hy | hy
      · exact hy
      · exfalso
        rcases List.mem_cons.1 hy with rfl | hy
        · exact lt_irrefl _ hlt
        · exact lt_asymm hlt (hs.1 y hy)
    have hext : IKInv E (· < rad) st := by
      refine h.extend hE hP hlt (down_lt rad) ?_ ?_
      · intro b hb
        have := hl b (List.mem_append_left _ hb)
        exact ⟨hback _ this.1, hback _ this.2⟩
      · intro b hb
        have := hl b (List.mem_append_right _ hb)
        exact ⟨hback _ this.1, hback _ this.2⟩
    obtain ⟨st1, h1, h2⟩ := ikRadius_inv hE hfull hext
    obtain ⟨st2, h3, h4⟩ := ih (· ≤ rad) st1 (down_le rad) h2 hs.2
      (fun x hx => not_le.2 (hs.1 x hx)) (by
        intro b hb
        have hb' := hl b hb
        have conv : ∀ y, (P y ∨ y ∈ rad :: l) → (y ≤ rad ∨ y ∈ l) := by
          rintro y (hy | hy)
          · exact Or.inl (le_of_lt (hlt y hy))
          · rcases List.mem_cons.1 hy with rfl | hy
            · exact Or.inl le_rfl
            · exact Or.inr hy
        exact ⟨conv _ hb'.1, conv _ hb'.2⟩)
    refine ⟨st2, ?_, h4⟩
    simp only [ikLoop]
    rw [h1]
    exact h3

end Permaviss
