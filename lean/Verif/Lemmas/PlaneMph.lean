import Verif.Lemmas.QuotMid
import Verif.Lemmas.IKHalf
import Verif.Lemmas.StripPages
import Verif.Spec.QuotBasis

/-!
# `module_persistence_homology` at one position of a long sequence
-/

namespace Permaviss

open Finset

attribute [-instance] instMulZeroClassOfSemiring

section

variable {α : Type} [LinearOrder α] [Zero α] {rnd : α → α} {p : ℕ} {D : List Mat} {Base : List (Basis α)}

/-- What one step writes. -/
theorem mphStep_frame {st st' : MPH α} {d : ℕ} (h : mphStep rnd p D Base st d = .ok st') :
    (∃ H, st'.hom = st.hom.set d (some H)) ∧ ∃ I, st'.im = st.im.set (d - 1) (some I) := by
  unfold mphStep at h
  split at h
  · split at h
    · cases h; exact ⟨⟨_, rfl⟩, _, rfl⟩
    · split at h
      · cases h; exact ⟨⟨_, rfl⟩, _, rfl⟩
      · split at h
        · cases h
        · rw [bind_ok] at h
          obtain ⟨o, -, h⟩ := h
          split at h
          · rw [bind_ok] at h
            obtain ⟨q, -, h⟩ := h
            cases h; exact ⟨⟨_, rfl⟩, _, rfl⟩
          · cases h
  · cases h

theorem mphZero_frame {st out : MPH α} (h : mphZero rnd p Base st = .ok out) :
    (∃ H, out.hom = st.hom.set 0 (some H)) ∧ out.im = st.im := by
  unfold mphZero at h
  split at h
  · split at h
    · cases h; exact ⟨⟨_, rfl⟩, rfl⟩
    · rw [bind_ok] at h
      obtain ⟨o, -, h⟩ := h
      rw [bind_ok] at h
      obtain ⟨⟨o, o'⟩, -, h⟩ := h
      dsimp only at h
      rw [bind_ok] at h
      obtain ⟨q, -, h⟩ := h
      cases h; exact ⟨⟨_, rfl⟩, rfl⟩
  · cases h

/-- The steps `n, n - 1, …` leave the entries above alone. -/
theorem mph_low (n : ℕ) : ∀ st st', (downTo n).foldlM (mphStep rnd p D Base) st = .ok st' →
    st'.hom.length = st.hom.length ∧ st'.im.length = st.im.length ∧
      (∀ i, n < i → st'.hom[i]? = st.hom[i]?) ∧ ∀ i, n ≤ i → st'.im[i]? = st.im[i]? := by
  induction n with
  | zero =>
    intro st st' h
    cases h
    exact ⟨rfl, rfl, fun _ _ => rfl, fun _ _ => rfl⟩
  | succ n ih =>
    intro st st' h
    rw [downTo_succ, List.foldlM_cons, bind_ok] at h
    obtain ⟨s1, h1, h2⟩ := h
    obtain ⟨⟨H, e1⟩, I, e2⟩ := mphStep_frame h1
    obtain ⟨l1, l2, l3, l4⟩ := ih s1 st' h2
    refine ⟨by rw [l1, e1, List.length_set], by rw [l2, e2, List.length_set], fun i hi => ?_, fun i hi => ?_⟩
    · rw [l3 i (by omega), e1, List.getElem?_set_ne (by omega)]
    · rw [l4 i (by omega), e2, List.getElem?_set_ne (by omega)]

/-- The step at `n + 1`, and the state before it. -/
theorem mph_split {n : ℕ} (m : ℕ) (hm : n + 1 ≤ m) (P : ℕ → MPH α → Prop)
    (hP : ∀ d s s', n + 1 ≤ d → d < m → P (d + 1) s → mphStep rnd p D Base s (d + 1) = .ok s' → P d s') :
    ∀ st st', P m st → (downTo m).foldlM (mphStep rnd p D Base) st = .ok st' →
      ∃ s1 s2, P (n + 1) s1 ∧ mphStep rnd p D Base s1 (n + 1) = .ok s2 ∧
        (downTo n).foldlM (mphStep rnd p D Base) s2 = .ok st' := by
  induction m with
  | zero => omega
  | succ m ih =>
    intro st st' hst h
    rw [downTo_succ, List.foldlM_cons, bind_ok] at h
    obtain ⟨s1, h1, h2⟩ := h
    by_cases e : m = n
    · subst e; exact ⟨st, s1, hst, h1, h2⟩
    · exact ih (by omega) (fun d s s' hd hd' => hP d s s' hd (by omega)) s1 st'
        (hP m st s1 (by omega) (by omega) hst h1) h2

/-- The beginning of `module_persistence_homology`. -/
theorem mph_open {out : MPH α} (hl : 0 < Base.length)
    (h : modulePersistenceHomology rnd p D Base = .ok out) :
    ∃ st st', st.hom.length = Base.length ∧ st.im.length = Base.length ∧
      (∃ I, st.im[Base.length - 1]? = some (some I) ∧ I.dim = 0 ∧ I.barcode = []) ∧
      (downTo (Base.length - 1)).foldlM (mphStep rnd p D Base) st = .ok st' ∧
      mphZero rnd p Base st' = .ok out := by
  unfold modulePersistenceHomology at h
  rw [List.getElem?_eq_getElem (show Base.length - 1 < Base.length by omega)] at h
  dsimp only at h
  rw [bind_ok] at h
  obtain ⟨st', h1, h2⟩ := h
  exact ⟨_, st', by simp, by simp, ⟨_, List.getElem?_set_self (by simp; omega), rfl, rfl⟩, h1, h2⟩

theorem bornSpan_basis {amb : List (α × α)} {X : Basis α} {Mt : α → Submodule (ZMod p) (ℕ → ZMod p)}
    (h : IsBasisOf p amb X Mt) {t : α} : bornSpan p amb X.barcode X.coords t t = Mt t := by
  apply le_antisymm
  · unfold bornSpan
    rw [Submodule.span_le]
    rintro _ ⟨i, ⟨b, hb, hbt⟩, rfl⟩
    by_cases hd : b.2 ≤ t
    · rw [h.dead t i b hb hd]; exact Submodule.zero_mem _
    · rw [← h.span t]
      exact Submodule.subset_span ⟨⟨i, b, hb, hbt, not_le.1 hd⟩, rfl⟩
  · rw [← h.span t, Submodule.span_le]
    rintro _ ⟨⟨i, b, hb, hbt, -⟩, rfl⟩
    exact Submodule.subset_span ⟨i, ⟨b, hb, hbt⟩, rfl⟩

/-- The homology at a position with a next module which is not zero is the quotient of the cycles by the
image before. -/
theorem mph_mid_run (h : ChainInput rnd p D Base) {n : ℕ} {A B : Basis α} (hA : Base[n + 1]? = some A)
    (hB : Base[n]? = some B) (hA0 : A.barcode ≠ []) (hB0 : B.barcode ≠ []) {out : MPH α}
    (hrun : modulePersistenceHomology rnd p D Base = .ok out) :
    ∃ Q I ker, out.hom.getD (n + 1) none = some Q ∧ out.im.getD (n + 1) none = some I ∧
      BasisIn p A.barcode ker ∧ IsBasisOf p A.barcode ker (modCycles p D Base (n + 1)) ∧
      quotient rnd p ker I A true = .ok Q ∧ (I.barcode ≠ [] → QOK rnd p ker I A) ∧
      (∀ b ∈ ker.barcode, ∃ c ∈ A.barcode ++ B.barcode, b.1 = c.1 ∨ b.1 = c.2) ∧
      Q.barcode.Pairwise (barLE rnd) ∧ (Q.brokenDiff = none ∧ Q.sorted = true) ∧
      (∀ b ∈ Q.barcode, ∃ c ∈ A.barcode ++ B.barcode, b.1 = c.1 ∨ b.1 = c.2) ∧
      ImGood p D Base (n + 1) I := by
  have hp := Fact.mk h.prime
  have mA := List.mem_of_getElem? hA
  have mB := List.mem_of_getElem? hB
  have eA := barsAt_eq hA
  have eB := barsAt_eq hB
  have hl : n + 1 < Base.length := (List.getElem?_eq_some_iff.1 hA).1
  obtain ⟨st, st', l1, l2, ⟨I0, i1, i2, i3⟩, h1, h2⟩ := mph_open (by omega) hrun
  have hst : MPHInv p D Base (Base.length - 1) st := by
    refine ⟨l1, l2, fun e he hel => by omega, fun e he hel => ?_⟩
    obtain rfl : e = Base.length - 1 := by omega
    refine ⟨I0, i1, imGood_empty i3 i2 fun t => imAt_bot_left ?_ t⟩
    unfold barsAt
    rw [List.getElem?_eq_none (by omega)]
    rfl
  obtain ⟨s1, s2, q1, q2, q3⟩ := mph_split (n := n) (Base.length - 1) (by omega)
    (fun d s => MPHInv p D Base d s) (fun d s s' hd hd' hs hstep => by
      obtain ⟨s'', e1, e2⟩ := mphStep_good h (by omega) hs
      rw [hstep] at e1
      cases e1
      exact e2) st st' hst h1
  obtain ⟨w1, w2, w3, w4⟩ := mph_low n s2 st' q3
  obtain ⟨⟨Hz, z1⟩, z2⟩ := mphZero_frame h2
  obtain ⟨I, e1, e2⟩ := q1.im (n + 1) le_rfl hl
  have dA : A.dim ≠ 0 := by rw [h.dim A mA]; exact fun e => hA0 (List.length_eq_zero_iff.1 e)
  have dB : B.dim ≠ 0 := by rw [h.dim B mB]; exact fun e => hB0 (List.length_eq_zero_iff.1 e)
  obtain ⟨F, im, ker, pre, g1, g2, g3, g4, g5⟩ := mph_ik h hA hB hA0 hB0
  unfold mphStep at q2
  rw [Nat.add_sub_cancel, hA, hB] at q2
  dsimp only at q2
  rw [if_neg dA, if_neg dB, g1] at q2
  dsimp only at q2
  rw [g2] at q2
  simp only [bind, Except.bind, e1] at q2
  cases hq : quotient rnd p ker I A true with
  | error e => rw [hq] at q2; cases q2
  | ok Q =>
    rw [hq] at q2
    cases q2
    have hsrt := quotient_sorted ((imageKernel_sorted g2).2 ker rfl) hq
    have hub := quotient_unbroken ⟨g3.unbroken, g3.sorted⟩ hq
    refine ⟨Q, I, ker, ?_, ?_, ?_⟩
    · rw [List.getD_eq_getElem?_getD, z1, List.getElem?_set_ne (by omega), w3 (n + 1) (by omega),
        List.getElem?_set_self (by rw [q1.homLen]; exact hl)]; rfl
    · rw [List.getD_eq_getElem?_getD, z2, w4 (n + 1) (by omega)]
      dsimp only
      rw [List.getElem?_set_ne (by omega), e1]; rfl
    · have hfl : A.flat = false := by
        cases e : A.flat with
        | false => rfl
        | true => exact absurd (h.flat A mA e) hA0
      have hcx := h.complex (n + 1)
      have hker : modCycles p D Base (n + 1) = kerAt p A.barcode B.barcode F := by
        have hDF : diffAt D (n + 1) = F := by
          unfold diffAt; rw [List.getD_eq_getElem?_getD, g1]; rfl
        funext t
        change kerAt p _ _ _ t = _
        rw [eA, eB, hDF]
      have hkb : ∀ b ∈ ker.barcode, ∃ c ∈ A.barcode ++ B.barcode, b.1 = c.1 ∨ b.1 = c.2 := fun b hb =>
        ker_birth h.prime g3 (hker ▸ g4) hb
      refine ⟨g3, hker ▸ g4, hq, ?_⟩
      by_cases hI0 : I.barcode = []
      · unfold quotient at hq
        rw [if_pos (by rw [e2.dim, hI0]; rfl)] at hq
        cases hq
        exact ⟨fun hne => absurd hI0 hne, hkb, hsrt, hub, hkb, e2⟩
      · have hi := e2.isIn hI0
        rw [eA] at hi
        have hround : ∀ a ∈ ker.barcode, ∀ b ∈ ker.barcode, rnd a.1 ≤ rnd b.1 → a.1 ≤ b.1 := by
          intro a ha b hb hr
          obtain ⟨x, hx, hx'⟩ := ker_birth h.prime g3 (hker ▸ g4) ha
          obtain ⟨y, hy, hy'⟩ := ker_birth h.prime g3 (hker ▸ g4) hb
          have key : ∀ z ∈ A.barcode ++ B.barcode, ∃ X ∈ Base, z ∈ X.barcode := by
            intro z hz
            rcases List.mem_append.1 hz with h | h
            · exact ⟨A, mA, h⟩
            · exact ⟨B, mB, h⟩
          obtain ⟨X, mX, hX⟩ := key x hx
          obtain ⟨Y, mY, hY⟩ := key y hy
          exact h.rounding X mX Y mY x hX y hY _ hx' _ hy' hr
        by_cases hk0 : ker.barcode = []
        · exfalso
          apply hI0
          apply e2.zero
          intro t
          rw [eq_bot_iff]
          refine (hcx t).trans ?_
          rw [← bornSpan_basis g4, hk0, bornSpan_nil]
        have hq' : QOK rnd p ker I A := {
          prime := h.prime
          flatB := hfl
          dimB := h.dim A mA
          barsB := h.bars A mA
          unbroken := h.unbroken A mA
          flatM := g3.flat
          barsM := g3.bars
          coordsM := ⟨g3.rows, g3.cols, g3.len, g3.red⟩
          birthM := g3.born
          deathM := death_of_dead g4 g3.born
          rounding := hround
          nonempty := hk0
          flatN := hi.flat
          dimN := e2.dim
          nonemptyN := hI0
          barsN := hi.bars
          coordsN := ⟨hi.rows, hi.cols, hi.len, hi.red⟩
          birthN := hi.born }
        refine ⟨fun _ => hq', hkb, hsrt, hub, fun b hb => ?_, e2⟩
        obtain ⟨a, ha, e⟩ := quotient_births hq' hq b hb
        rw [e]; exact hkb a ha

/-- The homology at a position with a next module which is not zero, when the boundaries are born before the
cycles. -/
theorem mph_mid (h : ChainInput rnd p D Base) {n : ℕ} {A B : Basis α} (hA : Base[n + 1]? = some A)
    (hB : Base[n]? = some B) (hA0 : A.barcode ≠ []) (hB0 : B.barcode ≠ [])
    (hbirth : ∀ a ∈ barsAt Base (n + 2), ∀ b ∈ A.barcode ++ B.barcode, a.1 ≤ b.1) {out : MPH α}
    (hrun : modulePersistenceHomology rnd p D Base = .ok out) :
    ∃ Q I, out.hom.getD (n + 1) none = some Q ∧ out.im.getD (n + 1) none = some I ∧
      QuotGenM p A.barcode Q (modCycles p D Base (n + 1)) (modBounds p D Base (n + 1)) ∧
      Q.barcode.Pairwise (barLE rnd) ∧ (Q.brokenDiff = none ∧ Q.sorted = true) ∧
      (∀ b ∈ Q.barcode, ∃ c ∈ A.barcode ++ B.barcode, b.1 = c.1 ∨ b.1 = c.2) ∧
      ImGood p D Base (n + 1) I := by
  have hp := Fact.mk h.prime
  have mA := List.mem_of_getElem? hA
  have mB := List.mem_of_getElem? hB
  have eA := barsAt_eq hA
  obtain ⟨Q, I, ker, o1, o2, g3, g4, hq, hok, hkb, hsrt, hub, hQb, e2⟩ := mph_mid_run h hA hB hA0 hB0 hrun
  refine ⟨Q, I, o1, o2, ?_, hsrt, hub, hQb, e2⟩
  have hg := e2.gen
  rw [eA] at hg
  have hcx := h.complex (n + 1)
  by_cases hI0 : I.barcode = []
  · unfold quotient at hq
    rw [if_pos (by rw [e2.dim, hI0]; rfl)] at hq
    cases hq
    have hbot := modBounds_empty e2 hI0
    refine ⟨g3.flat, g3.dim, g3.bars, ⟨g3.rows, g3.cols, g3.len, g3.red⟩, g3.born, ?_, ?_, ?_⟩
    · intro t i b hb hbt
      rw [← bornSpan_basis g4]
      exact Submodule.subset_span ⟨i, ⟨b, hb, hbt⟩, rfl⟩
    · intro t
      rw [g4.span t]; exact le_sup_right
    · intro t
      refine (g4.indep t).map' _ ?_
      rw [Submodule.ker_mkQ, hbot]
  · have hord : ∀ a ∈ I.barcode, ∀ b ∈ ker.barcode, a.1 ≤ b.1 := by
      intro a ha b hb
      obtain ⟨x, hx, hx'⟩ := hkb b hb
      refine e2.births b.1 (fun c hc => (hbirth c hc x hx).trans ?_) a ha
      rcases hx' with e | e
      · rw [e]
      · rw [e]
        rcases List.mem_append.1 hx with hm | hm
        · exact (h.bars A mA x hm).le
        · exact (h.bars B mB x hm).le
    obtain ⟨Q', k1, k2⟩ := quotient_mid (hok hI0) hord
    rw [hq] at k1
    cases k1
    have b1 : (fun t => bornSpan p A.barcode I.barcode I.coords t t) = modBounds p D Base (n + 1) := by
      funext t; exact bornSpan_gen hg
    have b2 : (fun t => bornSpan p A.barcode I.barcode I.coords t t ⊔
        bornSpan p A.barcode ker.barcode ker.coords t t) = modCycles p D Base (n + 1) := by
      funext t
      rw [bornSpan_gen hg, bornSpan_basis g4]
      exact sup_eq_right.2 (hcx t)
    rw [b1, b2] at k2
    exact k2

/-- The generators of the homology at a position with a next module which is not zero, at the radii where all
boundaries are born. -/
theorem mph_late (h : ChainInput rnd p D Base) {n : ℕ} {A B : Basis α} (hA : Base[n + 1]? = some A)
    (hB : Base[n]? = some B) (hA0 : A.barcode ≠ []) (hB0 : B.barcode ≠ []) {out : MPH α}
    (hrun : modulePersistenceHomology rnd p D Base = .ok out) :
    ∃ Q, out.hom.getD (n + 1) none = some Q ∧ ∀ t, (∀ a ∈ barsAt Base (n + 2), a.1 ≤ t) →
      QuotBasisAt p A.barcode Q (modCycles p D Base (n + 1) t) (modBounds p D Base (n + 1) t) t := by
  have hp := Fact.mk h.prime
  have eA := barsAt_eq hA
  obtain ⟨Q, I, ker, o1, o2, g3, g4, hq, hok, -, -, -, -, e2⟩ := mph_mid_run h hA hB hA0 hB0 hrun
  refine ⟨Q, o1, fun t ht => ?_⟩
  have hg := e2.gen
  rw [eA] at hg
  by_cases hI0 : I.barcode = []
  · unfold quotient at hq
    rw [if_pos (by rw [e2.dim, hI0]; rfl)] at hq
    cases hq
    have hbot := modBounds_empty e2 hI0
    refine ⟨fun i hi => ?_, ?_, ?_⟩
    · rw [← g4.span t]
      exact Submodule.subset_span ⟨⟨i, hi⟩, rfl⟩
    · rw [g4.span t]; exact le_sup_right
    · refine (g4.indep t).map' _ ?_
      rw [Submodule.ker_mkQ, hbot]
  · obtain ⟨Q', k1, -, -, -, -, k2⟩ := quotient_late (hok hI0)
    rw [hq] at k1
    cases k1
    obtain ⟨k3, k4, k5⟩ := k2 t (e2.births t ht)
    rw [bornSpan_gen hg] at k3 k4 k5
    rw [bornSpan_basis g4] at k3 k4
    refine ⟨?_, k4, k5⟩
    rintro i ⟨b, hb, hbt, -⟩
    have := k3 i b hb hbt
    rwa [sup_eq_right.2 (h.complex (n + 1) t)] at this

/-- The homology at the first position of a complex. -/
theorem mph_first (h : ChainInput rnd p D Base) {A B : Basis α} (hA : Base[1]? = some A)
    (hB : Base[0]? = some B) (hB0 : B.barcode ≠ []) (hs : B.sorted = false ∨ B.barcode.Pairwise (barLE rnd)) {out : MPH α}
    (hrun : modulePersistenceHomology rnd p D Base = .ok out) :
    ∃ Q I, out.hom.getD 0 none = some Q ∧ out.im.getD 0 none = some I ∧
      QuotGen p B.barcode Q (modBounds p D Base 0) ∧ Q.barcode.Pairwise (barLE rnd) ∧
      (Q.brokenDiff = none ∧ Q.sorted = true) ∧ (∀ b ∈ Q.barcode, ∃ a ∈ B.barcode, b.1 = a.1) ∧
      ImGood p D Base 0 I := by
  have mA := List.mem_of_getElem? hA
  have mB := List.mem_of_getElem? hB
  have hl : 1 < Base.length := (List.getElem?_eq_some_iff.1 hA).1
  obtain ⟨st, st', l1, l2, -, h1, h2⟩ := mph_open (by omega) hrun
  obtain ⟨s1, s2, ⟨q0, q1⟩, q2, q3⟩ := mph_split (n := 0) (Base.length - 1) (by omega)
    (fun _ s => s.hom.length = Base.length ∧ s.im.length = Base.length) (fun d s s' _ _ hs hstep => by
      obtain ⟨⟨H, e1⟩, I, e2⟩ := mphStep_frame hstep
      exact ⟨by rw [e1, List.length_set, hs.1], by rw [e2, List.length_set, hs.2]⟩) st st' ⟨l1, l2⟩ h1
  have e3 : s2 = st' := by cases q3; rfl
  rw [← e3] at h2
  have dA : A.dim = 0 ↔ A.barcode = [] := by rw [h.dim A mA, List.length_eq_zero_iff]
  have dB : ¬ B.dim = 0 := by rw [h.dim B mB, List.length_eq_zero_iff]; exact hB0
  have hstep : s2.hom.length = Base.length ∧ ∃ I, s2.im[0]? = some (some I) ∧ ImGood p D Base 0 I := by
    unfold mphStep at q2
    rw [hA, show 0 + 1 - 1 = 0 from rfl, hB] at q2
    dsimp only at q2
    by_cases hA0 : A.dim = 0
    · rw [if_pos hA0] at q2
      cases q2
      refine ⟨by rw [List.length_set, q0], emptyBasis B, ?_, ?_⟩
      · exact List.getElem?_set_self (by rw [q1]; omega)
      · exact imGood_empty rfl rfl fun t => imAt_bot_left (by rw [barsAt_eq hA]; exact dA.1 hA0) t
    · rw [if_neg hA0, if_neg dB] at q2
      obtain ⟨F, im, ker, pre, e1, e2, e3, e4, e5⟩ := mph_ik h hA hB (fun e => hA0 (dA.2 e)) hB0
      rw [e1] at q2
      dsimp only at q2
      rw [e2] at q2
      simp only [bind, Except.bind] at q2
      split at q2
      · next he _ =>
        split at q2
        · cases q2
        · cases q2
          exact ⟨by rw [List.length_set, q0], im, List.getElem?_set_self (by rw [q1]; omega), e5⟩
      · cases q2
  obtain ⟨hl', I, i1, i2⟩ := hstep
  obtain ⟨o1, Q, o2, o3, o4, o5, o6⟩ := mphZero_gen h hB hB0 hs i1 i2 h2
  refine ⟨Q, I, ?_, ?_, o3, o4, o5, o6, i2⟩
  · rw [o2, List.getD_eq_getElem?_getD, List.getElem?_set_self (by rw [hl']; omega)]; rfl
  · rw [o1, List.getD_eq_getElem?_getD, i1]; rfl

/-- The homology of a sequence of two modules with any map that respects births, at the first one. -/
theorem mph_pair (hp : p.Prime) {A B : Basis α} {F F0 : Mat} (hB0 : B.barcode ≠ [])
    (hdim : B.dim = B.barcode.length) (hfl : B.flat = false) (hbars : ∀ b ∈ B.barcode, b.1 < b.2)
    (hbr : B.brokenDiff = none) (hsrt : B.barcode.Pairwise (barLE rnd))
    (hround : ∀ a ∈ B.barcode, ∀ b ∈ B.barcode, rnd a.1 ≤ rnd b.1 → a.1 ≤ b.1)
    (hA : A.dim = A.barcode.length) (hF : A.barcode ≠ [] → HalfInput rnd p A B F) {out : MPH α}
    (hrun : modulePersistenceHomology rnd p [F0, F] [B, A] = .ok out) :
    ∃ Q I, out.hom.getD 0 none = some Q ∧ out.im.getD 0 none = some I ∧ I.dim = I.barcode.length ∧
      (I.barcode ≠ [] → BasisIn p B.barcode I) ∧
      (∀ t, bornSpan p B.barcode I.barcode I.coords t t = bornSpan p B.barcode A.barcode F t t) ∧
      QuotGen p B.barcode Q (fun t => bornSpan p B.barcode A.barcode F t t) ∧
      Q.barcode.Pairwise (barLE rnd) ∧ (Q.brokenDiff = none ∧ Q.sorted = true) ∧
      ∀ b ∈ Q.barcode, ∃ a ∈ B.barcode, b.1 = a.1 := by
  obtain ⟨st, st', l1, l2, ⟨J, j1, j2, j3⟩, h1, h2⟩ := mph_open (by simp) hrun
  rw [show ([B, A] : List (Basis α)).length - 1 = 1 from rfl] at h1 j1
  rw [show downTo 1 = [1] from rfl, List.foldlM_cons, bind_ok] at h1
  obtain ⟨s1, h1, h1'⟩ := h1
  obtain rfl : s1 = st' := by cases h1'; rfl
  have dB : ¬ B.dim = 0 := by rw [hdim, List.length_eq_zero_iff]; exact hB0
  have hstep : s1.hom.length = 2 ∧ ∃ I, s1.im[0]? = some (some I) ∧ I.dim = I.barcode.length ∧
      (I.barcode ≠ [] → BasisIn p B.barcode I) ∧
      ∀ t, bornSpan p B.barcode I.barcode I.coords t t = bornSpan p B.barcode A.barcode F t t := by
    unfold mphStep at h1
    simp only [List.getElem?_cons_succ, List.getElem?_cons_zero, show 1 - 1 = 0 from rfl] at h1
    by_cases hA0 : A.dim = 0
    · rw [if_pos hA0] at h1
      cases h1
      refine ⟨by rw [List.length_set, l1]; rfl, emptyBasis B, ?_, rfl, fun h => absurd rfl h, fun t => ?_⟩
      · exact List.getElem?_set_self (by rw [l2]; simp)
      · rw [hA, List.length_eq_zero_iff] at hA0
        rw [hA0, show (emptyBasis B).barcode = [] from rfl, bornSpan_nil, bornSpan_nil]
    · rw [if_neg hA0, if_neg dB] at h1
      rw [bind_ok] at h1
      obtain ⟨o, e1, h1⟩ := h1
      obtain ⟨f1, f2, -⟩ := imageKernel_half (hF (by rintro e; rw [hA, e] at hA0; exact hA0 rfl)) e1
      split at h1
      · rw [bind_ok] at h1
        obtain ⟨q, -, h1⟩ := h1
        cases h1
        exact ⟨by rw [List.length_set, l1]; rfl, o.im, List.getElem?_set_self (by rw [l2]; simp), f1.dim,
          fun _ => f1, f2⟩
      · cases h1
  obtain ⟨hl', I, i1, i2, i3, i4⟩ := hstep
  obtain ⟨o1, Q, o2, o3, o4, o5, o6⟩ := mphZero_quot hp (B := B) rfl hB0 hdim hfl hbars hbr hround (Or.inr hsrt) i1
    i2 i3 h2
  simp only [i4] at o3
  refine ⟨Q, I, ?_, ?_, i2, i3, i4, o3, o4, o5, o6⟩
  · rw [o2, List.getD_eq_getElem?_getD, List.getElem?_set_self (by rw [hl']; omega)]; rfl
  · rw [o1, List.getD_eq_getElem?_getD, i1]; rfl

end

end Permaviss
