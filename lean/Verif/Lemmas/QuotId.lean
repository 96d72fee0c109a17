import Verif.Lemmas.IKRelMain
import Verif.Lemmas.Cech
import Verif.Lemmas.Quot

/-!
# `quotient` of the whole module

When `M` is the whole ambient module, with the generators of the ambient basis, the generators that
`quotient` returns vanish in the quotient from the end of their bars on.
-/

namespace Permaviss

open Finset

variable {α : Type} [LinearOrder α]

/-- If the pivot of a column is not among the earlier ones nothing happens. -/
theorem pivotCheckReduce_keep {p m n : ℕ} {active : List ℕ} {col : ℕ} {pivPrev : List Int} {M : Mat}
    {T : Option Mat} (hM : MatOK p m n M) (hp : 0 < p) (hs : active.Pairwise (· < ·)) {r : ℕ}
    (hr : IsPivOn (· ∈ active) (zv p (M.col col)) r) (hn : (r : Int) ∉ pivPrev) :
    pivotCheckReduce p M active col pivPrev T = .ok (M, T, r) := by
  unfold pivotCheckReduce pcrLoop
  rw [pcr_red hM hp]
  cases hk : indexPivot (active.map fun r => (M.col col).getD r 0) with
  | none => exact absurd (pcr_none (hM.col_red col) hp hk r hr.1) hr.2.1
  | some k =>
    obtain ⟨hkl, hra, hpiv⟩ := pcr_pivot (hM.col_red col) hp hs hk
    have e : active.getD k 0 = r := by
      rcases lt_trichotomy (active.getD k 0) r with h | h | h
      · exact absurd (hpiv.2.2 r h hr.1) hr.2.1
      · exact h
      · exact absurd (hr.2.2 _ h hra) hpiv.2.1
    dsimp only
    rw [e]
    have hf : pivPrev.findIdx? (· == (r : Int)) = none := by
      rw [List.findIdx?_eq_none_iff]
      intro x hx
      simp only [beq_eq_false_iff_ne, ne_eq]
      rintro rfl
      exact hn hx
    rw [hf]

/-- The last active entry of a vector in the span of vectors with different last active entries is
the last active entry of one of them. -/
theorem piv_of_span {K : Type*} [Field K] {S : ℕ → Prop} {U : Finset ℕ} (v : ℕ → ℕ → K) (π : ℕ → ℕ)
    (hπ : ∀ j ∈ U, IsPivOn S (v j) (π j)) (hinj : ∀ j ∈ U, ∀ j' ∈ U, π j = π j' → j = j')
    {x : ℕ → K} {r : ℕ} (hx : IsPivOn S x r)
    (hmem : restr S x ∈ Submodule.span K (Set.range fun j : U => restr S (v j))) :
    ∃ j ∈ U, π j = r := by
  classical
  by_contra hno
  push Not at hno
  rw [Submodule.mem_span_range_iff_exists_fun] at hmem
  obtain ⟨g, hg⟩ := hmem
  have hgr : ∀ i, S i → ∑ j : U, g j * v j i = x i := by
    intro i hi
    have := congrFun hg i
    rw [restr_apply_pos hi, Finset.sum_apply] at this
    rw [← this]
    refine Finset.sum_congr rfl fun j _ => ?_
    rw [Pi.smul_apply, restr_apply_pos hi, smul_eq_mul]
  by_cases he : (Finset.univ.filter fun j : U => g j ≠ 0).Nonempty
  · obtain ⟨m, hm, hmax⟩ := Finset.exists_max_image _ (fun j : U => π j.1) he
    have hgm : g m ≠ 0 := (Finset.mem_filter.1 hm).2
    obtain ⟨h1, h2, h3⟩ := hπ m m.2
    have hzero : ∀ j : U, j ≠ m → g j * v j (π m) = 0 := by
      intro j hj
      by_cases hgj : g j = 0
      · rw [hgj, zero_mul]
      · have hle := hmax j (Finset.mem_filter.2 ⟨Finset.mem_univ _, hgj⟩)
        have hne : π j.1 ≠ π m.1 := fun e => hj (Subtype.ext (hinj j j.2 m m.2 e))
        rw [(hπ j j.2).2.2 (π m) (lt_of_le_of_ne hle hne) h1, mul_zero]
    have hval : x (π m) = g m * v m (π m) := by
      rw [← hgr _ h1]
      exact Finset.sum_eq_single m (fun j _ hj => hzero j hj)
        (fun h => absurd (Finset.mem_univ _) h)
    have hge : r ≥ π m := by
      by_contra hlt
      have := hx.2.2 (π m) (by omega) h1
      rw [hval] at this
      exact (mul_ne_zero hgm h2) this
    rcases Nat.lt_or_ge (π m) r with hlt | hle
    · apply hx.2.1
      rw [← hgr r hx.1]
      refine Finset.sum_eq_zero fun j _ => ?_
      by_cases hgj : g j = 0
      · rw [hgj, zero_mul]
      · have hle := hmax j (Finset.mem_filter.2 ⟨Finset.mem_univ _, hgj⟩)
        rw [(hπ j j.2).2.2 r (lt_of_le_of_lt hle hlt) hx.1, mul_zero]
    · exact hno m m.2 (by omega)
  · apply hx.2.1
    rw [← hgr r hx.1]
    refine Finset.sum_eq_zero fun j _ => ?_
    by_contra hne
    exact he ⟨j, Finset.mem_filter.2 ⟨Finset.mem_univ _, left_ne_zero_of_mul hne⟩⟩

/-- The columns from `start` on are the unit vectors. -/
structure IdOK (E : IKEnv α) : Prop where
  dim : E.A.dim = E.start + E.B.dim
  f : ∀ i, i < E.B.dim → E.f (E.start + i) = Pi.single i 1
  bar : ∀ i, i < E.B.dim → E.A.barcode[E.start + i]? = E.B.barcode[i]?

/-- The span of the first columns at `t`. -/
noncomputable def NSp (E : IKEnv α) [Fact E.p.Prime] (t : α) : Submodule (ZMod E.p) (ℕ → ZMod E.p) :=
  spn (ZMod E.p) (fun j => E.rB (· ≤ t) (E.f j)) (BornBy (· ≤ t) E.A.barcode) E.start

/-- What the loop keeps when the last columns are the unit vectors. -/
structure IdInv (E : IKEnv α) [Fact E.p.Prime] (st : IK α) : Prop where
  keep : ∀ i, i < E.B.dim → st.piv (E.start + i) ≠ -1 →
    E.V st (E.start + i) = Pi.single i 1 ∧ E.Tc st (E.start + i) = Pi.single (E.start + i) 1
  low : ∀ k, k < E.start → ∀ l, E.start ≤ l → E.Tc st k l = 0
  dead : ∀ i, i < E.B.dim → st.piv (E.start + i) = -1 →
    (E.V st (E.start + i) i = 1 ∧ ∀ l, i < l → E.V st (E.start + i) l = 0) ∧
    ∀ e, st.imDeath[E.start + i]? = some e → ∀ t, e ≤ t →
      E.rB (· ≤ t) (E.V st (E.start + i)) ∈ NSp E t

variable {E : IKEnv α} [Fact E.p.Prime] {rad : α}

theorem NSp_mono (hE : RelOK E) {t : α} (h : rad ≤ t) {x : ℕ → ZMod E.p} (hx : x ∈ NSp E rad) :
    E.rB (· ≤ t) x ∈ NSp E t := by
  have h1 : E.rB (· ≤ t) x ∈ (NSp E rad).map (E.rB (· ≤ t)) := ⟨x, hx, rfl⟩
  unfold NSp at h1
  rw [spn_map] at h1
  refine (spn_le fun j hj hb => ?_) h1
  rw [rB_le (fun y hy => le_trans hy h) (hE.f_born (down_le rad) hb)]
  obtain ⟨b, h2, h3⟩ := hb
  exact mem_spn (x := fun j => E.rB (· ≤ t) (E.f j)) hj ⟨b, h2, h3.trans h⟩

theorem zv_mulAt_all (hE : RelOK E) {w : List Int} (hw : w.length ≤ E.A.dim) :
    zv E.p (mulAt E.p E.F (List.range E.F.ncols) w) =
      ∑ k ∈ range E.A.dim, zv E.p w k • E.f k := by
  funext r
  have hn : E.F.ncols = E.A.dim := hE.F.ncols
  rw [Finset.sum_apply]
  by_cases hr : r < E.F.nrows
  · have e : zv E.p (mulAt E.p E.F (List.range E.F.ncols) w) r =
        (((List.range E.F.ncols).map fun k => E.F.get r k * w.getD k 0).sum : Int) := by
      unfold mulAt zv
      rw [getD_map_lt (by simpa using hr)]
      simp [ZMod.intCast_mod]
    rw [e, hn]
    rw [show ((List.range E.A.dim).map fun k => E.F.get r k * w.getD k 0).sum =
      ∑ k ∈ range E.A.dim, E.F.get r k * w.getD k 0 from rfl]
    push_cast
    refine Finset.sum_congr rfl fun k _ => ?_
    rw [Pi.smul_apply, smul_eq_mul, mul_comm]
    rfl
  · rw [zv_of_le _ (by rw [mulAt_len]; omega)]
    symm
    refine Finset.sum_eq_zero fun k hk => ?_
    have : E.f k r = 0 := zv_of_le _ (by rw [hE.F.col_len (mem_range.1 hk), ← hE.F.rows]; omega)
    rw [Pi.smul_apply, this, smul_zero]

theorem zv_strip (s : ℕ) (v : List Int) (k : ℕ) :
    zv E.p (overwriteAt (List.range s) v []) k = if k < s then 0 else zv E.p v k := by
  unfold overwriteAt zv
  by_cases hk : k < v.length
  · rw [getD_map_lt (by simpa using hk)]
    simp only [List.getElem_range, List.mem_range]
    split_ifs <;> simp
  · rw [getD_eq_zero_of_le _ (by simpa using hk), getD_eq_zero_of_le _ (by simpa using hk)]
    simp

theorem IdInv.kill (hE : RelOK E) (hI : IdOK E) {st : IK α} {c : ℕ}
    (hc : RCore E (· < rad) (· ≤ rad) 0 st)
    (hcd : ∃ b, E.A.barcode[c]? = some b ∧ b.2 = rad) (h : IdInv E st) :
    IdInv E (relKill E.start rad st c) := by
  unfold relKill
  split_ifs with hif
  swap
  · exact h
  obtain ⟨b, hb, hbr⟩ := hcd
  have hcn : c < E.A.dim := hE.lenA ▸ (List.getElem?_eq_some_iff.1 hb).1
  have hpiv : ∀ j, IK.piv { st with imDeath := st.imDeath.set c rad, pivIm := st.pivIm.set c (-1) } j
      = if j = c then -1 else st.piv j := fun j =>
    getD_set _ _ _ _ _ (by rw [hc.pivIm]; exact hcn)
  have hp1 : st.piv c ≠ -1 := by
    unfold IK.piv
    intro e
    apply hif.2
    rw [List_getD_eq_getElem _ _ (by rw [hc.pivIm]; exact hcn)] at e ⊢
    exact e
  refine ⟨?_, h.low, ?_⟩
  · intro i hi hne
    rw [hpiv] at hne
    split_ifs at hne
    · exact absurd rfl hne
    · exact h.keep i hi hne
  · intro i hi he
    rw [hpiv] at he
    by_cases hic : E.start + i = c
    · have hV := (h.keep i hi (hic ▸ hp1)).1
      have hV' : E.V { st with imDeath := st.imDeath.set c rad, pivIm := st.pivIm.set c (-1) }
        (E.start + i) = Pi.single i 1 := hV
      rw [hV']
      refine ⟨⟨by simp, fun l hl => by simp [Nat.ne_of_gt hl]⟩, ?_⟩
      intro e hee t het
      change (st.imDeath.set c rad)[E.start + i]? = some e at hee
      rw [hic, List.getElem?_set, if_pos rfl, if_pos (by rw [hc.imDeath]; exact hcn),
        Option.some.injEq] at hee
      have hz : E.rB (· ≤ t) (Pi.single i (1 : ZMod E.p)) = 0 := by
        unfold IKEnv.rB
        apply restr_single_neg
        rintro ⟨b', h1, h2, h3⟩
        rw [← hI.bar i hi, hic, hb] at h1
        cases h1
        exact h3 (by rw [hbr, hee]; exact het)
      rw [hz]; exact Submodule.zero_mem _
    · rw [if_neg hic] at he
      obtain ⟨h1, h2⟩ := h.dead i hi he
      refine ⟨h1, ?_⟩
      intro e hee
      change (st.imDeath.set c rad)[E.start + i]? = some e at hee
      rw [List.getElem?_set, if_neg (fun e => hic e.symm)] at hee
      exact h2 e hee

/-- The unit vector of a row owned by an earlier column is a combination of earlier columns. -/
theorem IdOK.owned (hE : RelOK E) (hI : IdOK E) {st0 : IK α} {c : ℕ} {s : IK α × List Int}
    (h : RMid E rad st0 c s) {i k : ℕ} (hc : c = E.start + i) (hi : i < E.B.dim) (hk : k < c)
    (hki : s.1.piv k = i) :
    E.rB (· ≤ rad) (Pi.single i 1) ∈
      spn (ZMod E.p) (fun j => E.rB (· ≤ rad) (E.V s.1 j)) s.1.Has c := by
  have hal := h.core.alive k i hki
  rw [cutAt_lo hk] at hal
  have hmem : E.rB (· ≤ rad) (E.V s.1 k) ∈
      spn (ZMod E.p) (fun j => E.rB (· ≤ rad) (E.V s.1 j)) s.1.Has c :=
    mem_spn (x := fun j => E.rB (· ≤ rad) (E.V s.1 j)) hk ⟨i, hki⟩
  have hx : ∀ l, E.rB (· ≤ rad) (E.V s.1 k) l ≠ 0 → l ≤ i := by
    intro l hl
    by_contra hlt
    apply hl
    unfold IKEnv.rB
    by_cases hA : ActBy (· ≤ rad) E.B.barcode l
    · rw [restr_apply_pos hA]; exact hal.2.2 l (by omega) hA
    · rw [restr_apply_neg hA]
  have hxi : E.rB (· ≤ rad) (E.V s.1 k) i ≠ 0 := by
    unfold IKEnv.rB
    rw [restr_apply_pos hal.1]; exact hal.2.1
  refine unit_mem_span (S := ActBy (· ≤ rad) E.B.barcode) (L := E.rB (· ≤ rad))
    (n := E.B.dim) (fun l hl => hE.lenB ▸ hl.lt) (fun l hl => restr_single_neg l hl) hxi hx ?_ ?_
  · unfold IKEnv.rB at hmem ⊢
    rw [restr_restr]; exact hmem
  · intro l hl hA
    rw [h.core.pre c, ← hI.f l (by omega)]
    refine mem_spn (x := fun j => E.rB (· ≤ rad) (E.f j)) (by omega) ?_
    rw [cutAt_lo (by omega)]
    obtain ⟨b, h1, h2, -⟩ := hA
    exact ⟨b, by rw [hI.bar l (by omega)]; exact h1, h2⟩

theorem IdInv.step (hE : RelOK E) (hI : IdOK E) {aA aB dA bA dB : List ℕ} {st0 : IK α} {c : ℕ}
    {s s' : IK α × List Int} (hL : Lists E rad aA aB dA bA dB) (h : RMid E rad st0 c s)
    (hcn : c < E.A.dim) (hst0 : st0.pivIm.length = E.A.dim)
    (hs : imStep E rad aB dA bA dB st0.pivIm s c = .ok s') (hj : IdInv E s.1) : IdInv E s'.1 := by
  classical
  have hc := h.core
  have hrc : s.1.piv c = st0.piv c := h.un c le_rfl
  have hold : st0.pivIm.getD c 0 = st0.piv c := by
    unfold IK.piv
    have : c < st0.pivIm.length := by omega
    rw [List_getD_eq_getElem _ _ this, List_getD_eq_getElem _ _ this]
  unfold imStep at hs
  rw [hold] at hs
  by_cases ht : ((decide (0 ≤ st0.piv c) &&
        decide ((s.1.im.col c).getD (st0.piv c).toNat 0 % (E.p : Int) = 0)) ||
      dB.any (fun d => (d : Int) == st0.piv c) || s.2.contains (st0.piv c) ||
      bA.contains c) = true
  swap
  · rw [if_neg ht, Except.ok.injEq] at hs
    exact hs ▸ hj
  rw [if_pos ht] at hs
  have hpc : s.1.piv c ≠ -1 := by
    rw [Bool.or_eq_true, Bool.or_eq_true, Bool.or_eq_true, Bool.and_eq_true] at ht
    rcases ht with ((⟨h1, -⟩ | h1) | h1) | h1
    · have h1 : 0 ≤ st0.piv c := by simpa using h1
      omega
    · rw [List.any_eq_true] at h1
      obtain ⟨d, -, h3⟩ := h1
      have : (d : Int) = st0.piv c := by simpa using h3
      omega
    · have h1 : st0.piv c ∈ s.2 := by simpa using h1
      obtain ⟨i, h2, -⟩ := h.N _ h1
      omega
    · have hb := (hL.mbA c).1 (by simpa using h1)
      have := (hc.unborn c hcn).2 (by rw [cutAt_hi le_rfl]; exact not_born_of_birth hb)
      omega
  obtain ⟨M, T, q, a, h1, h2⟩ := h.reduce hE hL hcn
  have h1' := h1
  rw [h1] at hs
  dsimp only at hs
  simp only [Option.getD_some] at hs
  have hpl : c < s.1.pivIm.length := by rw [hc.pivIm]; exact hcn
  have hlow : ∀ l, E.start ≤ l → c < E.start → zv E.p (T.col c) l = 0 := by
    intro l hl hcs
    rw [h2.eqT, Pi.add_apply, Finset.sum_apply, hj.low c hcs l hl, zero_add]
    refine Finset.sum_eq_zero fun k hk => ?_
    rw [Pi.smul_apply, hj.low k (by have := mem_range.1 hk; omega) l hl, smul_zero]
  by_cases hq : q = -1
  · -- the column dies
    subst hq
    rw [if_neg (by simp)] at hs
    unfold imDie at hs
    rw [if_neg (by rw [hE.full]; simp), if_pos hE.start] at hs
    dsimp only at hs
    rw [Except.ok.injEq] at hs
    subst hs
    dsimp only
    set S1 : IK α := { s.1 with
      im := M, T := T, pivIm := s.1.pivIm.set c (-1), imDeath := s.1.imDeath.set c rad } with hS1
    set w := overwriteAt (List.range E.start) (T.col c) [] with hw
    have hpiv : ∀ j, IK.piv (stripPrev E c S1) j = if j = c then -1 else s.1.piv j := fun j =>
      getD_set _ _ _ _ _ hpl
    have hV : ∀ j, j ≠ c → E.V (stripPrev E c S1) j = E.V s.1 j := by
      intro j hjc
      unfold IKEnv.V
      simp only [stripPrev, Mat.col_setCol]
      rw [if_neg (fun e => hjc e.1.symm), h2.otherM j hjc]
    have hT : ∀ j, j ≠ c → E.Tc (stripPrev E c S1) j = E.Tc s.1 j := by
      intro j hjc
      unfold IKEnv.Tc
      simp only [stripPrev, Mat.col_setCol]
      rw [if_neg (fun e => hjc e.1.symm), h2.otherT j hjc]
    have hVc : E.V (stripPrev E c S1) c =
        zv E.p (mulAt E.p E.F (List.range E.F.ncols) w) := by
      unfold IKEnv.V
      simp only [stripPrev, Mat.col_setCol]
      rw [if_pos ⟨trivial, by rw [h2.okM.ncols]; exact hcn⟩]
    have hTc : E.Tc (stripPrev E c S1) c = zv E.p w := by
      unfold IKEnv.Tc
      simp only [stripPrev, Mat.col_setCol]
      rw [if_pos ⟨trivial, by rw [h2.okT.ncols]; exact hcn⟩]
    have hD : (stripPrev E c S1).imDeath = s.1.imDeath.set c rad := rfl
    refine ⟨?_, ?_, ?_⟩
    · intro i hi hne
      rw [hpiv] at hne
      split_ifs at hne with hic
      · exact absurd rfl hne
      · rw [hV _ hic, hT _ hic]; exact hj.keep i hi hne
    · intro k hk l hl
      by_cases hkc : k = c
      · subst hkc
        rw [hTc, hw, zv_strip, if_neg (by omega)]
        exact hlow l hl hk
      · rw [hT k hkc]; exact hj.low k hk l hl
    · intro i hi he
      rw [hpiv] at he
      by_cases hic : E.start + i = c
      swap
      · rw [if_neg hic] at he
        rw [hV _ hic, hD]
        obtain ⟨h3, h4⟩ := hj.dead i hi he
        refine ⟨h3, fun e hee => h4 e ?_⟩
        rwa [List.getElem?_set, if_neg (fun e => hic e.symm)] at hee
      subst hic
      rw [hVc, hD, zv_mulAt_all hE (by rw [hw, overwriteAt_len, h2.okT.col_len hcn])]
      obtain ⟨kV, kT⟩ := hj.keep i hi hpc
      -- the value of the stripped column
      have hwk : ∀ k, zv E.p w k = if k < E.start then 0 else
          (Pi.single (E.start + i) 1 : ℕ → ZMod E.p) k + if k < E.start + i then a k else 0 := by
        intro k
        rw [hw, zv_strip]
        by_cases hks : k < E.start
        · rw [if_pos hks, if_pos hks]
        rw [if_neg hks, if_neg hks, h2.eqT, kT, Pi.add_apply, Finset.sum_apply]
        congr 1
        have hterm : ∀ l ∈ range (E.start + i), (a l • E.Tc s.1 l) k = if l = k then a k else 0 := by
          intro l hl
          rw [Pi.smul_apply]
          by_cases hal : a l = 0
          · rw [hal, zero_smul]
            split_ifs with e
            · rw [← e, hal]
            · rfl
          by_cases hls : l < E.start
          · rw [hj.low l hls k (by omega), smul_zero, if_neg (by omega)]
          · obtain ⟨l', rfl⟩ : ∃ l', l = E.start + l' := ⟨l - E.start, by omega⟩
            have hl' := mem_range.1 hl
            obtain ⟨-, r, hr⟩ := h2.supp _ hal
            rw [(hj.keep l' (by omega) (by omega)).2]
            split_ifs with e
            · rw [e, Pi.single_eq_same, smul_eq_mul, mul_one]
            · rw [Pi.single_eq_of_ne (fun h => e h.symm), smul_zero]
        rw [Finset.sum_congr rfl hterm, Finset.sum_ite_eq']
        simp only [mem_range]
      have hval : ∑ k ∈ range E.A.dim, zv E.p w k • E.f k =
          Pi.single i 1 + ∑ l ∈ range i, a (E.start + l) • (Pi.single l 1 : ℕ → ZMod E.p) := by
        have e1 : range E.A.dim = range (E.start + E.B.dim) := by rw [hI.dim]
        rw [e1, Finset.sum_range_add]
        have z1 : ∑ x ∈ range E.start, zv E.p w x • E.f x = 0 :=
          Finset.sum_eq_zero fun x hx => by
            rw [hwk, if_pos (mem_range.1 hx), zero_smul]
        rw [z1, zero_add]
        have z2 : ∀ l ∈ range E.B.dim, zv E.p w (E.start + l) • E.f (E.start + l) =
            (if l = i then (Pi.single i 1 : ℕ → ZMod E.p) else 0) +
              if l < i then a (E.start + l) • (Pi.single l 1 : ℕ → ZMod E.p) else 0 := by
          intro l hl
          rw [hwk, if_neg (by omega), hI.f l (mem_range.1 hl), add_smul]
          congr 1
          · split_ifs with e
            · rw [e, Pi.single_eq_same, one_smul]
            · rw [Pi.single_eq_of_ne (by omega), zero_smul]
          · by_cases hli : l < i
            · rw [if_pos (by omega), if_pos hli]
            · rw [if_neg (by omega), if_neg hli, zero_smul]
        rw [Finset.sum_congr rfl z2, Finset.sum_add_distrib]
        congr 1
        · rw [Finset.sum_ite_eq', if_pos (mem_range.2 hi)]
        · rw [← Finset.sum_filter]
          congr 1
          ext l
          simp only [Finset.mem_filter, mem_range]
          omega
      -- the reduced column
      have hred : zv E.p (M.col (E.start + i)) =
          (Pi.single i 1 + ∑ l ∈ range i, a (E.start + l) • (Pi.single l 1 : ℕ → ZMod E.p)) +
            ∑ k ∈ range E.start, a k • E.V s.1 k := by
        rw [h2.eq, kV, Finset.sum_range_add]
        have z2 : ∀ l ∈ range i, a (E.start + l) • E.V s.1 (E.start + l) =
            a (E.start + l) • (Pi.single l 1 : ℕ → ZMod E.p) := by
          intro l hl
          by_cases hal : a (E.start + l) = 0
          · rw [hal, zero_smul, zero_smul]
          · obtain ⟨-, r, hr⟩ := h2.supp _ hal
            have := mem_range.1 hl
            rw [(hj.keep l (by omega) (by omega)).1]
        rw [Finset.sum_congr rfl z2]
        abel
      rw [hval]
      set x : ℕ → ZMod E.p := Pi.single i 1 +
        ∑ l ∈ range i, a (E.start + l) • (Pi.single l 1 : ℕ → ZMod E.p) with hx
      have hxv : ∀ m, i ≤ m → x m = if m = i then 1 else 0 := by
        intro m hm
        rw [hx, Pi.add_apply, Finset.sum_apply]
        have : ∑ l ∈ range i, (a (E.start + l) • (Pi.single l 1 : ℕ → ZMod E.p)) m = 0 :=
          Finset.sum_eq_zero fun l hl => by
            have := mem_range.1 hl
            rw [Pi.smul_apply, Pi.single_eq_of_ne (by omega), smul_zero]
        rw [this, add_zero]
        split_ifs with e
        · rw [e, Pi.single_eq_same]
        · rw [Pi.single_eq_of_ne e]
      refine ⟨⟨by rw [hxv i le_rfl, if_pos rfl], fun l hl => by
        rw [hxv l hl.le, if_neg (by omega)]⟩, ?_⟩
      intro e hee t het
      rw [List.getElem?_set, if_pos rfl, if_pos (by rw [hc.imDeath]; exact hcn),
        Option.some.injEq] at hee
      subst hee
      -- born in time
      have hxb : ∀ l, x l ≠ 0 → BornBy (· ≤ rad) E.B.barcode l := by
        have hst : E.start < E.A.dim := by omega
        have hcb : BornBy (· ≤ rad) E.A.barcode (E.start + i) := by
          by_contra hnb
          have hm2 := (hc.unborn _ hcn).2 (by rw [cutAt_hi le_rfl]; exact fun h => hnb h.le)
          rw [Bool.or_eq_true, Bool.or_eq_true, Bool.or_eq_true, Bool.and_eq_true] at ht
          rcases ht with ((⟨h3, -⟩ | h3) | h3) | h3
          · have h3 : 0 ≤ st0.piv (E.start + i) := by simpa using h3
            omega
          · rw [List.any_eq_true] at h3
            obtain ⟨d, -, h4⟩ := h3
            have : (d : Int) = st0.piv (E.start + i) := by simpa using h4
            omega
          · have h3 : st0.piv (E.start + i) ∈ s.2 := by simpa using h3
            obtain ⟨i', h4, -⟩ := h.N _ h3
            omega
          · exact hnb (born_le_iff.2 (Or.inr ((hL.mbA _).1 (by simpa using h3))))
        intro l hl
        have hli : l ≤ i := by
          by_contra hlt
          apply hl
          rw [hxv l (by omega), if_neg (by omega)]
        have key : BornBy (· ≤ rad) E.A.barcode (E.start + l) := by
          rcases lt_or_eq_of_le hli with hlt | rfl
          · have hal : a (E.start + l) ≠ 0 := by
              intro hal
              apply hl
              rw [hx, Pi.add_apply, Finset.sum_apply, Pi.single_eq_of_ne (by omega), zero_add]
              refine Finset.sum_eq_zero fun m hm => ?_
              rw [Pi.smul_apply]
              by_cases hml : m = l
              · rw [hml, hal, zero_smul]
              · rw [Pi.single_eq_of_ne (fun e => hml e.symm), smul_zero]
            obtain ⟨-, hH⟩ := h2.supp _ hal
            by_contra hnb
            have := (hc.unborn (E.start + l) (by omega)).2 (by rw [cutAt_lo (by omega)]; exact hnb)
            obtain ⟨r, hr⟩ := hH
            omega
          · exact hcb
        obtain ⟨b, hb1, hb2⟩ := key
        exact ⟨b, by rw [← hI.bar l (by omega)]; exact hb1, hb2⟩
      rw [← rB_le (E := E) (P0 := (· ≤ rad)) (P1 := (· ≤ t)) (fun y hy => le_trans hy het) hxb]
      apply NSp_mono hE het
      have hz : E.rB (· ≤ rad) (zv E.p (M.col (E.start + i))) = 0 := by
        unfold IKEnv.rB
        rw [restr_eq_zero]
        rcases h2.res with ⟨-, h3⟩ | ⟨r', h3, -⟩
        · exact h3
        · omega
      rw [hred, map_add] at hz
      rw [eq_neg_of_add_eq_zero_left hz]
      refine Submodule.neg_mem _ ?_
      have hN : NSp E rad = spn (ZMod E.p) (fun j => E.rB (· ≤ rad) (E.V s.1 j)) s.1.Has E.start := by
        rw [hc.pre E.start]
        refine spn_congr (fun j hj => ?_) fun _ _ _ => rfl
        rw [cutAt_lo (by omega)]
      rw [hN, map_sum]
      refine Submodule.sum_mem _ fun k hk => ?_
      rw [map_smul]
      by_cases hak : a k = 0
      · rw [hak, zero_smul]; exact Submodule.zero_mem _
      · exact Submodule.smul_mem _ _ (mem_spn (x := fun j => E.rB (· ≤ rad) (E.V s.1 j))
          (mem_range.1 hk) (h2.supp k hak).2)
  · -- the column stays alive
    rw [if_pos hq, Except.ok.injEq] at hs
    subst hs
    dsimp only
    have hpiv : ∀ j, IK.piv { s.1 with im := M, T := T, pivIm := s.1.pivIm.set c q } j =
        if j = c then q else s.1.piv j := fun j => getD_set _ _ _ _ _ hpl
    have hV : ∀ j, j ≠ c → E.V { s.1 with im := M, T := T, pivIm := s.1.pivIm.set c q } j =
        E.V s.1 j := fun j hjc => congrArg (zv E.p) (h2.otherM j hjc)
    have hT : ∀ j, j ≠ c → E.Tc { s.1 with im := M, T := T, pivIm := s.1.pivIm.set c q } j =
        E.Tc s.1 j := fun j hjc => congrArg (zv E.p) (h2.otherT j hjc)
    refine ⟨?_, ?_, ?_⟩
    · intro i hi hne
      by_cases hic : E.start + i = c
      swap
      · rw [hpiv, if_neg hic] at hne
        rw [hV _ hic, hT _ hic]; exact hj.keep i hi hne
      subst hic
      obtain ⟨kV, kT⟩ := hj.keep i hi hpc
      have hact : ActBy (· ≤ rad) E.B.barcode i := by
        by_contra hna
        have := pivotCheckReduce_triv (pivPrev := s.1.pivIm.take (E.start + i)) (T := some s.1.T)
          hc.im hE.hp.pos (active := aB) (col := E.start + i) (by
            intro r hr
            have hr' := (hL.mB r).1 hr
            have e : zv E.p (s.1.im.col (E.start + i)) = Pi.single i 1 := kV
            rw [e, Pi.single_eq_of_ne (by rintro rfl; exact hna hr')])
        rw [this] at h1'
        simp only [Except.ok.injEq, Prod.mk.injEq] at h1'
        exact hq h1'.2.2.symm
      have hpv : IsPivOn (· ∈ aB) (zv E.p (s.1.im.col (E.start + i))) i := by
        have e : zv E.p (s.1.im.col (E.start + i)) = Pi.single i 1 := kV
        rw [e]
        exact ⟨(hL.mB i).2 hact, by simp, fun l hl _ => by simp [Nat.ne_of_gt hl]⟩
      have hno : (i : Int) ∉ s.1.pivIm.take (E.start + i) := by
        intro hmem
        obtain ⟨k, hk, hk'⟩ := List.getElem_of_mem hmem
        have hkc : k < E.start + i := by
          rw [List.length_take] at hk; omega
        have hki : s.1.piv k = i := by
          unfold IK.piv
          rw [List_getD_eq_getElem _ _ (by rw [List.length_take] at hk; omega)]
          rw [List.getElem_take] at hk'
          exact hk'
        have hin := hI.owned hE h rfl hi hkc hki
        obtain ⟨r', hq', hr', hr''⟩ := h2.res.resolve_left (fun h => hq h.1)
        set U := (range (E.start + i)).filter fun j => s.1.Has j with hU
        have hUm : ∀ j, j ∈ U ↔ j < E.start + i ∧ s.1.Has j := by
          intro j; rw [hU, Finset.mem_filter, mem_range]
        have hsp : spn (ZMod E.p) (fun j => E.rB (· ≤ rad) (E.V s.1 j)) s.1.Has (E.start + i) =
            Submodule.span (ZMod E.p) (Set.range fun j : U =>
              restr (ActBy (· ≤ rad) E.B.barcode) (E.V s.1 j)) := by
          unfold spn
          congr 1
          ext y
          constructor
          · rintro ⟨j, hj, rfl⟩; exact ⟨⟨j, (hUm j).2 hj⟩, rfl⟩
          · rintro ⟨⟨j, hj⟩, rfl⟩; exact ⟨j, (hUm j).1 hj, rfl⟩
        obtain ⟨j, hjU, hjr⟩ := piv_of_span (S := ActBy (· ≤ rad) E.B.barcode) (U := U)
          (fun j => E.V s.1 j) (fun j => (s.1.piv j).toNat) (by
            intro j hj
            obtain ⟨hjc, r, hr⟩ := (hUm j).1 hj
            have := hc.alive j r hr
            rw [cutAt_lo hjc] at this
            simpa only [hr, Int.toNat_natCast] using this) (by
            intro j hj j' hj' hee
            obtain ⟨hjc, r, hr⟩ := (hUm j).1 hj
            obtain ⟨hjc', r2, hr2⟩ := (hUm j').1 hj'
            have : r = r2 := by simpa [hr, hr2] using hee
            subst this
            exact hc.injLo j j' hjc hjc' r hr hr2) hr' (by
            rw [← hsp]
            change E.rB (· ≤ rad) _ ∈ _
            rw [h2.eq, map_add, kV]
            refine Submodule.add_mem _ hin ?_
            rw [map_sum]
            refine Submodule.sum_mem _ fun k hk => ?_
            rw [map_smul]
            by_cases hak : a k = 0
            · rw [hak, zero_smul]; exact Submodule.zero_mem _
            · exact Submodule.smul_mem _ _ (mem_spn (x := fun j => E.rB (· ≤ rad) (E.V s.1 j))
                (mem_range.1 hk) (h2.supp k hak).2))
        obtain ⟨hjc, r, hr⟩ := (hUm j).1 hjU
        simp only [hr, Int.toNat_natCast] at hjr
        exact hr'' j hjc (by rw [hr, hjr])
      have hkeep := pivotCheckReduce_keep (T := some s.1.T) hc.im hE.hp.pos hL.sB hpv hno
      rw [hkeep] at h1'
      simp only [Except.ok.injEq, Prod.mk.injEq, Option.some.injEq] at h1'
      obtain ⟨rfl, rfl, -⟩ := h1'
      exact ⟨kV, kT⟩
    · intro k hk l hl
      by_cases hkc : k = c
      · subst hkc
        exact hlow l hl hk
      · rw [hT k hkc]; exact hj.low k hk l hl
    · intro i hi he
      rw [hpiv] at he
      by_cases hic : E.start + i = c
      · rw [if_pos hic] at he
        exact absurd he hq
      · rw [if_neg hic] at he
        rw [hV _ hic]
        exact hj.dead i hi he

theorem idInv_kept (hE : RelOK E) (hI : IdOK E) : Kept E (IdInv E) :=
  ⟨fun _ _ _ hc hcd h => h.kill hE hI hc hcd,
    fun _ _ _ _ _ _ _ _ _ _ hL h hcn hst0 hs hj => hj.step hE hI hL h hcn hst0 hs⟩

theorem idInv_init [Zero α] (hI : IdOK E) : IdInv E E.init := by
  have hpiv : ∀ j, (E.init).piv j = -2 := by
    intro j
    simp only [IK.piv, IKEnv.init, List.getD_eq_getElem?_getD, List.getElem?_replicate]
    split <;> simp
  have hT : ∀ k, k < E.A.dim → E.Tc E.init k = Pi.single k 1 := by
    intro k hk
    have hk' : k < (identityCols E.A.dim).length := by rw [length_identityCols]; exact hk
    rw [← zv_identityCols (p := E.p) hk']
    unfold IKEnv.Tc Mat.col
    simp only [IKEnv.init]
    rw [List_getD_eq_getElem _ _ hk']
  refine ⟨?_, ?_, ?_⟩
  · intro i hi _
    exact ⟨hI.f i hi, hT _ (by rw [hI.dim]; omega)⟩
  · intro k hk l hl
    rw [hT k (by rw [hI.dim]; omega), Pi.single_eq_of_ne (by omega)]
  · intro i _ h
    rw [hpiv] at h; omega

/-- Sorting sorted bars changes nothing. -/
theorem sortOrder_sorted {rnd : α → α} {bars : List (α × α)} (h : bars.Pairwise (barLE rnd)) :
    sortOrder rnd bars = List.range bars.length := by
  unfold sortOrder
  have h1 : (bars.zip (List.range bars.length)).Pairwise fun a b => barLE rnd a.1 b.1 := by
    rw [← List.pairwise_map (f := Prod.fst) (R := barLE rnd), List.map_fst_zip (by simp)]
    exact h
  rw [h1.insertionSort_eq, List.map_snd_zip (by simp)]

/-- Sorted bars are sorted. -/
theorem gather_sortOrder (rnd : α → α) (bars : List (α × α)) :
    (gather bars (sortOrder rnd bars)).Pairwise (barLE rnd) := by
  have hlt : ∀ i ∈ sortOrder rnd bars, i < bars.length := fun i hi =>
    List.mem_range.1 ((sortOrder_perm rnd bars).mem_iff.1 hi)
  have hst := List.pairwise_iff_getElem.1 (sortOrder_stable rnd bars)
  have hget : ∀ i (h : i < (gather bars (sortOrder rnd bars)).length),
      ∃ h' : i < (sortOrder rnd bars).length,
        bars[(sortOrder rnd bars)[i]]? = some (gather bars (sortOrder rnd bars))[i] := by
    intro i h
    have h' : i < (sortOrder rnd bars).length := by rwa [length_gather hlt] at h
    refine ⟨h', ?_⟩
    have := gather_getElem? (l := bars) hlt i
    rw [List.getElem?_eq_getElem h', List.getElem?_eq_getElem h] at this
    exact this.symm
  refine List.pairwise_iff_getElem.2 fun i j hi hj hij => ?_
  obtain ⟨hi', ei⟩ := hget i hi
  obtain ⟨hj', ej⟩ := hget j hj
  exact (hst i j hi' hj' hij _ _ ei ej).1

/-- `X` is a basis of the quotient of the module with bars `amb` by `Nt`: the generators exist from
their birth on, vanish in the quotient from the end of their bars on, and those alive form a basis of
the quotient. -/
structure QuotGen (p : ℕ) (amb : List (α × α)) (X : Basis α)
    (Nt : α → Submodule (ZMod p) (ℕ → ZMod p)) : Prop where
  flat : X.flat = false
  dim : X.dim = X.barcode.length
  bars : ∀ b ∈ X.barcode, b.1 < b.2
  mat : MatOK p amb.length X.barcode.length X.coords
  born : BornInTime p amb X
  dead : ∀ t i b, X.barcode[i]? = some b → b.2 ≤ t → barRestr p amb t (X.coords.zcol p i) ∈ Nt t
  span : ∀ t, barModule p amb t ≤ Nt t ⊔ Submodule.span (ZMod p)
    (Set.range fun i : {i // AliveBar X.barcode i t} => barRestr p amb t (X.coords.zcol p i))
  indep : ∀ t, LinearIndependent (ZMod p)
    fun i : {i // AliveBar X.barcode i t} => (Nt t).mkQ (barRestr p amb t (X.coords.zcol p i))

theorem indep_mkQ_of_card {K V ι : Type*} [Field K] [AddCommGroup V] [Module K V] [Fintype ι]
    (N : Submodule K V) [FiniteDimensional K N] (v : ι → V)
    (h : Fintype.card ι + Module.finrank K N ≤
      Module.finrank K ↥(N ⊔ Submodule.span K (Set.range v))) :
    LinearIndependent K fun i => N.mkQ (v i) := by
  have hfs : FiniteDimensional K (Submodule.span K (Set.range v)) :=
    FiniteDimensional.span_of_finite _ (Set.finite_range _)
  rw [linearIndependent_iff_card_le_finrank_span]
  have e : Submodule.span K (Set.range fun i => N.mkQ (v i)) =
      (Submodule.span K (Set.range v)).map N.mkQ := by
    rw [Submodule.map_span, ← Set.range_comp]; rfl
  unfold Set.finrank
  rw [e]
  have := finrank_map_mkQ N (Submodule.span K (Set.range v))
  omega

theorem QRun.idOK [Zero α] {rnd : α → α} {p : ℕ} {M N amb A B : Basis α} {F : Mat} {st : IK α}
    {Q : Basis α} {σ τ : Equiv.Perm ℕ} {oA oB retA retB idx : List ℕ}
    (h : QRun rnd p M N amb A B F st Q σ τ oA oB retA retB idx) (hs : amb.sorted = false ∨ amb.barcode.Pairwise (barLE rnd))
    (hb : M.barcode = gather amb.barcode (sortOrder rnd amb.barcode))
    (hc : M.coords.cols = gather (identityCols amb.barcode.length) (sortOrder rnd amb.barcode)) :
    IdOK (⟨p, A, B, F, N.barcode.length⟩ : IKEnv α) := by
  have hoB := h.ordB
  have hoBe : oB = sortOrder rnd amb.barcode := by
    rcases hs with hs | hs
    · exact h.oB_eq.2 hs
    · cases e : amb.sorted with
      | false => exact h.oB_eq.2 e
      | true => rw [h.oB_eq.1 e, sortOrder_sorted hs]
  rw [hoBe] at hoB
  have hl : M.barcode.length = amb.barcode.length := by
    rw [hb, hoB.gather_len rfl]
  have hoA : oA = List.range M.barcode.length := by
    rw [h.oA_eq]
    exact sortOrder_sorted (by rw [hb]; exact gather_sortOrder rnd _)
  have hτ : ∀ i, i < amb.barcode.length → τ i = i := by
    intro i hi
    have := h.ordA.get i (by omega)
    rw [hoA, List.getElem?_range (by omega), Option.some.injEq] at this
    exact this.symm
  have hid : ∀ i j, i < amb.barcode.length → M.coords.z p j i =
      (Pi.single (σ i) 1 : ℕ → ZMod p) j := by
    intro i j hi
    have hsi : σ i < (identityCols amb.barcode.length).length := by
      rw [length_identityCols]; exact (hoB.lt i).2 hi
    have e : M.coords.col i = (identityCols amb.barcode.length)[σ i] := by
      unfold Mat.col
      rw [hc, List.getD_eq_getElem?_getD, hoB.gather_get (length_identityCols _),
        List.getElem?_eq_getElem hsi]
      rfl
    change zv p (M.coords.col i) j = _
    rw [e, zv_identityCols]
  refine ⟨?_, ?_, ?_⟩
  · change A.dim = _ + B.dim
    rw [h.dimA, h.dimB, hl]
  · intro i hi
    change i < B.dim at hi
    rw [h.dimB] at hi
    funext j
    have := h.zM j i (by omega)
    rw [hτ i hi, hid i _ hi] at this
    refine (show _ = F.z p j (N.barcode.length + i) from rfl).trans (this.trans ?_)
    simp only [Pi.single_apply, EmbeddingLike.apply_eq_iff_eq]
  · intro i hi
    change i < B.dim at hi
    rw [h.dimB] at hi
    change A.barcode[_]? = B.barcode[i]?
    change A.barcode[N.barcode.length + i]? = B.barcode[i]?
    rw [h.barA, List.getElem?_append_right (by omega), Nat.add_sub_cancel_left,
      h.ordA.gather_get rfl, hτ i hi, hb, hoB.gather_get rfl, h.reB i]

theorem quotient_full [Zero α] {rnd : α → α} {p : ℕ} {M N amb : Basis α}
    (h : QOK rnd p M N amb) (hs : amb.sorted = false ∨ amb.barcode.Pairwise (barLE rnd))
    (hb : M.barcode = gather amb.barcode (sortOrder rnd amb.barcode))
    (hc : M.coords.cols = gather (identityCols amb.barcode.length) (sortOrder rnd amb.barcode)) :
    ∃ Q, quotient rnd p M N amb true = .ok Q ∧
      QuotGen p amb.barcode Q fun t => bornSpan p amb.barcode N.barcode N.coords t t := by
  classical
  have := Fact.mk h.prime
  obtain ⟨Q, hQ, hout, A, B, F, st, σ, τ, oA, oB, retA, retB, idx, hr⟩ := quotient_run h
  refine ⟨Q, hQ, ?_⟩
  have hI := hr.idOK hs hb hc
  set s0 := N.barcode.length with hs0
  set m := amb.barcode.length with hm
  let E : IKEnv α := ⟨p, A, B, F, s0⟩
  have hE : RelOK E := hr.rel
  have hF : Fact E.p.Prime := this
  obtain ⟨st', e1, hfin, hinv⟩ := ikLoop_kept hE (idInv_kept hE hI) (idInv_init hI)
  have e2 : ikLoop E E.radii E.init = .ok st := hr.loop
  rw [e2, Except.ok.injEq] at e1
  subst e1
  have hEB : E.B.dim = m := hr.dimB
  have hEA : E.A.dim = s0 + m := hI.dim.trans (by rw [hEB])
  have hDl : st.imDeath.length = s0 + m := hfin.imDeath.trans hEA
  have hAl : A.barcode.length = s0 + m := hE.lenA.symm.trans hEA
  have hrawget : ∀ (i : ℕ) (b : α × α), (rawBars A st s0)[i]? = some b ↔
      ∃ a, B.barcode[i]? = some a ∧ st.imDeath[s0 + i]? = some b.2 ∧ b.1 = a.1 := by
    intro i b
    unfold rawBars
    rw [List.getElem?_drop, List.getElem?_zip_eq_some, List.getElem?_map]
    by_cases hi : i < m
    · have e : A.barcode[s0 + i]? = B.barcode[i]? := hI.bar i (by rw [hEB]; exact hi)
      rw [e]
      constructor
      · rintro ⟨h1, h2⟩
        obtain ⟨a, ha, e⟩ := Option.map_eq_some_iff.1 h1
        exact ⟨a, ha, h2, e.symm⟩
      · rintro ⟨a, ha, h2, e⟩
        exact ⟨by rw [ha, e]; rfl, h2⟩
    · rw [List.getElem?_eq_none (l := st.imDeath) (by omega)]
      simp
  -- the generators
  have hVd : ∀ i, i < m → (E.V st (s0 + i) i = 1 ∧ ∀ l, i < l → E.V st (s0 + i) l = 0) ∧
      ∀ e, st.imDeath[s0 + i]? = some e → ∀ t, e ≤ t →
        E.rB (· ≤ t) (E.V st (s0 + i)) ∈ NSp E t := fun i hi =>
    hinv.dead i (by rw [hEB]; exact hi) (hfin.dead _ (by rw [hEA]; change s0 + i < _; omega))
  have hidx : ∀ k ∈ idx, k < m := by
    intro k hk
    have := hr.picks.lt k hk
    unfold rawBars at this
    rw [List.length_drop, List.length_zip, List.length_map] at this
    omega
  have hcl : ((st.im.gatherRows retB).cols.drop s0).length = m := by
    have := hfin.im.ncols
    unfold Mat.ncols at this
    simp [Mat.gatherRows, this, hEA]
  have hQlen : Q.barcode.length = idx.length := by
    rw [hr.bars, length_gather hr.picks.lt]
  have hcolQ : ∀ j k, idx[j]? = some k → Q.coords.zcol p j = reName σ (E.V st (s0 + k)) := by
    intro j k hjk
    have hk := hidx k (List.mem_of_getElem? hjk)
    have e : Q.coords.col j = (st.im.cols.map fun c => gather c retB).getD (s0 + k) [] := by
      unfold Mat.col
      rw [hr.coords]
      dsimp only
      rw [List.getD_eq_getElem?_getD, gather_getElem? (fun i hi => by rw [hcl]; exact hidx i hi), hjk]
      simp only [Option.bind_some, List.getElem?_drop]
      rw [List.getD_eq_getElem?_getD]
      rfl
    change zv p (Q.coords.col j) = _
    rw [e]
    exact zv_gatherRows hfin.im (by rw [hEB]; exact hr.ordB) (by rw [hEA]; omega)
  have hrB : ∀ t x, barRestr p amb.barcode t (reName σ x) = reName σ (E.rB (· ≤ t) x) := by
    intro t x
    rw [hr.reB.restr, barRestr_eq]; rfl
  have hN : ∀ t, bornSpan p amb.barcode N.barcode N.coords t t =
      (NSp E t).map (reName σ).toLinearMap := by
    intro t
    unfold NSp
    rw [spn_map]
    have hAN : ∀ j, j < s0 → A.barcode[j]? = N.barcode[j]? := by
      intro j hj
      rw [hr.barA, List.getElem?_append_left hj]
    have hren : ∀ j, j < s0 → barRestr p amb.barcode t (N.coords.zcol p j) =
        reName σ (E.rB (· ≤ t) (E.f j)) := by
      intro j hj
      have e : N.coords.zcol p j = reName σ (E.f j) := by
        funext i
        rw [reName_apply]
        have := hr.zN (σ.symm i) j hj
        rw [Equiv.apply_symm_apply] at this
        exact this.symm
      rw [e, hrB]
    apply le_antisymm
    · refine Submodule.span_le.2 ?_
      rintro x ⟨j, hb, rfl⟩
      have hj : j < s0 := hb.lt
      rw [hren j hj]
      obtain ⟨b, h1, h2⟩ := hb
      exact mem_spn (x := fun j => (reName σ).toLinearMap (E.rB (· ≤ t) (E.f j))) hj
        ⟨b, by rw [hAN j hj]; exact h1, h2⟩
    · refine spn_le fun j hj hb => ?_
      obtain ⟨b, h1, h2⟩ := hb
      change A.barcode[j]? = some b at h1
      rw [hAN j hj] at h1
      exact Submodule.subset_span ⟨j, ⟨b, h1, h2⟩, (hren j hj).symm⟩
  have hQget : ∀ j : ℕ, Q.barcode[j]? = (idx[j]?).bind (fun k : ℕ => (rawBars A st s0)[k]?) := by
    intro j
    rw [hr.bars, gather_getElem? hr.picks.lt j]
  have hBsort : B.barcode.Pairwise fun a b => a.1 ≤ b.1 := by
    have e : B.barcode = gather M.barcode oA := by
      apply List.ext_getElem?
      intro i
      by_cases hi : i < m
      · have e := hI.bar i (by rw [hEB]; exact hi)
        change A.barcode[s0 + i]? = B.barcode[i]? at e
        rw [← e, hr.barA, List.getElem?_append_right (by omega), Nat.add_sub_cancel_left]
      · have l1 : B.barcode.length = m := hE.lenB.symm.trans hEB
        have l2 : (gather M.barcode oA).length = m := by
          have := hAl
          rw [hr.barA, List.length_append] at this
          omega
        rw [List.getElem?_eq_none (by omega), List.getElem?_eq_none (by omega)]
    rw [e]; exact hr.sortedA
  have hnd : idx.Nodup := hr.picks.nodup
  -- spanning
  have hspan : ∀ t, barModule p amb.barcode t ≤
      bornSpan p amb.barcode N.barcode N.coords t t ⊔ Submodule.span (ZMod p)
        (Set.range fun i : {i // AliveBar Q.barcode i t} =>
          barRestr p amb.barcode t (Q.coords.zcol p i)) := by
    intro t
    set W := bornSpan p amb.barcode N.barcode N.coords t t ⊔ Submodule.span (ZMod p)
        (Set.range fun i : {i // AliveBar Q.barcode i t} =>
          barRestr p amb.barcode t (Q.coords.zcol p i)) with hW
    have key : ∀ i, i < m → reName σ (E.rB (· ≤ t) (Pi.single i 1)) ∈ W := by
      intro i
      induction i using Nat.strong_induction_on with
      | _ i ih =>
        intro hi
        by_cases hact : ActBy (· ≤ t) B.barcode i
        swap
        · have : E.rB (· ≤ t) (Pi.single i (1 : ZMod p)) = 0 := restr_single_neg i hact
          rw [this, map_zero]; exact Submodule.zero_mem _
        obtain ⟨⟨hV1, hV2⟩, hV3⟩ := hVd i hi
        have hd : s0 + i < st.imDeath.length := by omega
        have hmem : reName σ (E.rB (· ≤ t) (E.V st (s0 + i))) ∈ W := by
          rcases le_or_gt (st.imDeath[s0 + i]) t with hle | hlt
          · refine Submodule.mem_sup_left ?_
            rw [hN t]
            exact ⟨_, hV3 _ (List.getElem?_eq_getElem hd) t hle, rfl⟩
          · obtain ⟨a, ha, hat, -⟩ := hact
            have hraw : (rawBars A st s0)[i]? = some (a.1, st.imDeath[s0 + i]) :=
              (hrawget i _).2 ⟨a, ha, List.getElem?_eq_getElem hd, rfl⟩
            have hii : i ∈ idx := (hr.picks.mem i).2 ⟨_, hraw, lt_of_le_of_lt hat hlt⟩
            obtain ⟨j, hj, hji⟩ := List.getElem_of_mem hii
            have hj' : idx[j]? = some i := by rw [List.getElem?_eq_getElem hj, hji]
            refine Submodule.mem_sup_right (Submodule.subset_span ?_)
            refine ⟨⟨j, (a.1, st.imDeath[s0 + i]), ?_, hat, hlt⟩, ?_⟩
            · rw [hQget, hj']; exact hraw
            · dsimp only
              rw [hcolQ j i hj', hrB]
        have e : Pi.single i 1 = E.V st (s0 + i) -
            ∑ l ∈ range i, E.V st (s0 + i) l • (Pi.single l 1 : ℕ → ZMod p) := by
          have h1 := eq_sum_single (x := E.V st (s0 + i)) (n := i + 1) (fun l hl => by
            by_contra hlt
            exact hl (hV2 l (by omega)))
          rw [Finset.sum_range_succ, hV1, one_smul] at h1
          rw [eq_sub_iff_add_eq', ← h1]
        rw [e, map_sub, map_sub, map_sum, map_sum]
        refine Submodule.sub_mem _ hmem (Submodule.sum_mem _ fun l hl => ?_)
        rw [map_smul, map_smul]
        have := mem_range.1 hl
        exact Submodule.smul_mem _ _ (ih l this (by omega))
    rintro x ⟨y, rfl⟩
    have ey : y = reName σ ((reName σ).symm y) := by simp
    rw [ey, hrB]
    set z := (reName σ).symm y
    have e3 : E.rB (· ≤ t) z = ∑ l ∈ range m, E.rB (· ≤ t) z l • (Pi.single l 1 : ℕ → ZMod p) := by
      apply eq_sum_single
      intro l hl
      by_contra hlt
      apply hl
      apply restr_apply_neg
      intro hA
      have := hA.lt
      have l1 : B.barcode.length = m := hE.lenB.symm.trans hEB
      change l < B.barcode.length at this
      omega
    have e4 : E.rB (· ≤ t) z = E.rB (· ≤ t) (E.rB (· ≤ t) z) := by
      unfold IKEnv.rB; rw [restr_restr]
    rw [e4, e3, map_sum, map_sum]
    refine Submodule.sum_mem _ fun l hl => ?_
    rw [map_smul, map_smul]
    exact Submodule.smul_mem _ _ (key l (mem_range.1 hl))
  have hborn : BornInTime p amb.barcode Q := by
    intro r i a b ha hb' hne
    rw [hQget] at ha
    obtain ⟨k, hk, hk'⟩ := Option.bind_eq_some_iff.1 ha
    have hkm := hidx k (List.mem_of_getElem? hk)
    have hz : Q.coords.z p r i = E.V st (s0 + k) (σ.symm r) := congrFun (hcolQ i k hk) r
    rw [hz] at hne
    have hle : σ.symm r ≤ k := by
      by_contra hlt
      exact hne ((hVd k hkm).1.2 _ (by omega))
    obtain ⟨a', ha', -, e⟩ := (hrawget k a).1 hk'
    have hb2 : B.barcode[σ.symm r]? = some b := by
      rw [hr.reB, Equiv.apply_symm_apply]; exact hb'
    rw [e]
    rcases lt_or_eq_of_le hle with hlt | heq
    · obtain ⟨l1, e1⟩ := List.getElem?_eq_some_iff.1 hb2
      obtain ⟨l2, e2⟩ := List.getElem?_eq_some_iff.1 ha'
      rw [← e1, ← e2]
      exact List.pairwise_iff_getElem.1 hBsort _ _ l1 l2 hlt
    · rw [heq, ha', Option.some.injEq] at hb2
      rw [hb2]
  refine ⟨hout.flat, hout.dim, hout.bars, ?_, hborn, ?_, hspan, ?_⟩
  · have hmem : ∀ c ∈ Q.coords.cols, ∃ c' ∈ st.im.cols, c = gather c' retB := by
      intro c hc
      rw [hr.coords] at hc
      simp only [gather, List.mem_filterMap] at hc
      obtain ⟨i, -, hi⟩ := hc
      have := List.mem_of_mem_drop (List.mem_of_getElem? hi)
      simp only [Mat.gatherRows, List.mem_map] at this
      obtain ⟨c', h1, h2⟩ := this
      exact ⟨c', h1, h2.symm⟩
    refine ⟨by rw [hr.coords], hout.ncols, ?_, ?_⟩
    · intro c hc
      obtain ⟨c', h1, rfl⟩ := hmem c hc
      exact hr.ordB.gather_rlen ((hfin.im.len c' h1).trans hEB)
    · intro c hc
      obtain ⟨c', h1, rfl⟩ := hmem c hc
      intro x hx
      simp only [gather, List.mem_filterMap] at hx
      obtain ⟨i, -, hi⟩ := hx
      exact hfin.im.red c' h1 x (List.mem_of_getElem? hi)
  · intro t i b hb' hle
    rw [hQget] at hb'
    obtain ⟨k, hk, hk'⟩ := Option.bind_eq_some_iff.1 hb'
    have hkm := hidx k (List.mem_of_getElem? hk)
    obtain ⟨a', ha', hd, e⟩ := (hrawget k b).1 hk'
    rw [hcolQ i k hk, hrB, hN t]
    exact ⟨_, (hVd k hkm).2 _ hd t hle, rfl⟩
  · intro t
    have hfinN := bornSpan_finite (p := p) (amb := amb.barcode) (bars := N.barcode) (C := N.coords)
      (s := t) (t := t)
    have hfinM := bornSpan_finite (p := p) (amb := amb.barcode) (bars := M.barcode) (C := M.coords)
      (s := t) (t := t)
    set U := (range Q.barcode.length).filter fun j =>
      ∃ b, Q.barcode[j]? = some b ∧ (decide (b.1 ≤ t) && decide (t < b.2)) = true with hU
    have hUm : ∀ j, j ∈ U ↔ AliveBar Q.barcode j t := by
      intro j
      rw [hU, Finset.mem_filter, mem_range]
      constructor
      · rintro ⟨-, b, h1, h2⟩
        rw [Bool.and_eq_true, decide_eq_true_iff, decide_eq_true_iff] at h2
        exact ⟨b, h1, h2⟩
      · rintro ⟨b, h1, h2⟩
        refine ⟨(List.getElem?_eq_some_iff.1 h1).1, b, h1, ?_⟩
        rw [Bool.and_eq_true, decide_eq_true_iff, decide_eq_true_iff]
        exact h2
    let ft : Fintype {i // AliveBar Q.barcode i t} := Fintype.subtype U hUm
    have hcard : Fintype.card {i // AliveBar Q.barcode i t} =
        Q.barcode.countP (fun b => decide (b.1 ≤ t) && decide (t < b.2)) := by
      rw [countP_range]
      refine (Fintype.subtype_card U hUm).trans ?_
      rw [hU]
      congr!
    have hcnt := hout.count t t le_rfl
    refine indep_mkQ_of_card (bornSpan p amb.barcode N.barcode N.coords t t) _ ?_
    rw [hcard, hcnt]
    have hfs : FiniteDimensional (ZMod p) (Submodule.span (ZMod p)
        (Set.range fun i : {i // AliveBar Q.barcode i t} =>
          barRestr p amb.barcode t (Q.coords.zcol p i))) :=
      FiniteDimensional.span_of_finite _ (Set.finite_range _)
    refine Submodule.finrank_mono (sup_le le_sup_left (le_trans ?_ (hspan t)))
    refine Submodule.span_le.2 ?_
    rintro x ⟨i, -, rfl⟩
    exact ⟨_, rfl⟩

end Permaviss
