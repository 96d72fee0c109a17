import Verif.Lemmas.BrokenMultiIm
import Verif.Lemmas.StripPages

/-!
# `image_kernel` for a matrix which need not be the one of a morphism

When the bars of the columns may end before their images do, `image_kernel` may raise.  If it returns,
the columns of the image born by a radius span, there, what the columns of the matrix born by that
radius span.
-/

attribute [-instance] instMulZeroClassOfSemiring

namespace Permaviss

open Finset

variable {α : Type} [LinearOrder α]

/-- What is assumed about the data of the loop. -/
structure HalfOK (E : IKEnv α) : Prop where
  hp : E.p.Prime
  lenA : E.A.dim = E.A.barcode.length
  lenB : E.B.dim = E.B.barcode.length
  flatA : E.A.flat = false
  flatB : E.B.flat = false
  mat : MatOK E.p E.B.dim E.A.dim E.F
  birth : ∀ r i a b, E.A.barcode[i]? = some a → E.B.barcode[r]? = some b → E.F.z E.p r i ≠ 0 → b.1 ≤ a.1
  sorted : ∀ (i j : ℕ) (a a' : α × α), i ≤ j → E.A.barcode[i]? = some a → E.A.barcode[j]? = some a' →
    a.1 ≤ a'.1
  full : E.full = true

/-- The span of the columns before `c`. -/
noncomputable def FSp (E : IKEnv α) [Fact E.p.Prime] (c : ℕ) : Submodule (ZMod E.p) (ℕ → ZMod E.p) :=
  spn (ZMod E.p) (fun j => E.F.zcol E.p j) (fun _ => True) c

/-- The invariant of the loop. -/
structure HalfInv (E : IKEnv α) [Fact E.p.Prime] (P : α → Prop) (st : IK α) : Prop where
  im : MatOK E.p E.B.dim E.A.dim st.im
  pivIm : st.pivIm.length = E.A.dim
  imDeath : st.imDeath.length = E.A.dim
  tri : ∀ j, j < E.A.dim → ∃ u : ZMod E.p, u ≠ 0 ∧ E.V st j - u • E.F.zcol E.p j ∈ FSp E j
  born : ∀ j, j < E.A.dim → st.piv j ≠ -2 → BornBy P E.A.barcode j
  dead : ∀ j, j < E.A.dim → st.piv j = -1 → ∀ e, st.imDeath[j]? = some e → P e ∧
    ∀ t, e ≤ t → ∀ r, ActBy (· ≤ t) E.B.barcode r → E.V st j r = 0

variable {E : IKEnv α} [Fact E.p.Prime] {rad : α} {aA aB dA bA dB : List ℕ}

theorem FSp.mono {c c' : ℕ} (h : c ≤ c') : FSp E c ≤ FSp E c' := spn_mono h fun _ _ h => h

/-- Combinations of the first columns are born with the next one. -/
theorem FSp.supp (hE : HalfOK E) {c : ℕ} {a : α × α} (ha : E.A.barcode[c]? = some a) {x : ℕ → ZMod E.p}
    (hx : x ∈ FSp E (c + 1)) {r : ℕ} {b : α × α} (hb : E.B.barcode[r]? = some b) (hne : x r ≠ 0) :
    b.1 ≤ a.1 := by
  by_contra hlt
  apply hne
  have : FSp E (c + 1) ≤ LinearMap.ker (LinearMap.proj r : (ℕ → ZMod E.p) →ₗ[ZMod E.p] ZMod E.p) := by
    refine spn_le fun j hj _ => ?_
    rw [LinearMap.mem_ker, LinearMap.proj_apply]
    by_contra h0
    have hl : j < E.A.barcode.length := by
      have := (List.getElem?_eq_some_iff.1 ha).1; omega
    have e := List.getElem?_eq_getElem hl
    exact hlt ((hE.birth r j _ b e hb h0).trans (hE.sorted j c _ a (by omega) e ha))
  have h2 := this hx
  rwa [LinearMap.mem_ker, LinearMap.proj_apply] at h2

theorem HalfInv.mem {P : α → Prop} {st : IK α} (h : HalfInv E P st) {j : ℕ} (hj : j < E.A.dim) :
    E.V st j ∈ FSp E (j + 1) := by
  obtain ⟨u, -, h2⟩ := h.tri j hj
  have h3 : u • E.F.zcol E.p j ∈ FSp E (j + 1) :=
    Submodule.smul_mem _ _ (mem_spn (x := fun j => E.F.zcol E.p j) (Nat.lt_succ_self j) trivial)
  have := Submodule.add_mem _ (FSp.mono (Nat.le_succ j) h2) h3
  rwa [sub_add_cancel] at this

/-- A column which is zero on the active rows of `rad` stays so. -/
theorem zero_later (hE : HalfOK E) {c : ℕ} {v : ℕ → ZMod E.p} (hv : v ∈ FSp E (c + 1))
    (hb : BornBy (· ≤ rad) E.A.barcode c) (hz : ∀ r, ActBy (· ≤ rad) E.B.barcode r → v r = 0) {t : α}
    (ht : rad ≤ t) : ∀ r, ActBy (· ≤ t) E.B.barcode r → v r = 0 := by
  rintro r ⟨b, hb1, hb2, hb3⟩
  by_contra hne
  obtain ⟨a, ha, har⟩ := hb
  have := FSp.supp hE ha hv hb1 hne
  exact hne (hz r ⟨b, hb1, this.trans har, fun h => hb3 (h.trans ht)⟩)

/-- Changing column `c`. -/
theorem HalfInv.set {P : α → Prop} {st st' : IK α} (hE : HalfOK E) (h : HalfInv E P st)
    (hP : ∀ x, P x → x ≤ rad) {c : ℕ} (hcn : c < E.A.dim) (hb : BornBy (· ≤ rad) E.A.barcode c)
    {v : List Int} {q : Int} (him : MatOK E.p E.B.dim E.A.dim st'.im)
    (hcol : ∀ j, j ≠ c → st'.im.col j = st.im.col j) (hcc : st'.im.col c = v)
    (hpiv : st'.pivIm = st.pivIm.set c q)
    (htri : ∃ u : ZMod E.p, u ≠ 0 ∧ zv E.p v - u • E.F.zcol E.p c ∈ FSp E c)
    (hd : (q ≠ -1 ∧ st'.imDeath = st.imDeath) ∨ (q = -1 ∧ st'.imDeath = st.imDeath.set c rad ∧
      ∀ r, ActBy (· ≤ rad) E.B.barcode r → zv E.p v r = 0)) : HalfInv E (· ≤ rad) st' := by
  have hpl : c < st.pivIm.length := by rw [h.pivIm]; exact hcn
  have hpv : ∀ j, st'.piv j = if j = c then q else st.piv j := by
    intro j
    unfold IK.piv
    rw [hpiv]
    exact getD_set _ _ _ _ _ hpl
  have hpne : ∀ j, j ≠ c → st'.piv j = st.piv j := fun j hj => by rw [hpv, if_neg hj]
  have hpcc : st'.piv c = q := by rw [hpv, if_pos rfl]
  have hVne : ∀ j, j ≠ c → E.V st' j = E.V st j := fun j hj => by
    unfold IKEnv.V; rw [hcol j hj]
  have hVc : E.V st' c = zv E.p v := by unfold IKEnv.V; rw [hcc]
  have hmem : zv E.p v ∈ FSp E (c + 1) := by
    obtain ⟨u, -, h2⟩ := htri
    have h3 : u • E.F.zcol E.p c ∈ FSp E (c + 1) :=
      Submodule.smul_mem _ _ (mem_spn (x := fun j => E.F.zcol E.p j) (Nat.lt_succ_self c) trivial)
    have := Submodule.add_mem _ (FSp.mono (Nat.le_succ c) h2) h3
    rwa [sub_add_cancel] at this
  refine ⟨him, by rw [hpiv, List.length_set, h.pivIm], ?_, ?_, ?_, ?_⟩
  · rcases hd with ⟨-, e⟩ | ⟨-, e, -⟩
    · rw [e]; exact h.imDeath
    · rw [e, List.length_set]; exact h.imDeath
  · intro j hj
    by_cases hjc : j = c
    · subst hjc; rw [hVc]; exact htri
    · rw [hVne j hjc]; exact h.tri j hj
  · intro j hj hj2
    by_cases hjc : j = c
    · subst hjc; exact hb
    · rw [hpne j hjc] at hj2
      obtain ⟨a, h1, h2⟩ := h.born j hj hj2
      exact ⟨a, h1, hP _ h2⟩
  · intro j hj hj1 e he
    by_cases hjc : j = c
    · subst hjc
      rw [hpcc] at hj1
      rcases hd with ⟨h1, -⟩ | ⟨-, h2, h3⟩
      · exact absurd hj1 h1
      · rw [h2, List.getElem?_set, if_pos rfl, if_pos (by rw [h.imDeath]; exact hj),
          Option.some.injEq] at he
        subst he
        refine ⟨le_rfl, fun t ht => ?_⟩
        rw [hVc]
        exact zero_later hE hmem hb h3 ht
    · rw [hpne j hjc] at hj1
      have he' : st.imDeath[j]? = some e := by
        rcases hd with ⟨-, h2⟩ | ⟨-, h2, -⟩
        · rwa [h2] at he
        · rwa [h2, List.getElem?_set, if_neg (fun e => hjc e.symm)] at he
      obtain ⟨h1, h2⟩ := h.dead j hj hj1 e he'
      rw [hVne j hjc]
      exact ⟨hP _ h1, h2⟩

theorem HalfInv.mono {P P' : α → Prop} {st : IK α} (h : HalfInv E P st) (hP : ∀ x, P x → P' x) :
    HalfInv E P' st := { h with
  born := fun j hj h2 => by
    obtain ⟨a, h3, h4⟩ := h.born j hj h2
    exact ⟨a, h3, hP _ h4⟩
  dead := fun j hj h2 e he => ⟨hP _ (h.dead j hj h2 e he).1, (h.dead j hj h2 e he).2⟩ }

/-- The pivot found by `pivot_check_reduce`, for any matrix. -/
theorem pcrLoop_piv {p : ℕ} (hpos : 0 < p) {active : List ℕ} {col : ℕ} {pivPrev : List Int}
    (hs : active.Pairwise (· < ·)) (fuel : ℕ) :
    ∀ (M : Mat) (T : Option Mat) M' T' q, pcrLoop p active col pivPrev fuel M T = .ok (M', T', q) →
      q = -1 ∨ ∃ r : ℕ, q = r ∧ IsPivOn (· ∈ active) (zv p (M'.col col)) r := by
  induction fuel with
  | zero => intro M T M' T' q h; simp [pcrLoop] at h
  | succ f ih =>
    intro M T M' T' q h
    rw [pcrLoop] at h
    cases hk : indexPivot (active.map fun r => (M.col col).getD r 0 % (p : Int)) with
    | none =>
      rw [hk] at h
      obtain ⟨-, h'⟩ := Prod.mk.inj (Except.ok.inj h)
      obtain ⟨-, rfl⟩ := Prod.mk.inj h'
      exact Or.inl rfl
    | some k =>
      have e : (active.map fun r => (M.col col).getD r 0 % (p : Int)) =
          active.map fun r => ((M.col col).map (· % (p : Int))).getD r 0 := by
        refine List.map_congr_left fun r _ => ?_
        rw [List.getD_eq_getElem?_getD, List.getD_eq_getElem?_getD, List.getElem?_map]
        cases (M.col col)[r]? with
        | none => simp
        | some x => simp
      have hk' := hk
      rw [e] at hk'
      have hred : RedL p ((M.col col).map (· % (p : Int))) := by
        intro x hx
        obtain ⟨y, -, rfl⟩ := List.mem_map.1 hx
        have hp' : (0 : Int) < p := by exact_mod_cast hpos
        exact ⟨Int.emod_nonneg _ hp'.ne', Int.emod_lt_of_pos _ hp'⟩
      obtain ⟨-, -, hpiv⟩ := pcr_pivot hred hpos hs hk'
      rw [zv_map_mod] at hpiv
      rw [hk] at h
      dsimp only at h
      cases hfind : pivPrev.findIdx? (· == (active.getD k 0 : Int)) with
      | none =>
        rw [hfind] at h
        obtain ⟨rfl, h'⟩ := Prod.mk.inj (Except.ok.inj h)
        obtain ⟨-, rfl⟩ := Prod.mk.inj h'
        exact Or.inr ⟨_, rfl, hpiv⟩
      | some prev =>
        rw [hfind] at h
        dsimp only at h
        cases hinv : invModP ((M.col prev).getD (active.getD k 0) 0) p with
        | error e => rw [hinv] at h; cases h
        | ok inv =>
          rw [hinv] at h
          exact ih _ _ _ _ _ h

/-- `multiply_mod_p(F[:, active], v[active])` is a combination of the active columns. -/
theorem zv_mulAt_sum (hE : HalfOK E) {idx : List ℕ} (hs : idx.Pairwise (· < ·)) (v : List Int) :
    zv E.p (mulAt E.p E.F idx v) = ∑ k ∈ idx.toFinset, zv E.p v k • E.F.zcol E.p k := by
  classical
  funext r
  have hn : idx.Nodup := hs.imp (fun h => Nat.ne_of_lt h)
  have key : (((idx.map fun k => E.F.get r k * v.getD k 0).sum : Int) : ZMod E.p) =
      ∑ k ∈ idx.toFinset, zv E.p v k * E.F.z E.p r k := by
    have h1 : (((idx.map fun k => E.F.get r k * v.getD k 0).sum : Int) : ZMod E.p) =
        (idx.map fun k => zv E.p v k * E.F.z E.p r k).sum := by
      clear hs hn
      induction idx with
      | nil => simp
      | cons a l ih =>
        simp only [List.map_cons, List.sum_cons, Int.cast_add, Int.cast_mul, ih]
        simp only [zv, Mat.z, mul_comm]
    rw [h1, ← List.sum_toFinset _ hn]
  rw [Finset.sum_apply]
  have e : ∀ k, (zv E.p v k • E.F.zcol E.p k) r = zv E.p v k * E.F.z E.p r k := fun k => rfl
  simp only [e]
  rw [← key]
  unfold mulAt
  rcases lt_or_ge r E.F.nrows with hr | hr
  · simp only [zv]
    rw [List_getD_eq_getElem _ _ (by simpa using hr)]
    simp
  · rw [zv_of_le _ (by simpa using hr), key]
    symm
    apply Finset.sum_eq_zero
    intro k _
    have : E.F.z E.p r k = 0 := by
      change zv E.p (E.F.col k) r = 0
      apply zv_of_le
      rcases lt_or_ge k E.A.dim with h1 | h1
      · rw [hE.mat.col_len h1, ← hE.mat.rows]; exact hr
      · rw [Mat.col_of_le (by rw [hE.mat.ncols]; exact h1)]; simp
    rw [this, mul_zero]

theorem HalfInv.kerHit (hE : HalfOK E) (hL : Lists E rad aA aB dA bA dB) {st st' : IK α}
    (h : HalfInv E (· ≤ rad) st) {cyc : List Int} {s : ℕ} (hs : IsPivOn (· ∈ aA) (zv E.p cyc) s)
    (hok : kerHit E rad aA aB cyc s st = .ok st') : HalfInv E (· ≤ rad) st' := by
  classical
  have hact := (hL.mA s).1 hs.1
  have hcn : s < E.A.dim := by rw [hE.lenA]; exact hact.lt
  unfold Permaviss.kerHit at hok
  by_cases hz : npAny (aB.map fun r => (mulAt E.p E.F aA cyc).getD r 0) = true
  · rw [if_pos hz] at hok; cases hok
  rw [if_neg hz] at hok
  by_cases hp : st.pivIm.getD s 0 ≠ -1
  · rw [if_pos hp] at hok
    obtain rfl := Except.ok.inj hok
    refine h.set hE (c := s) (v := mulAt E.p E.F aA cyc) (q := -1) (fun _ h => h) hcn hact.born ?_ ?_ ?_ rfl ?_ ?_
    · exact h.im.setCol s ((mulAt_len _ _ _ _).trans hE.mat.rows) (mulAt_red hE.hp.pos _ _ _)
    · intro j hj
      dsimp only
      rw [Mat.col_setCol, if_neg (fun e => hj e.1.symm)]
    · dsimp only
      rw [Mat.col_setCol, if_pos ⟨rfl, by rw [h.im.ncols]; exact hcn⟩]
    · refine ⟨zv E.p cyc s, hs.2.1, ?_⟩
      rw [zv_mulAt_sum hE hL.sA, ← Finset.sum_erase_add _ _ (List.mem_toFinset.2 hs.1), add_sub_cancel_right]
      refine Submodule.sum_mem _ fun k hk => ?_
      rw [Finset.mem_erase, List.mem_toFinset] at hk
      rcases lt_trichotomy k s with hlt | he | hgt
      · exact Submodule.smul_mem _ _ (mem_spn (x := fun j => E.F.zcol E.p j) hlt trivial)
      · exact absurd he hk.1
      · rw [hs.2.2 k hgt hk.2, zero_smul]; exact Submodule.zero_mem _
    · refine Or.inr ⟨rfl, rfl, ?_⟩
      intro r hr
      have hrB := (hL.mB r).2 hr
      have hz' : npAny (aB.map fun r => (mulAt E.p E.F aA cyc).getD r 0) = false := by simpa using hz
      obtain ⟨l, hl, rfl⟩ := List.getElem_of_mem hrB
      have := npAny_eq_false.1 hz' l
      rw [List_getD_eq_getElem _ _ (by simpa using hl), List.getElem_map] at this
      unfold zv
      rw [this, Int.cast_zero]
  · rw [if_neg hp] at hok
    push Not at hp
    have hp' : st.piv s = -1 := by
      unfold IK.piv
      have hl : s < st.pivIm.length := by rw [h.pivIm]; exact hcn
      rw [List_getD_eq_getElem _ _ hl] at hp ⊢
      exact hp
    obtain rfl := Except.ok.inj hok
    refine { h with imDeath := by rw [List.length_set]; exact h.imDeath, dead := ?_ }
    intro j hj hj1 e he
    change st.piv j = -1 at hj1
    dsimp only at he
    by_cases hjs : j = s
    · subst hjs
      rw [List.getElem?_set, if_pos rfl, if_pos (by rw [h.imDeath]; exact hj), Option.some.injEq] at he
      subst he
      refine ⟨le_rfl, fun t ht => ?_⟩
      have hl : j < st.imDeath.length := by rw [h.imDeath]; exact hj
      obtain ⟨h1, h2⟩ := h.dead j hj hj1 _ (List.getElem?_eq_getElem hl)
      exact h2 t (h1.trans ht)
    · rw [List.getElem?_set, if_neg (fun e => hjs e.symm)] at he
      exact h.dead j hj hj1 e he

theorem HalfInv.ker {P : α → Prop} {st : IK α} (h : HalfInv E P st) {K : Mat} {pv : List Int}
    {kb : List (α × α)} {kd : ℕ} :
    HalfInv E P { st with ker := K, pivKer := pv, kerBar := kb, kdim := kd } := by
  exact ⟨h.im, h.pivIm, h.imDeath, h.tri, h.born, h.dead⟩

theorem HalfInv.kerStep (hE : HalfOK E) (hL : Lists E rad aA aB dA bA dB) {old : List Int}
    {s s' : IK α × List Int} {c : ℕ} (h : HalfInv E (· ≤ rad) s.1)
    (hok : kerStep E rad aA aB dA old s c = .ok s') : HalfInv E (· ≤ rad) s'.1 := by
  unfold Permaviss.kerStep at hok
  split at hok
  · cases hpr : pivotCheckReduce E.p s.1.ker aA c (s.1.pivKer.take c) none with
    | error e => rw [hpr] at hok; cases hok
    | ok out =>
      obtain ⟨K, T, q⟩ := out
      have hpv := pcrLoop_piv hE.hp.pos hL.sA _ _ _ _ _ _ hpr
      rw [hpr] at hok
      dsimp only at hok
      by_cases hq : q = -1
      · rw [if_neg (by simpa using hq)] at hok
        obtain rfl := Except.ok.inj hok
        exact h.ker
      · rw [if_pos hq] at hok
        obtain ⟨r, hr, hpiv⟩ := hpv.resolve_left hq
        cases hkh : Permaviss.kerHit E rad aA aB (K.col c) q.toNat
            { s.1 with ker := K, pivKer := s.1.pivKer.set c q } with
        | error e => rw [hkh] at hok; cases hok
        | ok st2 =>
          rw [hkh] at hok
          obtain rfl := Except.ok.inj hok
          have e : q.toNat = r := by rw [hr]; simp
          rw [e] at hkh
          exact HalfInv.kerHit hE hL (h.ker (K := K) (pv := s.1.pivKer.set c q) (kb := s.1.kerBar)
            (kd := s.1.kdim)) hpiv hkh
  · obtain rfl := Except.ok.inj hok
    exact h

/-- The state before column `c` of the loop over image generators. -/
theorem HalfInv.imStep (hE : HalfOK E) (hL : Lists E rad aA aB dA bA dB) {st0 : IK α}
    {s s' : IK α × List Int} {c : ℕ} (hcn : c < E.A.dim) (h : HalfInv E (· ≤ rad) s.1)
    (hN : ∀ q ∈ s.2, q ≠ -2) (hlen : st0.pivIm.length = E.A.dim)
    (hst0 : ∀ j, j < E.A.dim → st0.piv j ≠ -2 → BornBy (· ≤ rad) E.A.barcode j)
    (hok : imStep E rad aB dA bA dB st0.pivIm s c = .ok s') :
    HalfInv E (· ≤ rad) s'.1 ∧ ∀ q ∈ s'.2, q ≠ -2 := by
  have hold : st0.pivIm.getD c 0 = st0.piv c := by
    unfold IK.piv
    have : c < st0.pivIm.length := by omega
    rw [List_getD_eq_getElem _ _ this, List_getD_eq_getElem _ _ this]
  unfold Permaviss.imStep at hok
  rw [hold] at hok
  by_cases ht : ((decide (0 ≤ st0.piv c) &&
        decide ((s.1.im.col c).getD (st0.piv c).toNat 0 % (E.p : Int) = 0)) ||
      dB.any (fun d => (d : Int) == st0.piv c) || s.2.contains (st0.piv c) ||
      bA.contains c) = true
  swap
  · rw [if_neg ht] at hok
    obtain rfl := Except.ok.inj hok
    exact ⟨h, hN⟩
  rw [if_pos ht] at hok
  have hborn : BornBy (· ≤ rad) E.A.barcode c := by
    rw [Bool.or_eq_true, Bool.or_eq_true, Bool.or_eq_true, Bool.and_eq_true] at ht
    rcases ht with ((⟨h1, -⟩ | h1) | h1) | h1
    · have h1 : 0 ≤ st0.piv c := by simpa using h1
      exact hst0 c hcn (by omega)
    · rw [List.any_eq_true] at h1
      obtain ⟨d, -, h3⟩ := h1
      have : (d : Int) = st0.piv c := by simpa using h3
      exact hst0 c hcn (by omega)
    · have h1 : st0.piv c ∈ s.2 := by simpa using h1
      exact hst0 c hcn (hN _ h1)
    · have h1 : c ∈ bA := by simpa using h1
      obtain ⟨b, hb1, hb2⟩ := (hL.mbA c).1 h1
      exact ⟨b, hb1, hb2.le⟩
  cases hpr : pivotCheckReduce E.p s.1.im aB c (s.1.pivIm.take c) (some s.1.T) with
  | error e => rw [hpr] at hok; cases hok
  | ok out =>
    obtain ⟨M, T, q⟩ := out
    rw [hpr] at hok
    dsimp only at hok
    have hlen' : (s.1.pivIm.take c).length = c := by
      rw [List.length_take, h.pivIm]; omega
    obtain ⟨a, h2⟩ := pcrLoop_ends hE.hp.pos (m := E.B.dim) (n := E.A.dim) hL.sB hcn (by omega) _ _ _ _ _
      _ h.im hpr
    have htri : ∃ u : ZMod E.p, u ≠ 0 ∧ zv E.p (M.col c) - u • E.F.zcol E.p c ∈ FSp E c := by
      obtain ⟨u, hu, hu2⟩ := h.tri c hcn
      refine ⟨u, hu, ?_⟩
      rw [h2.eq, hlen', add_sub_right_comm]
      refine Submodule.add_mem _ hu2 (Submodule.sum_mem _ fun i hi => Submodule.smul_mem _ _ ?_)
      have hi' := mem_range.1 hi
      exact FSp.mono (by omega) (h.mem (j := i) (by omega))
    have hq : q = -1 ∨ ∃ r : ℕ, q = r := by
      rcases h2.res with ⟨h1, -⟩ | ⟨r, h1, -⟩
      · exact Or.inl h1
      · exact Or.inr ⟨r, h1⟩
    by_cases hq1 : q = -1
    · subst hq1
      rw [if_neg (by simp)] at hok
      have hz : ∀ r, ActBy (· ≤ rad) E.B.barcode r → zv E.p (M.col c) r = 0 := by
        intro r hr
        rcases h2.res with ⟨-, h4⟩ | ⟨r', h3, -⟩
        · exact h4 r ((hL.mB r).2 hr)
        · omega
      have hnew : HalfInv E (· ≤ rad) { s.1 with
          im := M, T := T.getD s.1.T, pivIm := s.1.pivIm.set c (-1), imDeath := s.1.imDeath.set c rad } :=
        h.set hE (c := c) (v := M.col c) (q := -1) (fun _ h => h) hcn hborn h2.ok h2.other rfl rfl htri
          (Or.inr ⟨rfl, rfl, hz⟩)
      unfold imDie at hok
      rw [if_pos hE.full] at hok
      by_cases hd : dA.contains c = true
      · rw [if_pos hd] at hok
        obtain rfl := Except.ok.inj hok
        exact ⟨hnew, hN⟩
      · rw [if_neg hd] at hok
        unfold kerBirth at hok
        dsimp only at hok
        by_cases hk : s.1.kdim < E.A.dim
        · rw [if_pos hk] at hok
          obtain rfl := Except.ok.inj hok
          exact ⟨hnew.ker, hN⟩
        · rw [if_neg hk] at hok; cases hok
    · rw [if_pos hq1] at hok
      obtain rfl := Except.ok.inj hok
      refine ⟨h.set hE (c := c) (v := M.col c) (q := q) (fun _ h => h) hcn hborn h2.ok h2.other rfl rfl htri
        (Or.inl ⟨hq1, rfl⟩), ?_⟩
      intro q' hq'
      rcases List.mem_append.1 hq' with h3 | h3
      · exact hN q' h3
      · rw [List.mem_singleton.1 h3]
        obtain ⟨r, hr⟩ := hq.resolve_left hq1
        omega

theorem ikRadius_half (hE : HalfOK E) {st st' : IK α} (h : HalfInv E (· < rad) st)
    (hok : ikRadius E st rad = .ok st') : HalfInv E (· ≤ rad) st' := by
  let aA := barIndices E.A.barcode fun b => decide (b.1 ≤ rad) && decide (rad < b.2)
  let aB := barIndices E.B.barcode fun b => decide (b.1 ≤ rad) && decide (rad < b.2)
  let dA := barIndices E.A.barcode fun b => decide (b.2 = rad)
  let bA := barIndices E.A.barcode fun b => decide (b.1 = rad)
  let dB := barIndices E.B.barcode fun b => decide (b.2 = rad)
  have hL : Lists E rad aA aB dA bA dB := by
    refine ⟨?_, barIndices_sorted _ _, ?_, barIndices_sorted _ _, ?_, ?_, ?_⟩
    · intro i; simp [aA, mem_barIndices, ActBy]
    · intro i; simp [aB, mem_barIndices, ActBy]
    · intro i; simp [dA, mem_barIndices]
    · intro i; simp [bA, mem_barIndices]
    · intro i; simp [dB, mem_barIndices]
  have h0 : HalfInv E (· ≤ rad) st := h.mono fun x hx => le_of_lt hx
  unfold ikRadius Basis.active Basis.death Basis.birth at hok
  rw [hE.flatA, hE.flatB] at hok
  simp only [hE.full, bind, Except.bind, Bool.false_eq_true, if_false, if_true] at hok
  cases hk : kerPhase E rad aA aB dA st with
  | error e =>
    have hk' : kerPhase E rad (barIndices E.A.barcode fun b => decide (b.1 ≤ rad) && decide (rad < b.2))
      (barIndices E.B.barcode fun b => decide (b.1 ≤ rad) && decide (rad < b.2))
      (barIndices E.A.barcode fun b => decide (b.2 = rad)) st = .error e := hk
    rw [hk'] at hok; cases hok
  | ok st1 =>
    have hk' : kerPhase E rad (barIndices E.A.barcode fun b => decide (b.1 ≤ rad) && decide (rad < b.2))
      (barIndices E.B.barcode fun b => decide (b.1 ≤ rad) && decide (rad < b.2))
      (barIndices E.A.barcode fun b => decide (b.2 = rad)) st = .ok st1 := hk
    rw [hk'] at hok
    change imPhase E rad aB dA bA dB st1 = .ok st' at hok
    have h1 : HalfInv E (· ≤ rad) st1 := by
      unfold kerPhase at hk
      cases h6 : (List.range E.A.dim).foldlM (kerStep E rad aA aB dA st.pivKer) (st, []) with
      | error e => rw [h6] at hk; cases hk
      | ok s =>
        rw [h6] at hk
        obtain rfl := Except.ok.inj hk
        exact foldlM_range_ok (kerStep E rad aA aB dA st.pivKer) (fun _ s => HalfInv E (· ≤ rad) s.1)
          E.A.dim (st, []) h0 (fun c _ s hs s' hs' => HalfInv.kerStep hE hL hs hs') s h6
    unfold imPhase at hok
    cases h6 : (List.range E.A.dim).foldlM (imStep E rad aB dA bA dB st1.pivIm) (st1, []) with
    | error e => rw [h6] at hok; cases hok
    | ok s =>
      rw [h6] at hok
      obtain rfl := Except.ok.inj hok
      exact (foldlM_range_ok (imStep E rad aB dA bA dB st1.pivIm)
        (fun _ s => HalfInv E (· ≤ rad) s.1 ∧ ∀ q ∈ s.2, q ≠ -2) E.A.dim (st1, []) ⟨h1, by simp⟩
        (fun c hc s hs s' hs' => HalfInv.imStep hE hL hc hs.1 hs.2 h1.pivIm h1.born hs') s h6).1

theorem halfInv_init [Zero α] (hE : HalfOK E) : HalfInv E (fun _ => False) E.init := by
  have hpiv : ∀ j, (E.init).piv j = -2 := by
    intro j
    simp only [IK.piv, IKEnv.init, List.getD_eq_getElem?_getD, List.getElem?_replicate]
    split <;> simp
  refine ⟨hE.mat, by simp [IKEnv.init], by simp [IKEnv.init], ?_, ?_, ?_⟩
  · intro j hj
    refine ⟨1, one_ne_zero, ?_⟩
    rw [one_smul]
    have : E.V E.init j = E.F.zcol E.p j := rfl
    rw [this, sub_self]
    exact Submodule.zero_mem _
  · intro j _ h; exact absurd (hpiv j) h
  · intro j _ h; rw [hpiv] at h; omega

theorem ikLoop_half [Zero α] (hE : HalfOK E) {st : IK α} (hok : ikLoop E E.radii E.init = .ok st) :
    HalfInv E (fun _ => True) st :=
  ikLoop_ok_induct (E := E) (HalfInv E) (fun P P' st h _ h1 _ _ _ => h.mono h1)
    (fun rad st h st' hs => ikRadius_half hE h hs) E.radii (fun _ => False) E.init (fun _ _ _ h => h)
    (halfInv_init hE) (npUnique_strict _) (fun _ _ h => h) (by
      intro b hb
      have : ∀ y, (y = b.1 ∨ y = b.2) → y ∈ E.radii := by
        intro y hy
        unfold IKEnv.radii Basis.changesList
        rw [mem_npUnique, List.mem_append, mem_npUnique, mem_npUnique]
        simp only [List.mem_flatMap]
        rcases List.mem_append.1 hb with h | h
        · left; exact ⟨b, h, by simpa using hy⟩
        · right; exact ⟨b, h, by simpa using hy⟩
      exact ⟨Or.inr (this _ (Or.inl rfl)), Or.inr (this _ (Or.inr rfl))⟩) st hok

/-- The inputs: an `IKInput` whose matrix need not be compatible with the ends of the bars. -/
structure HalfInput (rnd : α → α) (p : ℕ) (A B : Basis α) (F : Mat) : Prop where
  prime : p.Prime
  flatA : A.flat = false
  flatB : B.flat = false
  dimA : A.dim = A.barcode.length
  dimB : B.dim = B.barcode.length
  barsA : ∀ b ∈ A.barcode, b.1 < b.2
  barsB : ∀ b ∈ B.barcode, b.1 < b.2
  nonempty : A.barcode ≠ []
  unbroken : B.brokenDiff = none
  mat : MatOK p B.barcode.length A.barcode.length F
  birth : ∀ r i a b, A.barcode[i]? = some a → B.barcode[r]? = some b → F.z p r i ≠ 0 → b.1 ≤ a.1
  sorted : A.sorted = true → A.barcode.Pairwise fun a b => a.1 ≤ b.1
  rounding : A.sorted = false → ∀ a ∈ A.barcode, ∀ b ∈ A.barcode, rnd a.1 ≤ rnd b.1 → a.1 ≤ b.1

omit [Fact E.p.Prime] in
theorem radii_last {b : α × α} (hb : b ∈ E.B.barcode) : ∃ l, E.radii.getLast? = some l ∧ b.2 ≤ l := by
  have hm : b.2 ∈ E.radii := by
    unfold IKEnv.radii Basis.changesList
    rw [mem_npUnique, List.mem_append, mem_npUnique, mem_npUnique]
    simp only [List.mem_flatMap]
    exact Or.inr ⟨b, hb, by simp⟩
  have hne : E.radii ≠ [] := List.ne_nil_of_mem hm
  refine ⟨_, List.getLast?_eq_some_getLast hne, ?_⟩
  obtain ⟨i, hi, e⟩ := List.getElem_of_mem hm
  rw [List.getLast_eq_getElem]
  have hs : E.radii.Pairwise (· < ·) := npUnique_strict _
  rcases Nat.lt_or_ge i (E.radii.length - 1) with hlt | hge
  · rw [← e]
    exact (List.pairwise_iff_getElem.1 hs i _ hi (by omega) hlt).le
  · have : i = E.radii.length - 1 := by omega
    subst this
    exact e.ge

theorem imageKernel_half [Zero α] {rnd : α → α} {p : ℕ} {A B : Basis α} {F : Mat}
    (h : HalfInput rnd p A B F) {out : IKOut α} (hrun : imageKernel rnd p A B F 0 = .ok out) :
    BasisIn p B.barcode out.im ∧
      (∀ t, bornSpan p B.barcode out.im.barcode out.im.coords t t = bornSpan p B.barcode A.barcode F t t) ∧
      ∀ c ∈ out.im.barcode, ∃ a ∈ A.barcode, c.1 = a.1 := by
  have := Fact.mk h.prime
  have hFok := h.mat
  obtain ⟨B', F1, retB, oB, σB, e1, hoB, hrB, hlB, hdB, hfB, hbB, hF1, hz1, -⟩ :=
    sortRange_spec rnd hFok h.dimB rfl h.flatB h.unbroken h.barsB
  obtain ⟨A', F2, retA, oA, σA, e2, hoA, hrA, hlA, hdA, hfA, hF2, hz2, hs1, hs2⟩ :=
    sortDomain_spec rnd hF1 h.dimA rfl h.flatA h.barsA
  have hz : ∀ i j, F2.z p i j = F.z p (σB i) (σA j) := fun i j => by rw [hz2, hz1]
  let E : IKEnv α := ⟨p, A', B', F2, 0⟩
  have hFE : Fact E.p.Prime := this
  have memA : ∀ (i : ℕ) (a : α × α), A'.barcode[i]? = some a → a ∈ A.barcode := by
    intro i a ha
    rw [hrA] at ha
    exact List.mem_of_getElem? ha
  have hfull : E.full = true := by simp [IKEnv.full, E, hbB]
  have hE : HalfOK E := {
    hp := h.prime
    lenA := hdA.trans hlA.symm
    lenB := hdB.trans hlB.symm
    flatA := hfA
    flatB := hfB
    mat := by
      change MatOK p B'.dim A'.dim F2
      rw [hdA, hdB]; exact hF2
    birth := fun r i a b ha hb hne => h.birth (σB r) (σA i) a b (hrA i ▸ ha) (hrB r ▸ hb)
        (hz r i ▸ hne)
    full := hfull
    sorted := by
      intro i j a a' hij ha ha'
      change A'.barcode[i]? = some a at ha
      change A'.barcode[j]? = some a' at ha'
      rcases Nat.lt_or_eq_of_le hij with hlt | rfl
      swap
      · rw [ha] at ha'; cases ha'; exact le_rfl
      obtain ⟨hi, e⟩ := List.getElem?_eq_some_iff.1 ha
      obtain ⟨hj, e'⟩ := List.getElem?_eq_some_iff.1 ha'
      cases hsA : A.sorted with
      | true =>
        have := List.pairwise_iff_getElem.1 (h.sorted hsA) i j (by rw [hs1 hsA] at hi; exact hi)
          (by rw [hs1 hsA] at hj; exact hj) hlt
        simp only [hs1 hsA] at e e'
        rwa [e, e'] at this
      | false =>
        have := List.pairwise_iff_getElem.1 (hs2 hsA) i j hi hj hlt
        rw [e, e'] at this
        refine h.rounding hsA a (memA i a ha) a' (memA j a' ha') ?_
        rcases this with h1 | h1
        · exact h1.le
        · exact h1.1.le }
  unfold imageKernel at hrun
  rw [if_neg (by
      push Not
      exact ⟨h.dimB.trans h.mat.rows.symm, h.dimA.trans h.mat.ncols.symm⟩)] at hrun
  simp only [e1, e2, bind, Except.bind, hfA, Bool.false_eq_true, if_false] at hrun
  cases e3 : ikLoop E E.radii E.init with
  | error e =>
    have e3' : ikLoop ⟨p, A', B', F2, 0⟩ (IKEnv.radii ⟨p, A', B', F2, 0⟩)
      (IKEnv.init ⟨p, A', B', F2, 0⟩) = .error e := e3
    rw [e3'] at hrun; cases hrun
  | ok st =>
  have e3' : ikLoop ⟨p, A', B', F2, 0⟩ (IKEnv.radii ⟨p, A', B', F2, 0⟩)
    (IKEnv.init ⟨p, A', B', F2, 0⟩) = .ok st := e3
  rw [e3'] at hrun
  change ikFinish rnd E A.dim B.dim retA retB st = _ at hrun
  have hst := ikLoop_half hE e3
  set n := A.barcode.length with hn
  set m := B.barcode.length with hm
  have hEA : E.A.dim = n := hdA
  have hEB : E.B.dim = m := hdB
  let D := killAlive E.radii.getLast? st.pivIm st.imDeath
  have hDl : D.length = n := by
    simp only [D, killAlive, List.length_zipWith, hst.pivIm, hst.imDeath, hEA, min_self]
  let rawI := (A'.barcode.map Prod.fst).zip D
  let MI : Mat := ⟨retB.length, (st.im.gatherRows retB).cols⟩
  have hrawI : rawI.length = n := by simp [rawI, hDl, hlA]
  have hMI : MI.ncols = n := by
    have := hst.im.ncols
    simpa [MI, Mat.ncols, Mat.gatherRows, hEA] using this
  obtain ⟨b0, im, ordI, idxI, f1, f2, f3, f4, f5, f6, f8, f9, f10, f11, f12, f7⟩ :=
    build_sort rnd (raw := rawI) (m := m) (M := MI) (sw := true) hoB.rlen (hMI.trans hrawI.symm)
      (fun _ e => by
        rw [e] at hrawI
        exact h.nonempty (List.length_eq_zero_iff.1 hrawI.symm))
  have hout : out.im = im := by
    unfold ikFinish at hrun
    dsimp only at hrun
    rw [h.dimB] at hrun
    have f1' : Basis.init (List.drop E.start ((List.map Prod.fst E.A.barcode).zip
        (killAlive E.radii.getLast? st.pivIm st.imDeath))) false
        (some B.barcode.length) ⟨retB.length, List.drop E.start (st.im.gatherRows retB).cols⟩ true false none
        = .ok b0 := f1
    rw [f1'] at hrun
    have hret' : (retA.all fun i => decide (i < E.A.dim - E.start)) = true := by
      rw [List.all_eq_true]
      intro i hi
      have := hoA.rmem_lt i hi
      have hE0 : E.start = 0 := rfl
      rw [hE0, hEA]
      simpa using this
    simp only [bind, Except.bind, hret', if_true, f3, hfull] at hrun
    split at hrun
    · cases hrun
    · split at hrun
      · cases hrun
      · obtain rfl := Except.ok.inj hrun
        rfl
  rw [hout]
  -- columns
  have hzI : ∀ k, k < n → MI.zcol p k = reName σB (E.V st k) := by
    intro k hk
    exact zv_gatherRows hst.im (hEB ▸ hoB) (hEA ▸ hk)
  have hlenI : ∀ c ∈ MI.cols, c.length = m := by
    intro c hc
    simp only [MI, Mat.gatherRows, List.mem_map] at hc
    obtain ⟨c', hc', rfl⟩ := hc
    exact hoB.gather_rlen ((hst.im.len c' hc').trans hEB)
  have hrI : ∀ t k, k < n → barRestr p B.barcode t (MI.zcol p k) =
      reName σB (restr (ActBy (· ≤ t) E.B.barcode) (E.V st k)) := by
    intro t k hk
    rw [hzI k hk, hrB.restr, barRestr_eq]
  have hrawget : ∀ (j : ℕ) (b : α × α), rawI[j]? = some b ↔
      ∃ a, A'.barcode[j]? = some a ∧ D[j]? = some b.2 ∧ b.1 = a.1 := by
    intro j b
    rw [List.getElem?_zip_eq_some, List.getElem?_map]
    constructor
    · rintro ⟨h1, h2⟩
      obtain ⟨a, ha, e⟩ := Option.map_eq_some_iff.1 h1
      exact ⟨a, ha, h2, e.symm⟩
    · rintro ⟨a, ha, h2, e⟩
      exact ⟨by rw [ha, e]; rfl, h2⟩
  -- columns vanish when their bars end
  have hdead : ∀ j e, j < n → D[j]? = some e → ∀ t, e ≤ t →
      restr (ActBy (· ≤ t) E.B.barcode) (E.V st j) = 0 := by
    intro j e hj he t ht
    rw [restr_eq_zero]
    intro r hr
    simp only [D, killAlive] at he
    have hjp : j < st.pivIm.length := by rw [hst.pivIm, hEA]; exact hj
    have hjd : j < st.imDeath.length := by rw [hst.imDeath, hEA]; exact hj
    rw [List.getElem?_zipWith, List.getElem?_eq_getElem hjp, List.getElem?_eq_getElem hjd] at he
    simp only [Option.some.injEq] at he
    by_cases hq : st.pivIm[j] = -1
    · rw [if_neg (by simpa using hq)] at he
      have hq' : st.piv j = -1 := by
        unfold IK.piv; rw [List_getD_eq_getElem _ _ hjp]; exact hq
      refine (hst.dead j (hEA ▸ hj) hq' e (by rw [List.getElem?_eq_getElem hjd, he])).2 t ht r hr
    · rw [if_pos hq] at he
      obtain ⟨b, hb, -, hb2⟩ := hr
      obtain ⟨l, hl, hbl⟩ := radii_last (List.mem_of_getElem? hb)
      rw [hl, Option.getD_some] at he
      exact absurd (hbl.trans (he.le.trans ht)) hb2
  have hzim : ∀ i k, idxI[i]? = some k → im.coords.zcol p i = MI.zcol p k := by
    intro i k hk
    have hML : ∀ i ∈ idxI, i < MI.cols.length := fun i hi => by
      have := f4.lt i hi
      unfold Mat.ncols at hMI
      omega
    unfold Mat.zcol
    rw [f6, List.getD_eq_getElem?_getD, gather_getElem? hML, hk, List.getD_eq_getElem?_getD]
    rfl
  have redI : ∀ c ∈ MI.cols, RedL p c := by
    intro c hc x hx
    simp only [MI, Mat.gatherRows, List.mem_map] at hc
    obtain ⟨c', hc', rfl⟩ := hc
    simp only [gather, List.mem_filterMap] at hx
    obtain ⟨k, -, hk⟩ := hx
    exact hst.im.red c' hc' x (List.mem_of_getElem? hk)
  have bornI : ∀ k b r c, rawI[k]? = some b → B.barcode[r]? = some c → MI.zcol p k r ≠ 0 →
      c.1 ≤ b.1 := by
    intro k b r c hb hc hne
    obtain ⟨a, ha, -, e⟩ := (hrawget k b).1 hb
    have hkn : k < n := by
      have := (List.getElem?_eq_some_iff.1 ha).1; omega
    rw [hzI k hkn, reName_apply] at hne
    have hc' : E.B.barcode[σB.symm r]? = some c := by
      change B'.barcode[_]? = _
      rw [hrB, Equiv.apply_symm_apply, hc]
    rw [e]
    exact FSp.supp hE (c := k) ha (hst.mem (hEA ▸ hkn)) hc' hne
  refine ⟨picks_basisIn f4 f5 f6 (hMI.trans hrawI.symm) hlenI redI bornI f8 f9 f10 f11 f12, ?_, ?_⟩
  swap
  · intro c hc
    rw [f5] at hc
    simp only [gather, List.mem_filterMap] at hc
    obtain ⟨k, -, hk⟩ := hc
    obtain ⟨a, ha, -, e⟩ := (hrawget k c).1 hk
    exact ⟨a, memA k a ha, e⟩
  intro t
  have hFcol : ∀ j, F.zcol p (σA j) = reName σB (E.F.zcol E.p j) := by
    intro j
    funext i
    rw [reName_apply]
    have := hz (σB.symm i) j
    rw [Equiv.apply_symm_apply] at this
    exact this.symm
  -- the columns of the state span what the columns of the matrix span
  have hspan : ∀ j, j < n → BornBy (· ≤ t) A'.barcode j →
      barRestr p B.barcode t (F.zcol p (σA j)) ∈ bornSpan p B.barcode im.barcode im.coords t t := by
    intro j
    induction j using Nat.strong_induction_on with
    | _ j ih =>
      intro hj hbj
      have hlow : ∀ k, k < j → BornBy (· ≤ t) A'.barcode k := by
        intro k hk
        obtain ⟨a, ha, hat⟩ := hbj
        have hkl : k < A'.barcode.length := by omega
        exact ⟨_, List.getElem?_eq_getElem hkl,
          (hE.sorted k j _ a hk.le (List.getElem?_eq_getElem hkl) ha).trans hat⟩
      obtain ⟨u, hu, hu2⟩ := hst.tri j (hEA ▸ hj)
      have hV : reName σB (restr (ActBy (· ≤ t) E.B.barcode) (E.V st j)) ∈
          bornSpan p B.barcode im.barcode im.coords t t := by
        obtain ⟨a, ha, hat⟩ := hbj
        have hjD : j < D.length := by omega
        have hraw : rawI[j]? = some (a.1, D[j]) := (hrawget j _).2 ⟨a, ha, List.getElem?_eq_getElem hjD, rfl⟩
        by_cases hlt : a.1 < D[j]
        · have hji : j ∈ idxI := (f4.mem j).2 ⟨_, hraw, hlt⟩
          obtain ⟨i, hi, e⟩ := List.getElem_of_mem hji
          have hi' : idxI[i]? = some j := by rw [List.getElem?_eq_getElem hi, e]
          refine Submodule.subset_span ⟨i, ⟨(a.1, D[j]), ?_, hat⟩, ?_⟩
          · rw [f5, gather_getElem? f4.lt, hi']; exact hraw
          · rw [hzim i j hi', hrI t j hj]
        · rw [hdead j _ hj (List.getElem?_eq_getElem hjD) t ((not_lt.1 hlt).trans hat), map_zero]
          exact Submodule.zero_mem _
      have hrest : reName σB (restr (ActBy (· ≤ t) E.B.barcode) (E.V st j - u • E.F.zcol E.p j)) ∈
          bornSpan p B.barcode im.barcode im.coords t t := by
        have h2 : reName σB (restr (ActBy (· ≤ t) E.B.barcode) (E.V st j - u • E.F.zcol E.p j)) ∈
            (FSp E j).map ((reName σB).toLinearMap ∘ₗ restr (ActBy (· ≤ t) E.B.barcode)) := ⟨_, hu2, rfl⟩
        unfold FSp at h2
        rw [spn_map] at h2
        refine spn_le (fun k hk _ => ?_) h2
        have := ih k hk (by omega) (hlow k hk)
        rw [hFcol, hrB.restr, barRestr_eq] at this
        exact this
      have h3 := Submodule.sub_mem _ hV hrest
      rw [← map_sub, ← map_sub, sub_sub_cancel, map_smul, map_smul] at h3
      have h4 := (Submodule.smul_mem_iff _ hu).1 h3
      rw [hFcol, hrB.restr, barRestr_eq]
      exact h4
  apply le_antisymm
  · refine Submodule.span_le.2 ?_
    rintro x ⟨i, ⟨b, hb, hbt⟩, rfl⟩
    rw [f5, gather_getElem? f4.lt] at hb
    obtain ⟨k, hk, hk'⟩ := Option.bind_eq_some_iff.1 hb
    obtain ⟨a, ha, -, e⟩ := (hrawget k b).1 hk'
    have hkn : k < n := by
      have := (List.getElem?_eq_some_iff.1 ha).1; omega
    rw [hzim i k hk, hrI t k hkn]
    have h2 : reName σB (restr (ActBy (· ≤ t) E.B.barcode) (E.V st k)) ∈
        (FSp E (k + 1)).map ((reName σB).toLinearMap ∘ₗ restr (ActBy (· ≤ t) E.B.barcode)) :=
      ⟨_, hst.mem (hEA ▸ hkn), rfl⟩
    unfold FSp at h2
    rw [spn_map] at h2
    refine spn_le (fun l hl _ => ?_) h2
    have hll : l < A'.barcode.length := by omega
    have hlA := List.getElem?_eq_getElem hll
    refine Submodule.subset_span ⟨σA l, ⟨A'.barcode[l], ?_, ?_⟩, ?_⟩
    · rw [← hrA]; exact hlA
    · exact (hE.sorted l k _ a (by omega) hlA ha).trans (e ▸ hbt)
    · rw [hFcol, hrB.restr, barRestr_eq]
      rfl
  · refine Submodule.span_le.2 ?_
    rintro x ⟨i, ⟨b, hb, hbt⟩, rfl⟩
    obtain ⟨j, rfl⟩ := σA.surjective i
    have hb' : A'.barcode[j]? = some b := by rw [hrA]; exact hb
    have hj : j < n := by
      have := (List.getElem?_eq_some_iff.1 hb').1; omega
    exact hspan j hj ⟨b, hb', hbt⟩

end Permaviss
