import Verif.Lemmas.IKRelMain

/-!
# `image_kernel` with a broken barcode basis: the invariant and the update at each radius
-/

namespace Permaviss

open Finset

variable {α : Type} [LinearOrder α]

/-- What is assumed about the data of the loop in the broken case: the domain has the same births and
all its bars end at `R`, the matrix is the identity, and a generator for which the broken differential
is not zero (`U`) goes to generators outside `U` which are alive at that moment. -/
structure BrkOK (E : IKEnv α) (BD : Mat) (U : ℕ → Prop) (R : α) : Prop where
  hp : E.p.Prime
  lenB : E.B.dim = E.B.barcode.length
  dims : E.A.dim = E.B.dim
  flatA : E.A.flat = false
  flatB : E.B.flat = false
  brk : E.B.brokenDiff = some BD
  start : E.start = 0
  F : MatOK E.p E.B.dim E.A.dim E.F
  f : ∀ j, j < E.A.dim → E.f j = Pi.single j 1
  barsA : E.A.barcode = E.B.barcode.map fun b => (b.1, R)
  wf : ∀ b ∈ E.B.barcode, b.1 < b.2 ∧ b.2 ≤ R
  bdN : BD.cols.length = E.B.dim
  bdL : ∀ c ∈ BD.cols, c.length = E.B.dim
  two : ∀ i j, BD.z E.p i j ≠ 0 → U j ∧ ¬ U i
  life : ∀ i j bi bj, E.B.barcode[i]? = some bi → E.B.barcode[j]? = some bj →
    BD.z E.p i j ≠ 0 → bi.1 ≤ bj.2 ∧ bj.2 < bi.2

open Classical in
/-- Where generator `j` has gone by the time described by `P`. -/
noncomputable def IKEnv.tr (E : IKEnv α) (BD : Mat) (P : α → Prop) (j : ℕ) : ℕ → ZMod E.p :=
  if ∃ b, E.B.barcode[j]? = some b ∧ P b.2 then E.rB P (BD.zcol E.p j) else Pi.single j 1

theorem IKEnv.tr_pos (E : IKEnv α) {BD : Mat} {P : α → Prop} {j : ℕ} {b : α × α}
    (hb : E.B.barcode[j]? = some b) (h : P b.2) : E.tr BD P j = E.rB P (BD.zcol E.p j) :=
  if_pos ⟨b, hb, h⟩

theorem IKEnv.tr_neg (E : IKEnv α) {BD : Mat} {P : α → Prop} {j : ℕ} {b : α × α}
    (hb : E.B.barcode[j]? = some b) (h : ¬ P b.2) : E.tr BD P j = Pi.single j 1 := by
  refine if_neg ?_
  rintro ⟨b', h1, h2⟩
  rw [hb, Option.some.injEq] at h1
  exact h (h1 ▸ h2)

/-- The invariant: columns below `d` were treated at this radius. -/
structure BCore (E : IKEnv α) [Fact E.p.Prime] (BD : Mat) (U : ℕ → Prop) (P0 P1 : α → Prop) (d : ℕ)
    (st : IK α) : Prop where
  im : MatOK E.p E.B.dim E.A.dim st.im
  T : MatOK E.p E.A.dim E.A.dim st.T
  pivIm : st.pivIm.length = E.A.dim
  imDeath : st.imDeath.length = E.A.dim
  unborn : ∀ j, j < E.A.dim → (st.piv j = -2 ↔ ¬ BornBy (cutAt P0 P1 d j) E.A.barcode j)
  orig : ∀ j, j < E.A.dim → st.piv j = -2 → E.V st j = Pi.single j 1
  pcase : ∀ j, j < E.A.dim → st.piv j = -2 ∨ st.piv j = -1 ∨ st.Has j
  aliveLo : ∀ j, j < d → ∀ r : ℕ, st.piv j = r → IsPivOn (ActBy P1 E.B.barcode) (E.V st j) r
  aliveHi : ∀ j, d ≤ j → ∀ r : ℕ, st.piv j = r → ActBy P1 E.B.barcode r →
    IsPivOn (ActBy P1 E.B.barcode) (E.V st j) r
  actHi : ∀ j, d ≤ j → ∀ r : ℕ, st.piv j = r → ActBy P0 E.B.barcode r
  supp : ∀ j, st.Has j → ∀ l, E.V st j l ≠ 0 → ActBy P1 E.B.barcode l
  up : ∀ j, st.Has j → U j → ActBy P1 E.B.barcode j → E.V st j = Pi.single j 1
  low : ∀ j, st.Has j → (U j → ¬ ActBy P1 E.B.barcode j) → ∀ l, E.V st j l ≠ 0 → ¬ U l
  injLo : ∀ j j', j < d → j' < d → ∀ r : ℕ, st.piv j = r → st.piv j' = r → j = j'
  injHi : ∀ j j', d ≤ j → d ≤ j' → ∀ r : ℕ, st.piv j = r → st.piv j' = r → j = j'
  pre : ∀ m, spn (ZMod E.p) (fun j => E.V st j) st.Has m =
    spn (ZMod E.p) (fun j => E.tr BD P1 j)
      (fun j => BornBy (cutAt P0 P1 d j) E.A.barcode j) m
  db : ∀ j, j < E.A.dim → st.piv j = -1 → ∀ e, st.imDeath[j]? = some e → P1 e

/-- History. -/
def BHist (E : IKEnv α) [Fact E.p.Prime] (BD : Mat) (st : IK α) (P : α → Prop) : Prop :=
  ∀ t, P t → ∀ m, Module.finrank (ZMod E.p) (spn (ZMod E.p) (fun j => E.tr BD (· ≤ t) j)
    (BornBy (· ≤ t) E.A.barcode) m) = (rset E st t m).card

variable {E : IKEnv α} {rad R : α} {BD : Mat} {U : ℕ → Prop}

namespace BrkOK

variable (hE : BrkOK E BD U R)
include hE

theorem lenA : E.A.dim = E.A.barcode.length := by
  rw [hE.barsA, List.length_map, hE.dims, hE.lenB]

theorem full : E.full = false := by simp [IKEnv.full, hE.brk]

theorem getA (j : ℕ) : E.A.barcode[j]? = (E.B.barcode[j]?).map fun b => (b.1, R) := by
  rw [hE.barsA, List.getElem?_map]

theorem born_iff (P : α → Prop) (j : ℕ) : BornBy P E.A.barcode j ↔ BornBy P E.B.barcode j := by
  unfold BornBy
  constructor
  · rintro ⟨b, h1, h2⟩
    rw [hE.getA] at h1
    obtain ⟨b', h3, rfl⟩ := Option.map_eq_some_iff.1 h1
    exact ⟨b', h3, h2⟩
  · rintro ⟨b, h1, h2⟩
    exact ⟨(b.1, R), by rw [hE.getA, h1]; rfl, h2⟩

theorem bd_lt {i j : ℕ} (h : BD.z E.p i j ≠ 0) : i < E.B.dim ∧ j < E.B.dim := by
  have hj : j < E.B.dim := by
    by_contra hc
    apply h
    have : BD.col j = [] := Mat.col_of_le (by rw [hE.bdN]; omega)
    change zv E.p (BD.col j) i = 0
    rw [this]; simp
  refine ⟨?_, hj⟩
  by_contra hc
  apply h
  change zv E.p (BD.col j) i = 0
  refine zv_of_le _ ?_
  rw [hE.bdL _ (Mat.col_mem (by rw [hE.bdN]; exact hj))]
  omega

theorem get {i : ℕ} (h : i < E.B.dim) : ∃ b, E.B.barcode[i]? = some b :=
  ⟨_, List.getElem?_eq_getElem (hE.lenB ▸ h)⟩

/-- The targets of a broken differential are alive. -/
theorem bd_act {i j : ℕ} {b : α × α} (hb : E.B.barcode[j]? = some b) (h : BD.z E.p i j ≠ 0) :
    ActBy (· ≤ b.2) E.B.barcode i := by
  obtain ⟨bi, hbi⟩ := hE.get (hE.bd_lt h).1
  obtain ⟨h1, h2⟩ := hE.life i j bi b hbi hb h
  exact ⟨bi, hbi, h1, not_le.2 h2⟩

end BrkOK

/-- The update at a radius where the generators in `D` die. -/
def brkUpd (p : ℕ) (BD : Mat) (D : Finset ℕ) : (ℕ → ZMod p) →ₗ[ZMod p] (ℕ → ZMod p) where
  toFun v i := (if i ∈ D then 0 else v i) + ∑ k ∈ D, BD.z p i k * v k
  map_add' v w := by
    funext i
    simp only [Pi.add_apply, mul_add, Finset.sum_add_distrib]
    split_ifs <;> ring
  map_smul' a v := by
    funext i
    simp only [Pi.smul_apply, smul_eq_mul, RingHom.id_apply, mul_add, Finset.mul_sum]
    congr 1
    · split_ifs <;> simp
    · exact Finset.sum_congr rfl fun k _ => by ring

theorem brkUpd_apply {p : ℕ} (D : Finset ℕ) (v : ℕ → ZMod p) (i : ℕ) :
    brkUpd p BD D v i = (if i ∈ D then 0 else v i) + ∑ k ∈ D, BD.z p i k * v k := rfl

theorem brkUpd_single_mem {p : ℕ} {D : Finset ℕ} {k : ℕ} (h : k ∈ D) :
    brkUpd p BD D (Pi.single k 1) = BD.zcol p k := by
  funext i
  rw [brkUpd_apply, Finset.sum_eq_single k]
  · have : (if i ∈ D then 0 else (Pi.single k (1 : ZMod p) : ℕ → ZMod p) i) = 0 := by
      split_ifs with hi
      · rfl
      · rw [Pi.single_eq_of_ne (by rintro rfl; exact hi h)]
    rw [this, zero_add, Pi.single_eq_same, mul_one]; rfl
  · intro l _ hl; rw [Pi.single_eq_of_ne hl, mul_zero]
  · intro hn; exact absurd h hn

theorem brkUpd_single_not {p : ℕ} {D : Finset ℕ} {k : ℕ} (h : k ∉ D) :
    brkUpd p BD D (Pi.single k 1) = Pi.single k 1 := by
  funext i
  rw [brkUpd_apply, Finset.sum_eq_zero, add_zero]
  · split_ifs with hi
    · rw [Pi.single_eq_of_ne (by rintro rfl; exact h hi)]
    · rfl
  · intro l hl
    rw [Pi.single_eq_of_ne (by rintro rfl; exact h hl), mul_zero]

theorem brkUpd_flat {p : ℕ} {D : Finset ℕ} {v : ℕ → ZMod p}
    (h : ∀ k ∈ D, v k ≠ 0 → ∀ i, BD.z p i k = 0) : brkUpd p BD D v = restr (· ∉ D) v := by
  funext i
  rw [brkUpd_apply, Finset.sum_eq_zero, add_zero]
  · by_cases hi : i ∈ D
    · rw [if_pos hi, restr_apply_neg (by simpa using hi)]
    · rw [if_neg hi, restr_apply_pos hi]
  · intro k hk
    by_cases hv : v k = 0
    · rw [hv, mul_zero]
    · rw [h k hk hv i, zero_mul]

theorem zv_updateBrokenCol {p n : ℕ} (hN : BD.cols.length = n) (hl : ∀ c ∈ BD.cols, c.length = n)
    {D : List ℕ} (hD : D.Nodup) (hDn : ∀ k ∈ D, k < n) {c : List Int} (hc : c.length = n) :
    zv p (updateBrokenCol p BD D c) = brkUpd p BD D.toFinset (zv p c) := by
  funext i
  rw [brkUpd_apply]
  by_cases hi : i < n
  · have : zv p (updateBrokenCol p BD D c) i = ((((if i ∈ D then 0 else c.getD i 0) +
      (D.map fun k => BD.get i k * c.getD k 0).sum) % (p : Int) : Int) : ZMod p) := by
      unfold zv updateBrokenCol
      rw [List_getD_eq_getElem _ _ (by simpa [hc] using hi), List.getElem_map, List.getElem_range]
    rw [this, ZMod.intCast_mod, Int.cast_add, ← List.sum_toFinset _ hD, Int.cast_sum]
    congr 1
    · simp only [List.mem_toFinset]
      split_ifs <;> simp [zv]
    · refine Finset.sum_congr rfl fun k _ => ?_
      rw [Int.cast_mul]; rfl
  · rw [zv_of_le _ (by simp [updateBrokenCol, hc]; omega)]
    symm
    rw [if_neg (by rw [List.mem_toFinset]; exact fun h => hi (hDn i h)), zv_of_le _ (by omega),
      zero_add]
    refine Finset.sum_eq_zero fun k hk => ?_
    have hk' := hDn k (List.mem_toFinset.1 hk)
    have : BD.z p i k = 0 := by
      change zv p (BD.col k) i = 0
      refine zv_of_le _ ?_
      rw [hl _ (Mat.col_mem (by rw [hN]; exact hk'))]; omega
    rw [this, zero_mul]

/-- Ending the bars in `l`. -/
theorem relKills {n : ℕ} (l : List ℕ) (hl : ∀ c ∈ l, c < n) :
    ∀ st : IK α, st.pivIm.length = n → st.imDeath.length = n →
    ∃ st', l.foldl (relKill 0 rad) st = st' ∧ st'.im = st.im ∧ st'.T = st.T ∧
      st'.pivIm.length = n ∧ st'.imDeath.length = n ∧
      (∀ j, st.piv j = -1 → st'.piv j = -1 ∧ st'.imDeath[j]? = st.imDeath[j]?) ∧
      (∀ j, st.piv j ≠ -1 → st'.piv j = -1 → st'.imDeath[j]? = some rad) ∧
      (∀ j ∈ l, st'.piv j = -1) ∧ (∀ j, st'.piv j = -1 ∨ st'.piv j = st.piv j) := by
  induction l with
  | nil =>
    intro st h1 h2
    exact ⟨st, rfl, rfl, rfl, h1, h2, fun j h => ⟨h, rfl⟩, fun j h h' => absurd h' h, by simp,
      fun j => Or.inr rfl⟩
  | cons c l ih =>
    intro st h1 h2
    have hc := hl c (by simp)
    by_cases hp : st.piv c = -1
    · have e : relKill 0 rad st c = st := by
        unfold relKill
        rw [if_neg]
        rintro ⟨-, h⟩
        apply h
        unfold IK.piv at hp
        rw [List_getD_eq_getElem _ _ (by omega)] at hp ⊢
        exact hp
      obtain ⟨st', g0, g1, g2, g3, g4, g5, g6, g7, g8⟩ :=
        ih (fun c hc => hl c (by simp [hc])) st h1 h2
      refine ⟨st', by rw [List.foldl_cons, e]; exact g0, g1, g2, g3, g4, g5, g6, ?_, g8⟩
      intro j hj
      rcases List.mem_cons.1 hj with rfl | hj
      · exact (g5 j hp).1
      · exact g7 j hj
    · have e : relKill 0 rad st c =
          { st with imDeath := st.imDeath.set c rad, pivIm := st.pivIm.set c (-1) } := by
        unfold relKill
        rw [if_pos]
        refine ⟨by omega, fun h => hp ?_⟩
        unfold IK.piv
        rw [List_getD_eq_getElem _ _ (by omega)] at h ⊢
        exact h
      set st1 : IK α :=
        { st with imDeath := st.imDeath.set c rad, pivIm := st.pivIm.set c (-1) } with hst1
      have hpiv : ∀ j, st1.piv j = if j = c then -1 else st.piv j := by
        intro j
        exact getD_set _ _ _ _ _ (by omega)
      have hd : ∀ j, st1.imDeath[j]? = if j = c then some rad else st.imDeath[j]? := by
        intro j
        change (st.imDeath.set c rad)[j]? = _
        rw [List.getElem?_set]
        by_cases hj : c = j
        · subst hj; simp [h2, hc]
        · rw [if_neg hj, if_neg (fun e => hj e.symm)]
      obtain ⟨st', g0, g1, g2, g3, g4, g5, g6, g7, g8⟩ :=
        ih (fun c hc => hl c (by simp [hc])) st1 (by simp [st1, h1]) (by simp [st1, h2])
      refine ⟨st', by rw [List.foldl_cons, e]; exact g0, g1, g2, g3, g4, ?_, ?_, ?_, ?_⟩
      · intro j hj
        have hjc : j ≠ c := by rintro rfl; exact hp hj
        obtain ⟨k1, k2⟩ := g5 j (by rw [hpiv, if_neg hjc]; exact hj)
        exact ⟨k1, by rw [k2, hd, if_neg hjc]⟩
      · intro j hj hj'
        by_cases hjc : j = c
        · subst hjc
          rw [(g5 j (by rw [hpiv, if_pos rfl])).2, hd, if_pos rfl]
        · exact g6 j (by rw [hpiv, if_neg hjc]; exact hj) hj'
      · intro j hj
        rcases List.mem_cons.1 hj with rfl | hj
        · exact (g5 j (by rw [hpiv, if_pos rfl])).1
        · exact g7 j hj
      · intro j
        rcases g8 j with k | k
        · exact Or.inl k
        · rw [k, hpiv]
          by_cases hjc : j = c
          · simp [hjc]
          · simp [hjc]

theorem BHist.update [Fact E.p.Prime] {st st' : IK α} (h : BHist E BD st (· < rad))
    (hA : E.A.barcode.length = E.A.dim)
    (h1 : ∀ j, j < E.A.dim → st.piv j = -1 → st'.piv j = -1 ∧ st'.imDeath[j]? = st.imDeath[j]?)
    (h2 : ∀ j, j < E.A.dim → st.piv j ≠ -1 → st'.piv j = -1 → st'.imDeath[j]? = some rad) :
    BHist E BD st' (· < rad) := by
  intro t ht m
  rw [h t ht m, rset_update ht hA h1 h2]

/-- How a generator moves on. -/
theorem BrkOK.upd_tr (hE : BrkOK E BD U R) {D : Finset ℕ}
    (hD : ∀ i, i ∈ D ↔ ∃ b, E.B.barcode[i]? = some b ∧ b.2 = rad) {j : ℕ}
    (hj : BornBy (· < rad) E.B.barcode j) :
    brkUpd E.p BD D (E.tr BD (· < rad) j) = E.tr BD (· ≤ rad) j := by
  obtain ⟨b, hb, -⟩ := hj
  rcases lt_trichotomy b.2 rad with h | h | h
  · rw [E.tr_pos hb h, E.tr_pos hb h.le]
    have hz : ∀ k i, E.rB (· < rad) (BD.zcol E.p j) k ≠ 0 → BD.z E.p i k = 0 := by
      intro k i hk
      by_contra hne
      have hk' : BD.z E.p k j ≠ 0 := by
        intro h0
        apply hk
        unfold IKEnv.rB
        by_cases hA : ActBy (· < rad) E.B.barcode k
        · rw [restr_apply_pos hA]; exact h0
        · rw [restr_apply_neg hA]
      exact (hE.two k j hk').2 (hE.two i k hne).1
    rw [brkUpd_flat fun k _ hk i => hz k i hk]
    funext i
    unfold IKEnv.rB
    by_cases hA : ActBy (· ≤ rad) E.B.barcode i
    · rw [restr_apply_pos hA, restr_apply_pos]
      swap
      · intro hi
        obtain ⟨b', h1, h2⟩ := (hD i).1 hi
        obtain ⟨b'', h3, -, h4⟩ := hA
        rw [h1] at h3; cases h3
        exact h4 h2.le
      by_cases h0 : BD.z E.p i j = 0
      · have h0' : BD.zcol E.p j i = 0 := h0
        by_cases hA' : ActBy (· < rad) E.B.barcode i
        · rw [restr_apply_pos hA']
        · rw [restr_apply_neg hA', h0']
      · rw [restr_apply_pos]
        refine act_old hA ?_
        obtain ⟨bi, h1, h2, -⟩ := hE.bd_act hb h0
        exact ⟨bi, h1, lt_of_le_of_lt h2 h⟩
    · rw [restr_apply_neg hA]
      by_cases hi : i ∈ D
      · rw [restr_apply_neg (by simpa using hi)]
      · rw [restr_apply_pos hi, restr_apply_neg]
        intro hA'
        exact hA (act_new hA' fun hh => hi ((hD i).2 hh))
  · rw [E.tr_neg hb (by rw [h]; exact lt_irrefl _), E.tr_pos hb h.le, brkUpd_single_mem ((hD j).2 ⟨b, hb, h⟩)]
    unfold IKEnv.rB
    rw [restr_of_supp]
    intro i hi
    have := hE.bd_act hb (i := i) hi
    rwa [h] at this
  · rw [E.tr_neg (P := (· < rad)) hb (not_lt.2 h.le), E.tr_neg (P := (· ≤ rad)) hb (not_le.2 h),
      brkUpd_single_not]
    intro hj
    obtain ⟨b', h1, h2⟩ := (hD j).1 hj
    rw [hb] at h1; cases h1
    exact absurd h2 (ne_of_gt h)

/-- How a column moves on. -/
theorem BrkOK.upd_cases [Fact E.p.Prime] (hE : BrkOK E BD U R) {D : Finset ℕ}
    (hD : ∀ i, i ∈ D ↔ ∃ b, E.B.barcode[i]? = some b ∧ b.2 = rad) {d : ℕ} {st : IK α}
    (h : BCore E BD U (· < rad) (· < rad) d st) {j : ℕ} (hj : st.Has j) :
    (U j ∧ ActBy (· < rad) E.B.barcode j ∧ E.V st j = Pi.single j 1 ∧ j ∈ D ∧
        brkUpd E.p BD D (E.V st j) = BD.zcol E.p j) ∨
      (U j ∧ ActBy (· < rad) E.B.barcode j ∧ E.V st j = Pi.single j 1 ∧ j ∉ D ∧
        brkUpd E.p BD D (E.V st j) = Pi.single j 1) ∨
      ((U j → ¬ ActBy (· < rad) E.B.barcode j) ∧
        brkUpd E.p BD D (E.V st j) = restr (ActBy (· ≤ rad) E.B.barcode) (E.V st j)) := by
  by_cases hU : U j ∧ ActBy (· < rad) E.B.barcode j
  · have hV := h.up j hj hU.1 hU.2
    by_cases hjD : j ∈ D
    · exact Or.inl ⟨hU.1, hU.2, hV, hjD, by rw [hV, brkUpd_single_mem hjD]⟩
    · exact Or.inr (Or.inl ⟨hU.1, hU.2, hV, hjD, by rw [hV, brkUpd_single_not hjD]⟩)
  · have hU' : U j → ¬ ActBy (· < rad) E.B.barcode j := fun h1 h2 => hU ⟨h1, h2⟩
    refine Or.inr (Or.inr ⟨hU', ?_⟩)
    have hlow := h.low j hj hU'
    have hz : ∀ k ∈ D, E.V st j k ≠ 0 → ∀ i, BD.z E.p i k = 0 := by
      intro k _ hk i
      by_contra hne
      exact hlow k hk (hE.two i k hne).1
    rw [brkUpd_flat hz]
    funext i
    have hs := h.supp j hj i
    by_cases hi : i ∈ D
    · rw [restr_apply_neg (by simpa using hi), restr_apply_neg]
      rintro ⟨b, h1, -, h2⟩
      obtain ⟨b', h3, h4⟩ := (hD i).1 hi
      rw [h1] at h3; cases h3
      exact h2 h4.le
    · rw [restr_apply_pos hi]
      by_cases h0 : E.V st j i = 0
      · rw [h0]
        by_cases hA : ActBy (· ≤ rad) E.B.barcode i
        · rw [restr_apply_pos hA, h0]
        · rw [restr_apply_neg hA]
      · rw [restr_apply_pos]
        exact act_new (hs h0) fun hh => hi ((hD i).2 hh)

theorem updateBroken_spec (hE : BrkOK E BD U R) {M : Mat} (hM : MatOK E.p E.B.dim E.A.dim M) :
    ∃ M' D, E.B.updateBroken E.p M rad = .ok M' ∧ MatOK E.p E.B.dim E.A.dim M' ∧
      (∀ i, i ∈ D ↔ ∃ b, E.B.barcode[i]? = some b ∧ b.2 = rad) ∧
      ∀ j, zv E.p (M'.col j) = brkUpd E.p BD D (zv E.p (M.col j)) := by
  set l := barIndices E.B.barcode fun b => decide (b.2 = rad) with hl
  have hmem : ∀ i, i ∈ l.toFinset ↔ ∃ b, E.B.barcode[i]? = some b ∧ b.2 = rad := by
    intro i; simp [hl, mem_barIndices]
  have hlt : ∀ k ∈ l, k < E.B.dim := by
    intro k hk
    obtain ⟨b, h1, -⟩ := (hmem k).1 (List.mem_toFinset.2 hk)
    rw [hE.lenB]; exact (List.getElem?_eq_some_iff.1 h1).1
  have hnd : l.Nodup := (barIndices_sorted _ _).imp fun h => Nat.ne_of_lt h
  by_cases h0 : l = []
  · refine ⟨M, l.toFinset, ?_, hM, hmem, ?_⟩
    · unfold Basis.updateBroken Basis.death
      rw [hE.flatB]
      simp only [Bool.false_eq_true, if_false]
      rw [← hl, h0, if_pos rfl]
    · intro j
      funext i
      rw [brkUpd_apply, h0]; simp
  · refine ⟨⟨M.nrows, M.cols.map (updateBrokenCol E.p BD l)⟩, l.toFinset, ?_, ?_, hmem, ?_⟩
    · unfold Basis.updateBroken Basis.death
      rw [hE.flatB]
      simp only [Bool.false_eq_true, if_false]
      rw [← hl, if_neg h0, hE.brk]
    · refine ⟨hM.rows, by simp [hM.ncols], ?_, ?_⟩
      · intro c hc
        obtain ⟨c', h1, rfl⟩ := List.mem_map.1 hc
        simp [updateBrokenCol, hM.len c' h1]
      · intro c hc x hx
        obtain ⟨c', h1, rfl⟩ := List.mem_map.1 hc
        simp only [updateBrokenCol, List.mem_map] at hx
        obtain ⟨i, -, rfl⟩ := hx
        have : (0 : Int) < E.p := by exact_mod_cast hE.hp.pos
        exact ⟨Int.emod_nonneg _ this.ne', Int.emod_lt_of_pos _ this⟩
    · intro j
      by_cases hj : j < M.cols.length
      · have : (⟨M.nrows, M.cols.map (updateBrokenCol E.p BD l)⟩ : Mat).col j =
            updateBrokenCol E.p BD l (M.col j) := by
          unfold Mat.col
          rw [List_getD_eq_getElem _ _ (by simpa using hj), List.getElem_map,
            List_getD_eq_getElem _ _ hj]
        rw [this]
        exact zv_updateBrokenCol hE.bdN hE.bdL hnd hlt (hM.len _ (Mat.col_mem hj))
      · rw [Mat.col_of_le (by simpa using hj), Mat.col_of_le (by simpa using hj)]
        have e : zv E.p ([] : List Int) = 0 := by funext i; simp
        rw [e, map_zero]

/-- The first phase of a radius. -/
theorem BCore.enter [Fact E.p.Prime] (hE : BrkOK E BD U R) {st : IK α} {dA : List ℕ}
    (hdA : ∀ i, i ∈ dA ↔ ∃ b, E.A.barcode[i]? = some b ∧ b.2 = rad)
    (h : BCore E BD U (· < rad) (· < rad) E.A.dim st) (hh : BHist E BD st (· < rad)) :
    ∃ st', relPhase E rad dA st = .ok st' ∧ BCore E BD U (· < rad) (· ≤ rad) 0 st' ∧
      BHist E BD st' (· < rad) ∧
      ∀ k k', ∀ i : ℕ, st'.piv k = i → st'.piv k' = i → k = k' := by
  obtain ⟨st1, g0, g1, g2, g3, g4, g5, g6, g7, g8⟩ := relKills (rad := rad) (n := E.A.dim) dA
    (fun c hc => by
      obtain ⟨b, h1, -⟩ := (hdA c).1 hc
      rw [hE.lenA]; exact (List.getElem?_eq_some_iff.1 h1).1) st h.pivIm h.imDeath
  obtain ⟨M, D, e1, hM, hD, hV⟩ := updateBroken_spec hE (rad := rad) (M := st1.im)
    (by rw [g1]; exact h.im)
  set st2 : IK α := { st1 with im := M } with hst2
  have hrel : relPhase E rad dA st = .ok st2 := by
    unfold relPhase
    rw [hE.brk, hE.start, g0]
    simp only [Option.isSome_some, if_true]
    rw [e1]
  have hpiv : ∀ j, st2.piv j = st1.piv j := fun _ => rfl
  have hV2 : ∀ j, E.V st2 j = brkUpd E.p BD D (E.V st j) := by
    intro j
    have := hV j
    rw [g1] at this
    exact this
  have hc0 : ∀ j, cutAt (· < rad) (· ≤ rad) 0 j = (· < rad) := fun j => cutAt_hi (by omega)
  have hcc : ∀ j, cutAt (· < rad) (· < rad) E.A.dim j = (· < rad) := fun j => by
    unfold cutAt; split <;> rfl
  have hHold : ∀ j, st2.Has j → st.Has j ∧ st2.piv j = st.piv j := by
    rintro j ⟨r, hr⟩
    rcases g8 j with k | k
    · rw [hpiv, k] at hr; omega
    · exact ⟨⟨r, by rw [← k]; exact hr⟩, k⟩
  have hHlt : ∀ j, st.Has j → j < E.A.dim := fun j hj => IK.has_lt h.pivIm hj
  have hHborn : ∀ j, st.Has j → BornBy (· < rad) E.A.barcode j := by
    intro j hj
    by_contra hnb
    have := (h.unborn j (hHlt j hj)).2 (by rw [hcc]; exact hnb)
    obtain ⟨r, hr⟩ := hj
    omega
  refine ⟨st2, hrel, ⟨hM, by rw [hst2, g2]; exact h.T, g3, g4, ?_, ?_, ?_, ?_, ?_, ?_, ?_, ?_, ?_, ?_,
    ?_, ?_, ?_⟩, ?_, ?_⟩
  · -- unborn
    intro j hj
    have := h.unborn j hj
    rw [hcc] at this
    rw [hc0, ← this, hpiv]
    rcases g8 j with k | k
    · rw [k]
      refine ⟨fun h => by omega, fun h2 => ?_⟩
      exfalso
      have hnb := this.1 h2
      by_cases hjd : j ∈ dA
      · obtain ⟨b, hb, hbr⟩ := (hdA j).1 hjd
        apply hnb
        refine ⟨b, hb, ?_⟩
        have hb' := hb
        rw [hE.getA] at hb'
        obtain ⟨b0, h3, rfl⟩ := Option.map_eq_some_iff.1 hb'
        obtain ⟨h4, h5⟩ := hE.wf b0 (List.mem_of_getElem? h3)
        change b0.1 < rad
        rw [← hbr]; exact lt_of_lt_of_le h4 h5
      · -- not killed
        have hne : st.piv j ≠ -1 := by omega
        have : ∀ (l : List ℕ) (s : IK α), j ∉ l → s.pivIm.length = E.A.dim →
            (l.foldl (relKill 0 rad) s).piv j = s.piv j := by
          intro l
          induction l with
          | nil => intro s _ _; rfl
          | cons c l ih =>
            intro s hjl hlen
            rw [List.foldl_cons, ih _ (fun h => hjl (by simp [h]))]
            · unfold relKill
              split_ifs with hif
              · change (s.pivIm.set c (-1)).getD j (-2) = s.pivIm.getD j (-2)
                rw [List.getD_eq_getElem?_getD, List.getElem?_set,
                  if_neg (fun e => hjl (by simp [e])), ← List.getD_eq_getElem?_getD]
              · rfl
            · unfold relKill
              split_ifs <;> simp [hlen]
        have := this dA st hjd h.pivIm
        rw [g0, k] at this
        omega
    · rw [k]
  · -- orig
    intro j hj hj2
    have hj2' : st.piv j = -2 := by
      rcases g8 j with k | k
      · rw [hpiv, k] at hj2; omega
      · rw [← k]; exact hj2
    rw [hV2, h.orig j hj hj2', brkUpd_single_not]
    intro hjD
    obtain ⟨b, hb, hbr⟩ := (hD j).1 hjD
    have := (h.unborn j hj).1 hj2'
    rw [hcc, hE.born_iff] at this
    exact this ⟨b, hb, by rw [← hbr]; exact (hE.wf b (List.mem_of_getElem? hb)).1⟩
  · intro j hj
    rcases g8 j with k | k
    · exact Or.inr (Or.inl k)
    · rcases h.pcase j hj with h1 | h1 | ⟨r, h1⟩
      · exact Or.inl (k.trans h1)
      · exact Or.inr (Or.inl (k.trans h1))
      · exact Or.inr (Or.inr ⟨r, k.trans h1⟩)
  · intro j hj; omega
  · -- aliveHi
    intro j _ r hr hact
    obtain ⟨hj, hpj⟩ := hHold j ⟨r, hr⟩
    rw [hpj] at hr
    obtain ⟨p1, p2, p3⟩ := h.aliveLo j (hHlt j hj) r hr
    rw [hV2]
    rcases hE.upd_cases hD h hj with ⟨u1, u2, u3, u4, u5⟩ | ⟨u1, u2, u3, u4, u5⟩ | ⟨u1, u5⟩
    · exfalso
      rw [u3] at p2
      have : r = j := by
        by_contra hne; exact p2 (Pi.single_eq_of_ne hne _)
      subst this
      obtain ⟨b, h1, h2⟩ := (hD r).1 u4
      obtain ⟨b', h3, -, h4⟩ := hact
      rw [h1] at h3; cases h3
      exact h4 h2.le
    · rw [u5]
      rw [u3] at p2 p3
      refine ⟨hact, p2, ?_⟩
      intro l hl hA
      have : r = j := by
        by_contra hne; exact p2 (Pi.single_eq_of_ne hne _)
      rw [Pi.single_eq_of_ne (by omega)]
    · rw [u5]
      refine ⟨hact, by rw [restr_apply_pos hact]; exact p2, ?_⟩
      intro l hl hA
      rw [restr_apply_pos hA]
      by_contra hne
      exact hne (p3 l hl (h.supp j hj l hne))
  · -- actHi
    intro j _ r hr
    obtain ⟨hj, hpj⟩ := hHold j ⟨r, hr⟩
    rw [hpj] at hr
    exact (h.aliveLo j (hHlt j hj) r hr).1
  · -- supp
    intro j hj l hl
    obtain ⟨hj, -⟩ := hHold j hj
    rw [hV2] at hl
    rcases hE.upd_cases hD h hj with ⟨u1, u2, u3, u4, u5⟩ | ⟨u1, u2, u3, u4, u5⟩ | ⟨u1, u5⟩
    · rw [u5] at hl
      obtain ⟨b, h1, h2⟩ := (hD j).1 u4
      rw [← h2]
      exact hE.bd_act h1 hl
    · rw [u5] at hl
      have : l = j := by
        by_contra hne; exact hl (Pi.single_eq_of_ne hne _)
      rw [this]
      exact act_new u2 fun hh => u4 ((hD j).2 hh)
    · rw [u5] at hl
      by_contra hA
      exact hl (restr_apply_neg hA)
  · -- up
    intro j hj hU hA
    obtain ⟨hj, -⟩ := hHold j hj
    have hb := (hE.born_iff _ j).1 (hHborn j hj)
    have hA0 := act_old hA hb
    rw [hV2, h.up j hj hU hA0, brkUpd_single_not]
    intro hjD
    obtain ⟨b, h1, h2⟩ := (hD j).1 hjD
    obtain ⟨b', h3, -, h4⟩ := hA
    rw [h1] at h3; cases h3
    exact h4 h2.le
  · -- low
    intro j hj hU l hl
    obtain ⟨hj, -⟩ := hHold j hj
    rw [hV2] at hl
    rcases hE.upd_cases hD h hj with ⟨u1, u2, u3, u4, u5⟩ | ⟨u1, u2, u3, u4, u5⟩ | ⟨u1, u5⟩
    · rw [u5] at hl
      exact (hE.two l j hl).2
    · exact absurd (act_new u2 fun hh => u4 ((hD j).2 hh)) (hU u1)
    · rw [u5] at hl
      refine h.low j hj u1 l ?_
      intro h0
      apply hl
      by_cases hA : ActBy (· ≤ rad) E.B.barcode l
      · rw [restr_apply_pos hA, h0]
      · rw [restr_apply_neg hA]
  · intro j j' hj; omega
  · intro j j' _ _ r h1 h2
    obtain ⟨k1, k2⟩ := hHold j ⟨r, h1⟩
    obtain ⟨k3, k4⟩ := hHold j' ⟨r, h2⟩
    exact h.injLo j j' (hHlt j k1) (hHlt j' k3) r (k2 ▸ h1) (k4 ▸ h2)
  · -- pre
    intro m
    have hmap := congrArg (Submodule.map (brkUpd E.p BD D)) (h.pre m)
    rw [spn_map, spn_map] at hmap
    simp only [hcc] at hmap
    simp only [hc0]
    have hr : spn (ZMod E.p) (fun j => brkUpd E.p BD D (E.tr BD (· < rad) j))
        (fun j => BornBy (· < rad) E.A.barcode j) m =
        spn (ZMod E.p) (fun j => E.tr BD (· ≤ rad) j)
        (fun j => BornBy (· < rad) E.A.barcode j) m :=
      spn_congr (fun _ _ => Iff.rfl) fun j _ hj => hE.upd_tr hD ((hE.born_iff _ j).1 hj)
    rw [← hr, ← hmap]
    by_cases hR : rad = R
    · -- everything ends
      have hdead : ∀ b ∈ E.B.barcode, b.2 ≤ rad := fun b hb => hR ▸ (hE.wf b hb).2
      have hno : ∀ j, ¬ ActBy (· ≤ rad) E.B.barcode j := by
        rintro j ⟨b, hb, -, h2⟩
        exact h2 (hdead b (List.mem_of_getElem? hb))
      have hkill : ∀ j, j < E.A.dim → st2.piv j = -1 := by
        intro j hj
        apply g7
        rw [hdA]
        obtain ⟨b, hb⟩ := hE.get (hE.dims ▸ hj)
        exact ⟨(b.1, R), by rw [hE.getA, hb]; rfl, hR.symm⟩
      have hnoH : ∀ j, ¬ st2.Has j := by
        rintro j ⟨r, hr⟩
        have hj : j < E.A.dim := IK.has_lt (st := st2) g3 ⟨r, hr⟩
        rw [hkill j hj] at hr; omega
      rw [hmap, hr]
      refine le_antisymm (spn_le fun j _ hj => absurd hj (hnoH j)) (spn_le fun j _ hj => ?_)
      have : E.tr BD (· ≤ rad) j = 0 := by
        obtain ⟨b, hb, -⟩ := (hE.born_iff _ j).1 hj
        unfold IKEnv.tr
        rw [if_pos ⟨b, hb, hdead b (List.mem_of_getElem? hb)⟩]
        unfold IKEnv.rB
        rw [restr_eq_zero]
        intro i hi; exact absurd hi (hno i)
      rw [this]; exact Submodule.zero_mem _
    · -- nothing is killed
      have hnil : dA = [] := by
        apply List.eq_nil_iff_forall_not_mem.2
        intro i hi
        obtain ⟨b, hb, hbr⟩ := (hdA i).1 hi
        rw [hE.getA] at hb
        obtain ⟨b0, -, rfl⟩ := Option.map_eq_some_iff.1 hb
        exact hR hbr.symm
      have hst1 : st1 = st := by rw [← g0, hnil]; rfl
      refine spn_congr (fun j _ => ?_) fun j _ _ => hV2 j
      unfold IK.Has
      rw [hpiv, hst1]
  · -- db
    intro j hj hj1 e he
    by_cases hp : st.piv j = -1
    · have := (g5 j hp).2
      change st1.imDeath[j]? = some e at he
      rw [this] at he
      exact (h.db j hj hp e he).le
    · have := g6 j hp hj1
      change st1.imDeath[j]? = some e at he
      rw [this, Option.some.injEq] at he
      exact he ▸ le_rfl
  · exact hh.update hE.lenA.symm (fun j _ => g5 j) (fun j _ => g6 j)
  · intro j j' r h1 h2
    obtain ⟨k1, k2⟩ := hHold j ⟨r, h1⟩
    obtain ⟨k3, k4⟩ := hHold j' ⟨r, h2⟩
    exact h.injLo j j' (hHlt j k1) (hHlt j' k3) r (k2 ▸ h1) (k4 ▸ h2)

end Permaviss
