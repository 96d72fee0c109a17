import Verif.Lemmas.BrokenMulti

/-!
# `image_kernel` with a broken barcode basis with any number of levels
-/

attribute [-instance] instMulZeroClassOfSemiring

namespace Permaviss

open Finset

variable {α : Type} [LinearOrder α]

/-- What is assumed about the data of the loop: the domain has the same births and all its bars end at
`R`, the matrix is the identity, and a generator goes to generators alive at that moment. -/
structure MulOK (E : IKEnv α) (BD : Mat) (L : List α) (R : α) : Prop where
  hp : E.p.Prime
  lenB : E.B.dim = E.B.barcode.length
  dims : E.A.dim = E.B.dim
  flatA : E.A.flat = false
  flatB : E.B.flat = false
  brk : E.B.brokenDiff = some BD
  start : E.start = 0
  F : MatOK E.p E.B.dim E.A.dim E.F
  f : ∀ j, j < E.A.dim → E.f j = Pi.single j 1
  barsA : E.A.barcode = E.B.barcode.map fun b => (b.1, R)
  wf : ∀ b ∈ E.B.barcode, b.1 < b.2 ∧ b.2 ≤ R
  bdN : BD.cols.length = E.B.dim
  bdL : ∀ c ∈ BD.cols, c.length = E.B.dim
  ends : EndsOK E.B.barcode L
  life : ∀ i j bi bj, E.B.barcode[i]? = some bi → E.B.barcode[j]? = some bj →
    BD.z E.p i j ≠ 0 → bi.1 ≤ bj.2 ∧ bj.2 < bi.2

/-- The position of generator `j`. -/
noncomputable abbrev IKEnv.mt (E : IKEnv α) (BD : Mat) (L : List α) (P : α → Prop) (j : ℕ) :
    ℕ → ZMod E.p := mtr E.p BD E.B.barcode L P j

/-- The invariant: columns below `d` were treated at this radius.  The recorded pivots of columns need
not be pivots any more. -/
structure GCore (E : IKEnv α) [Fact E.p.Prime] (BD : Mat) (L : List α) (P0 P1 : α → Prop) (d : ℕ)
    (st : IK α) : Prop where
  im : MatOK E.p E.B.dim E.A.dim st.im
  pivIm : st.pivIm.length = E.A.dim
  imDeath : st.imDeath.length = E.A.dim
  unborn : ∀ j, j < E.A.dim → (st.piv j = -2 ↔ ¬ BornBy (cutAt P0 P1 d j) E.A.barcode j)
  orig : ∀ j, j < E.A.dim → st.piv j = -2 → E.V st j = Pi.single j 1
  pcase : ∀ j, j < E.A.dim → st.piv j = -2 ∨ st.piv j = -1 ∨ st.Has j
  actLo : ∀ j, j < d → ∀ r : ℕ, st.piv j = r → ActBy P1 E.B.barcode r
  actHi : ∀ j, d ≤ j → ∀ r : ℕ, st.piv j = r → ActBy P0 E.B.barcode r
  supp : ∀ j, st.Has j → ∀ l, E.V st j l ≠ 0 → ActBy P1 E.B.barcode l
  injLo : ∀ j j', j < d → j' < d → ∀ r : ℕ, st.piv j = r → st.piv j' = r → j = j'
  injHi : ∀ j j', d ≤ j → d ≤ j' → ∀ r : ℕ, st.piv j = r → st.piv j' = r → j = j'
  pre : ∀ m, spn (ZMod E.p) (fun j => E.V st j) st.Has m =
    spn (ZMod E.p) (fun j => E.mt BD L P1 j)
      (fun j => BornBy (cutAt P0 P1 d j) E.A.barcode j) m
  db : ∀ j, j < E.A.dim → st.piv j = -1 → ∀ e, st.imDeath[j]? = some e → P1 e

/-- History. -/
def GHist (E : IKEnv α) [Fact E.p.Prime] (BD : Mat) (L : List α) (st : IK α) (P : α → Prop) : Prop :=
  ∀ t, P t → ∀ m, Module.finrank (ZMod E.p) (spn (ZMod E.p) (fun j => E.mt BD L (· ≤ t) j)
    (BornBy (· ≤ t) E.A.barcode) m) = (rset E st t m).card

variable {E : IKEnv α} {rad R : α} {BD : Mat} {L : List α}

namespace MulOK

variable (hE : MulOK E BD L R)
include hE

theorem lenA : E.A.dim = E.A.barcode.length := by
  rw [hE.barsA, List.length_map, hE.dims, hE.lenB]

theorem full : E.full = false := by simp [IKEnv.full, hE.brk]

theorem getA (j : ℕ) : E.A.barcode[j]? = (E.B.barcode[j]?).map fun b => (b.1, R) := by
  rw [hE.barsA, List.getElem?_map]

theorem born_iff (P : α → Prop) (j : ℕ) : BornBy P E.A.barcode j ↔ BornBy P E.B.barcode j := by
  unfold BornBy
  constructor
  · rintro ⟨b, h1, h2⟩
    rw [hE.getA] at h1
    obtain ⟨b', h3, rfl⟩ := Option.map_eq_some_iff.1 h1
    exact ⟨b', h3, h2⟩
  · rintro ⟨b, h1, h2⟩
    exact ⟨(b.1, R), by rw [hE.getA, h1]; rfl, h2⟩

theorem bd_lt {i j : ℕ} (h : BD.z E.p i j ≠ 0) : i < E.B.dim ∧ j < E.B.dim := by
  have hj : j < E.B.dim := by
    by_contra hc
    apply h
    have : BD.col j = [] := Mat.col_of_le (by rw [hE.bdN]; omega)
    change zv E.p (BD.col j) i = 0
    rw [this]; simp
  refine ⟨?_, hj⟩
  by_contra hc
  apply h
  change zv E.p (BD.col j) i = 0
  refine zv_of_le _ ?_
  rw [hE.bdL _ (Mat.col_mem (by rw [hE.bdN]; exact hj))]
  omega

theorem get {i : ℕ} (h : i < E.B.dim) : ∃ b, E.B.barcode[i]? = some b :=
  ⟨_, List.getElem?_eq_getElem (hE.lenB ▸ h)⟩

/-- The targets of a broken differential are alive. -/
theorem bd_act {i j : ℕ} {b : α × α} (hb : E.B.barcode[j]? = some b) (h : BD.z E.p i j ≠ 0) :
    ActBy (· ≤ b.2) E.B.barcode i := by
  obtain ⟨bi, hbi⟩ := hE.get (hE.bd_lt h).1
  obtain ⟨h1, h2⟩ := hE.life i j bi b hbi hb h
  exact ⟨bi, hbi, h1, not_le.2 h2⟩

end MulOK

theorem GHist.update [Fact E.p.Prime] {st st' : IK α} (h : GHist E BD L st (· < rad))
    (hA : E.A.barcode.length = E.A.dim)
    (h1 : ∀ j, j < E.A.dim → st.piv j = -1 → st'.piv j = -1 ∧ st'.imDeath[j]? = st.imDeath[j]?)
    (h2 : ∀ j, j < E.A.dim → st.piv j ≠ -1 → st'.piv j = -1 → st'.imDeath[j]? = some rad) :
    GHist E BD L st' (· < rad) := by
  intro t ht m
  rw [h t ht m, rset_update ht hA h1 h2]

theorem updateBroken_mul (hE : MulOK E BD L R) {M : Mat} (hM : MatOK E.p E.B.dim E.A.dim M) :
    ∃ M', E.B.updateBroken E.p M rad = .ok M' ∧ MatOK E.p E.B.dim E.A.dim M' ∧
      ∀ j, zv E.p (M'.col j) = brkUpd E.p BD (dieAt E.B.barcode rad) (zv E.p (M.col j)) := by
  set l := barIndices E.B.barcode fun b => decide (b.2 = rad) with hl
  have hmem : ∀ i, i ∈ l.toFinset ↔ ∃ b, E.B.barcode[i]? = some b ∧ b.2 = rad := by
    intro i; simp [hl, mem_barIndices]
  have hD : dieAt E.B.barcode rad = l.toFinset := by
    ext i; rw [mem_dieAt, hmem]
  rw [hD]
  have hlt : ∀ k ∈ l, k < E.B.dim := by
    intro k hk
    obtain ⟨b, h1, -⟩ := (hmem k).1 (List.mem_toFinset.2 hk)
    rw [hE.lenB]; exact (List.getElem?_eq_some_iff.1 h1).1
  have hnd : l.Nodup := (barIndices_sorted _ _).imp fun h => Nat.ne_of_lt h
  by_cases h0 : l = []
  · refine ⟨M, ?_, hM, ?_⟩
    · unfold Basis.updateBroken Basis.death
      rw [hE.flatB]
      simp only [Bool.false_eq_true, if_false]
      rw [← hl, h0, if_pos rfl]
    · intro j
      funext i
      rw [brkUpd_apply, h0]; simp
  · refine ⟨⟨M.nrows, M.cols.map (updateBrokenCol E.p BD l)⟩, ?_, ?_, ?_⟩
    · unfold Basis.updateBroken Basis.death
      rw [hE.flatB]
      simp only [Bool.false_eq_true, if_false]
      rw [← hl, if_neg h0, hE.brk]
    · refine ⟨hM.rows, by simp [hM.ncols], ?_, ?_⟩
      · intro c hc
        obtain ⟨c', h1, rfl⟩ := List.mem_map.1 hc
        simp [updateBrokenCol, hM.len c' h1]
      · intro c hc x hx
        obtain ⟨c', h1, rfl⟩ := List.mem_map.1 hc
        simp only [updateBrokenCol, List.mem_map] at hx
        obtain ⟨i, -, rfl⟩ := hx
        have : (0 : Int) < E.p := by exact_mod_cast hE.hp.pos
        exact ⟨Int.emod_nonneg _ this.ne', Int.emod_lt_of_pos _ this⟩
    · intro j
      by_cases hj : j < M.cols.length
      · have : (⟨M.nrows, M.cols.map (updateBrokenCol E.p BD l)⟩ : Mat).col j =
            updateBrokenCol E.p BD l (M.col j) := by
          unfold Mat.col
          rw [List_getD_eq_getElem _ _ (by simpa using hj), List.getElem_map,
            List_getD_eq_getElem _ _ hj]
        rw [this]
        exact zv_updateBrokenCol hE.bdN hE.bdL hnd hlt (hM.len _ (Mat.col_mem hj))
      · rw [Mat.col_of_le (by simpa using hj), Mat.col_of_le (by simpa using hj)]
        have e : zv E.p ([] : List Int) = 0 := by funext i; simp
        rw [e, map_zero]

/-- The first phase of a radius. -/
theorem GCore.enter [Fact E.p.Prime] (hE : MulOK E BD L R) {st : IK α} {dA : List ℕ}
    (hdA : ∀ i, i ∈ dA ↔ ∃ b, E.A.barcode[i]? = some b ∧ b.2 = rad)
    (h : GCore E BD L (· < rad) (· < rad) E.A.dim st) (hh : GHist E BD L st (· < rad)) :
    ∃ st', relPhase E rad dA st = .ok st' ∧ GCore E BD L (· < rad) (· ≤ rad) 0 st' ∧
      GHist E BD L st' (· < rad) ∧
      ∀ k k', ∀ i : ℕ, st'.piv k = i → st'.piv k' = i → k = k' := by
  obtain ⟨st1, g0, g1, g2, g3, g4, g5, g6, g7, g8⟩ := relKills (rad := rad) (n := E.A.dim) dA
    (fun c hc => by
      obtain ⟨b, h1, -⟩ := (hdA c).1 hc
      rw [hE.lenA]; exact (List.getElem?_eq_some_iff.1 h1).1) st h.pivIm h.imDeath
  obtain ⟨M, e1, hM, hV⟩ := updateBroken_mul hE (rad := rad) (M := st1.im)
    (by rw [g1]; exact h.im)
  set D := dieAt E.B.barcode rad with hDdef
  have hD : ∀ i, i ∈ D ↔ ∃ b, E.B.barcode[i]? = some b ∧ b.2 = rad := fun i => mem_dieAt
  set st2 : IK α := { st1 with im := M } with hst2
  have hrel : relPhase E rad dA st = .ok st2 := by
    unfold relPhase
    rw [hE.brk, hE.start, g0]
    simp only [Option.isSome_some, if_true]
    rw [e1]
  have hpiv : ∀ j, st2.piv j = st1.piv j := fun _ => rfl
  have hV2 : ∀ j, E.V st2 j = brkUpd E.p BD D (E.V st j) := by
    intro j
    have := hV j
    rw [g1] at this
    exact this
  have hc0 : ∀ j, cutAt (· < rad) (· ≤ rad) 0 j = (· < rad) := fun j => cutAt_hi (by omega)
  have hcc : ∀ j, cutAt (· < rad) (· < rad) E.A.dim j = (· < rad) := fun j => by
    unfold cutAt; split <;> rfl
  have hHold : ∀ j, st2.Has j → st.Has j ∧ st2.piv j = st.piv j := by
    rintro j ⟨r, hr⟩
    rcases g8 j with k | k
    · rw [hpiv, k] at hr; omega
    · exact ⟨⟨r, by rw [← k]; exact hr⟩, k⟩
  have hHlt : ∀ j, st.Has j → j < E.A.dim := fun j hj => IK.has_lt h.pivIm hj
  have hHborn : ∀ j, st.Has j → BornBy (· < rad) E.A.barcode j := by
    intro j hj
    by_contra hnb
    have := (h.unborn j (hHlt j hj)).2 (by rw [hcc]; exact hnb)
    obtain ⟨r, hr⟩ := hj
    omega
  refine ⟨st2, hrel, ⟨hM, g3, g4, ?_, ?_, ?_, ?_, ?_, ?_, ?_, ?_, ?_, ?_⟩, ?_, ?_⟩
  · -- unborn
    intro j hj
    have := h.unborn j hj
    rw [hcc] at this
    rw [hc0, ← this, hpiv]
    rcases g8 j with k | k
    · rw [k]
      refine ⟨fun h => by omega, fun h2 => ?_⟩
      exfalso
      have hnb := this.1 h2
      by_cases hjd : j ∈ dA
      · obtain ⟨b, hb, hbr⟩ := (hdA j).1 hjd
        apply hnb
        refine ⟨b, hb, ?_⟩
        have hb' := hb
        rw [hE.getA] at hb'
        obtain ⟨b0, h3, rfl⟩ := Option.map_eq_some_iff.1 hb'
        obtain ⟨h4, h5⟩ := hE.wf b0 (List.mem_of_getElem? h3)
        change b0.1 < rad
        rw [← hbr]; exact lt_of_lt_of_le h4 h5
      · -- not killed
        have hne : st.piv j ≠ -1 := by omega
        have : ∀ (l : List ℕ) (s : IK α), j ∉ l → s.pivIm.length = E.A.dim →
            (l.foldl (relKill 0 rad) s).piv j = s.piv j := by
          intro l
          induction l with
          | nil => intro s _ _; rfl
          | cons c l ih =>
            intro s hjl hlen
            rw [List.foldl_cons, ih _ (fun h => hjl (by simp [h]))]
            · unfold relKill
              split_ifs with hif
              · change (s.pivIm.set c (-1)).getD j (-2) = s.pivIm.getD j (-2)
                rw [List.getD_eq_getElem?_getD, List.getElem?_set,
                  if_neg (fun e => hjl (by simp [e])), ← List.getD_eq_getElem?_getD]
              · rfl
            · unfold relKill
              split_ifs <;> simp [hlen]
        have := this dA st hjd h.pivIm
        rw [g0, k] at this
        omega
    · rw [k]
  · -- orig
    intro j hj hj2
    have hj2' : st.piv j = -2 := by
      rcases g8 j with k | k
      · rw [hpiv, k] at hj2; omega
      · rw [← k]; exact hj2
    rw [hV2, h.orig j hj hj2', brkUpd_single_not]
    intro hjD
    obtain ⟨b, hb, hbr⟩ := (hD j).1 hjD
    have := (h.unborn j hj).1 hj2'
    rw [hcc, hE.born_iff] at this
    exact this ⟨b, hb, by rw [← hbr]; exact (hE.wf b (List.mem_of_getElem? hb)).1⟩
  · intro j hj
    rcases g8 j with k | k
    · exact Or.inr (Or.inl k)
    · rcases h.pcase j hj with h1 | h1 | ⟨r, h1⟩
      · exact Or.inl (k.trans h1)
      · exact Or.inr (Or.inl (k.trans h1))
      · exact Or.inr (Or.inr ⟨r, k.trans h1⟩)
  · intro j hj; omega
  · -- actHi
    intro j _ r hr
    obtain ⟨hj, hpj⟩ := hHold j ⟨r, hr⟩
    rw [hpj] at hr
    exact h.actLo j (hHlt j hj) r hr
  · -- supp
    intro j hj l hl
    obtain ⟨hj, -⟩ := hHold j hj
    rw [hV2, brkUpd_apply] at hl
    by_cases h0 : (if l ∈ D then 0 else E.V st j l) = 0
    · rw [h0, zero_add] at hl
      obtain ⟨k, hk, hne⟩ := Finset.exists_ne_zero_of_sum_ne_zero hl
      obtain ⟨b, h1, h2⟩ := (hD k).1 hk
      rw [← h2]
      exact hE.bd_act h1 (left_ne_zero_of_mul hne)
    · have hnD : l ∉ D := fun h => h0 (if_pos h)
      rw [if_neg hnD] at h0
      exact act_new (h.supp j hj l h0) fun hh => hnD ((hD l).2 hh)
  · intro j j' hj; omega
  · intro j j' _ _ r h1 h2
    obtain ⟨k1, k2⟩ := hHold j ⟨r, h1⟩
    obtain ⟨k3, k4⟩ := hHold j' ⟨r, h2⟩
    exact h.injLo j j' (hHlt j k1) (hHlt j' k3) r (k2 ▸ h1) (k4 ▸ h2)
  · -- pre
    intro m
    have hmap := congrArg (Submodule.map (brkUpd E.p BD D)) (h.pre m)
    rw [spn_map, spn_map] at hmap
    simp only [hcc] at hmap
    simp only [hc0]
    have hr : spn (ZMod E.p) (fun j => brkUpd E.p BD D (E.mt BD L (· < rad) j))
        (fun j => BornBy (· < rad) E.A.barcode j) m =
        spn (ZMod E.p) (fun j => E.mt BD L (· ≤ rad) j)
        (fun j => BornBy (· < rad) E.A.barcode j) m :=
      spn_congr (fun _ _ => Iff.rfl) fun j _ hj => mtr_step hE.ends rad j
    rw [← hr, ← hmap]
    by_cases hR : rad = R
    · -- everything ends
      have hdead : ∀ b ∈ E.B.barcode, b.2 ≤ rad := fun b hb => hR ▸ (hE.wf b hb).2
      have hno : ∀ j, ¬ ActBy (· ≤ rad) E.B.barcode j := by
        rintro j ⟨b, hb, -, h2⟩
        exact h2 (hdead b (List.mem_of_getElem? hb))
      have hkill : ∀ j, j < E.A.dim → st2.piv j = -1 := by
        intro j hj
        apply g7
        rw [hdA]
        obtain ⟨b, hb⟩ := hE.get (hE.dims ▸ hj)
        exact ⟨(b.1, R), by rw [hE.getA, hb]; rfl, hR.symm⟩
      have hnoH : ∀ j, ¬ st2.Has j := by
        rintro j ⟨r, hr⟩
        have hj : j < E.A.dim := IK.has_lt (st := st2) g3 ⟨r, hr⟩
        rw [hkill j hj] at hr; omega
      rw [hmap, hr]
      refine le_antisymm (spn_le fun j _ hj => absurd hj (hnoH j)) (spn_le fun j _ hj => ?_)
      have : E.mt BD L (· ≤ rad) j = 0 := by
        obtain ⟨b, hb, hbr⟩ := (hE.born_iff _ j).1 hj
        funext i
        by_contra hne
        obtain ⟨b', h1, -, h2⟩ := mtr_supp hE.ends (fun i j h => hE.lenB ▸ (hE.bd_lt h).1) hE.life hb
          (le_of_lt hbr) hne
        exact absurd (hdead b' (List.mem_of_getElem? h1)) (not_le.2 h2)
      rw [this]; exact Submodule.zero_mem _
    · -- nothing is killed
      have hnil : dA = [] := by
        apply List.eq_nil_iff_forall_not_mem.2
        intro i hi
        obtain ⟨b, hb, hbr⟩ := (hdA i).1 hi
        rw [hE.getA] at hb
        obtain ⟨b0, -, rfl⟩ := Option.map_eq_some_iff.1 hb
        exact hR hbr.symm
      have hst1 : st1 = st := by rw [← g0, hnil]; rfl
      refine spn_congr (fun j _ => ?_) fun j _ _ => hV2 j
      unfold IK.Has
      rw [hpiv, hst1]
  · -- db
    intro j hj hj1 e he
    by_cases hp : st.piv j = -1
    · have := (g5 j hp).2
      change st1.imDeath[j]? = some e at he
      rw [this] at he
      exact (h.db j hj hp e he).le
    · have := g6 j hp hj1
      change st1.imDeath[j]? = some e at he
      rw [this, Option.some.injEq] at he
      exact he ▸ le_rfl
  · exact hh.update hE.lenA.symm (fun j _ => g5 j) (fun j _ => g6 j)
  · intro j j' r h1 h2
    obtain ⟨k1, k2⟩ := hHold j ⟨r, h1⟩
    obtain ⟨k3, k4⟩ := hHold j' ⟨r, h2⟩
    exact h.injLo j j' (hHlt j k1) (hHlt j' k3) r (k2 ▸ h1) (k4 ▸ h2)

end Permaviss
