import Verif.Lemmas.IKIm
import Verif.Lemmas.Spn

/-!
# `image_kernel` in the relative case: the invariant
-/

namespace Permaviss

open Finset

variable {α : Type} [LinearOrder α]

/-- What is assumed about the data of the loop in the relative case. -/
structure RelOK (E : IKEnv α) : Prop where
  hp : E.p.Prime
  lenA : E.A.dim = E.A.barcode.length
  lenB : E.B.dim = E.B.barcode.length
  flatA : E.A.flat = false
  flatB : E.B.flat = false
  unb : E.B.brokenDiff = none
  start : 0 < E.start
  F : MatOK E.p E.B.dim E.A.dim E.F
  birth : ∀ r i a b, E.A.barcode[i]? = some a → E.B.barcode[r]? = some b → E.F.z E.p r i ≠ 0 →
    b.1 ≤ a.1
  death : ∀ r i a b, E.start ≤ i → E.A.barcode[i]? = some a → E.B.barcode[r]? = some b →
    E.F.z E.p r i ≠ 0 → b.2 ≤ a.2
  wfA : ∀ b ∈ E.A.barcode, b.1 < b.2

/-- Column `j` of the matrix. -/
def IKEnv.f (E : IKEnv α) (j : ℕ) : ℕ → ZMod E.p := zv E.p (E.F.col j)

/-- The column has a pivot. -/
def IK.Has (st : IK α) (j : ℕ) : Prop := ∃ r : ℕ, st.piv j = r

/-- Rows active with respect to `P`. -/
noncomputable def IKEnv.rB (E : IKEnv α) (P : α → Prop) :
    (ℕ → ZMod E.p) →ₗ[ZMod E.p] (ℕ → ZMod E.p) := restr (ActBy P E.B.barcode)

/-- The invariant: columns below `d` were treated with respect to `P1`, the others with respect
to `P0`. -/
structure RCore (E : IKEnv α) [Fact E.p.Prime] (P0 P1 : α → Prop) (d : ℕ) (st : IK α) : Prop where
  im : MatOK E.p E.B.dim E.A.dim st.im
  T : MatOK E.p E.A.dim E.A.dim st.T
  pivIm : st.pivIm.length = E.A.dim
  imDeath : st.imDeath.length = E.A.dim
  unborn : ∀ j, j < E.A.dim → (st.piv j = -2 ↔ ¬ BornBy (cutAt P0 P1 d j) E.A.barcode j)
  orig : ∀ j, j < E.A.dim → st.piv j = -2 → E.V st j = E.f j
  pcase : ∀ j, j < E.A.dim → st.piv j = -2 ∨ st.piv j = -1 ∨ st.Has j
  alive : ∀ j, ∀ r : ℕ, st.piv j = r → IsPivOn (ActBy (cutAt P0 P1 d j) E.B.barcode) (E.V st j) r
  supp : ∀ j, st.Has j → ∀ l, E.V st j l ≠ 0 → BornBy (cutAt P0 P1 d j) E.B.barcode l
  injLo : ∀ j j', j < d → j' < d → ∀ r : ℕ, st.piv j = r → st.piv j' = r → j = j'
  injHi : ∀ j j', d ≤ j → d ≤ j' → ∀ r : ℕ, st.piv j = r → st.piv j' = r → j = j'
  pre : ∀ m, spn (ZMod E.p) (fun j => E.rB P1 (E.V st j)) st.Has m =
    spn (ZMod E.p) (fun j => E.rB P1 (E.f j))
      (fun j => BornBy (cutAt P0 P1 d j) E.A.barcode j) m
  db : ∀ j, j < E.A.dim → st.piv j = -1 → ∀ e, st.imDeath[j]? = some e → P1 e

open Classical in
/-- The columns below `m` alive at `t`, as far as is known. -/
noncomputable def rset (E : IKEnv α) (st : IK α) (t : α) (m : ℕ) : Finset ℕ :=
  (range m).filter fun j => BornBy (· ≤ t) E.A.barcode j ∧
    (st.piv j = -1 → ∀ d, st.imDeath[j]? = some d → t < d)

/-- History. -/
def RHist (E : IKEnv α) [Fact E.p.Prime] (st : IK α) (P : α → Prop) : Prop :=
  ∀ t, P t → ∀ m, Module.finrank (ZMod E.p) (spn (ZMod E.p) (fun j => E.rB (· ≤ t) (E.f j))
    (BornBy (· ≤ t) E.A.barcode) m) = (rset E st t m).card

variable {E : IKEnv α} {rad : α}

theorem IK.has_lt {st : IK α} {j n : ℕ} (hl : st.pivIm.length = n) (h : st.Has j) : j < n := by
  obtain ⟨r, h⟩ := h
  by_contra hc
  unfold IK.piv at h
  rw [List.getD_eq_getElem?_getD, List.getElem?_eq_none (by omega)] at h
  simp at h

theorem rset_update {st st' : IK α} {t : α} (ht : t < rad) (hA : E.A.barcode.length = E.A.dim)
    (h1 : ∀ j, j < E.A.dim → st.piv j = -1 → st'.piv j = -1 ∧ st'.imDeath[j]? = st.imDeath[j]?)
    (h2 : ∀ j, j < E.A.dim → st.piv j ≠ -1 → st'.piv j = -1 → st'.imDeath[j]? = some rad) (m : ℕ) :
    rset E st' t m = rset E st t m := by
  classical
  unfold rset
  refine Finset.filter_congr fun j _ => and_congr_right fun hb => ?_
  have hj : j < E.A.dim := hA ▸ hb.lt
  by_cases h : st.piv j = -1
  · obtain ⟨h3, h4⟩ := h1 j hj h
    rw [h3, h4, h]
  · constructor
    · intro _ h'; exact absurd h' h
    · intro _ h' d hd
      rw [h2 j hj h h', Option.some.injEq] at hd
      exact hd ▸ ht

theorem RHist.update [Fact E.p.Prime] {st st' : IK α} (h : RHist E st (· < rad))
    (hA : E.A.barcode.length = E.A.dim)
    (h1 : ∀ j, j < E.A.dim → st.piv j = -1 → st'.piv j = -1 ∧ st'.imDeath[j]? = st.imDeath[j]?)
    (h2 : ∀ j, j < E.A.dim → st.piv j ≠ -1 → st'.piv j = -1 → st'.imDeath[j]? = some rad) :
    RHist E st' (· < rad) := by
  intro t ht m
  rw [h t ht m, rset_update ht hA h1 h2]

namespace RelOK

variable (hE : RelOK E)
include hE

theorem full : E.full = false := by
  have := hE.start
  simp [IKEnv.full]; omega

theorem f_apply (j r : ℕ) : E.f j r = E.F.z E.p r j := rfl

theorem f_born {P : α → Prop} (hP : Down P) {j : ℕ} (hj : BornBy P E.A.barcode j) (l : ℕ)
    (h : E.f j l ≠ 0) : BornBy P E.B.barcode l := by
  obtain ⟨a, ha, hPa⟩ := hj
  have hl : l < E.B.dim := by
    by_contra hc
    apply h
    unfold IKEnv.f
    have hjn : j < E.A.dim := hE.lenA ▸ (List.getElem?_eq_some_iff.1 ha).1
    exact zv_of_le _ (by rw [hE.F.col_len hjn]; omega)
  have hb : E.B.barcode[l]? = some (E.B.barcode[l]'(hE.lenB ▸ hl)) := List.getElem?_eq_getElem _
  exact ⟨_, hb, hP _ _ (hE.birth l j a _ ha hb h) hPa⟩

theorem f_dead {j : ℕ} (hs : E.start ≤ j) {a : α × α} (ha : E.A.barcode[j]? = some a)
    (h : a.2 ≤ rad) : E.rB (· ≤ rad) (E.f j) = 0 := by
  unfold IKEnv.rB
  rw [restr_eq_zero]
  intro r hr
  by_contra hne
  obtain ⟨b, hb, -, hd⟩ := hr
  exact hd ((hE.death r j a b hs ha hb hne).trans h)

end RelOK

/-- Restricting later loses nothing for vectors supported on rows already born. -/
theorem rB_le {P0 P1 : α → Prop} (h01 : ∀ x, P0 x → P1 x) {v : ℕ → ZMod E.p}
    (hv : ∀ l, v l ≠ 0 → BornBy P0 E.B.barcode l) : E.rB P1 (E.rB P0 v) = E.rB P1 v := by
  funext l
  unfold IKEnv.rB
  by_cases h : ActBy P1 E.B.barcode l
  · rw [restr_apply_pos h, restr_apply_pos h]
    by_cases hvl : v l = 0
    · by_cases h0 : ActBy P0 E.B.barcode l
      · rw [restr_apply_pos h0]
      · rw [restr_apply_neg h0, hvl]
    · obtain ⟨b, hb, hP⟩ := hv l hvl
      obtain ⟨b', hb', -, hd⟩ := h
      rw [hb] at hb'; cases hb'
      exact restr_apply_pos (S := ActBy P0 E.B.barcode) ⟨b, hb, hP, fun h => hd (h01 _ h)⟩
  · rw [restr_apply_neg h, restr_apply_neg h]

/-- Entering a radius. -/
theorem RCore.enter [Fact E.p.Prime] (hE : RelOK E) {st : IK α}
    (h : RCore E (· < rad) (· < rad) 0 st) : RCore E (· < rad) (· ≤ rad) 0 st := by
  have hc : ∀ (P : α → Prop) j, cutAt (· < rad) P 0 j = (· < rad) := fun P j => cutAt_hi (by omega)
  refine { h with
    unborn := fun j hj => by have := h.unborn j hj; rw [hc] at this ⊢; exact this
    alive := fun j r hj => by have := h.alive j r hj; rw [hc] at this ⊢; exact this
    supp := fun j hj l => by have := h.supp j hj l; rw [hc] at this ⊢; exact this
    pre := ?_
    db := fun j hj h1 e he => le_of_lt (h.db j hj h1 e he) }
  intro m
  have := congrArg (Submodule.map (E.rB (· ≤ rad))) (h.pre m)
  rw [spn_map, spn_map] at this
  simp only [hc] at this ⊢
  refine Eq.trans ?_ (this.trans ?_)
  · refine spn_congr (fun _ _ => Iff.rfl) fun j _ hj => (rB_le (fun x => le_of_lt) ?_).symm
    intro l hl
    have := h.supp j hj l hl
    rwa [hc] at this
  · refine spn_congr (fun _ _ => Iff.rfl) fun j _ hj => rB_le (fun x => le_of_lt) ?_
    exact hE.f_born (down_lt rad) hj

/-- One bar of the domain dies. -/
theorem RCore.kill [Fact E.p.Prime] (hE : RelOK E) {st : IK α} {c : ℕ}
    (h : RCore E (· < rad) (· ≤ rad) 0 st) (hh : RHist E st (· < rad))
    (hcd : ∃ b, E.A.barcode[c]? = some b ∧ b.2 = rad) :
    RCore E (· < rad) (· ≤ rad) 0 (relKill E.start rad st c) ∧
      RHist E (relKill E.start rad st c) (· < rad) := by
  unfold relKill
  split_ifs with hif
  swap
  · exact ⟨h, hh⟩
  obtain ⟨hst, hpc⟩ := hif
  obtain ⟨b, hb, hbr⟩ := hcd
  have hcn : c < E.A.dim := hE.lenA ▸ (List.getElem?_eq_some_iff.1 hb).1
  have hcb : BornBy (· < rad) E.A.barcode c := by
    refine ⟨b, hb, ?_⟩
    rw [← hbr]; exact hE.wfA b (List.mem_of_getElem? hb)
  have hc0 : ∀ j, cutAt (· < rad) (· ≤ rad) 0 j = (· < rad) := fun j => cutAt_hi (by omega)
  have hp2 : st.piv c ≠ -2 := fun e => (by
    have := (h.unborn c hcn).1 e
    rw [hc0] at this
    exact this hcb)
  have hp1 : st.piv c ≠ -1 := by
    unfold IK.piv
    intro e
    apply hpc
    rw [List_getD_eq_getElem _ _ (by rw [h.pivIm]; exact hcn)] at e ⊢
    exact e
  have hHas : st.Has c := ((h.pcase c hcn).resolve_left hp2).resolve_left hp1
  set st' : IK α := { st with imDeath := st.imDeath.set c rad, pivIm := st.pivIm.set c (-1) } with hst'
  have hpiv : ∀ j, st'.piv j = if j = c then -1 else st.piv j := by
    intro j
    exact getD_set _ _ _ _ _ (by rw [h.pivIm]; exact hcn)
  have hV : ∀ j, E.V st' j = E.V st j := fun _ => rfl
  have hHas' : ∀ j, st'.Has j ↔ st.Has j ∧ j ≠ c := by
    intro j
    unfold IK.Has
    rw [hpiv]
    by_cases hj : j = c
    · simp only [hj, if_true, ne_eq, not_true_eq_false, and_false, iff_false]
      rintro ⟨r, hr⟩; omega
    · simp [hj]
  have hne : ∀ j, ∀ r : ℕ, st'.piv j = r → st.piv j = r := by
    intro j r hr
    rw [hpiv] at hr
    split_ifs at hr
    exact hr
  refine ⟨⟨h.im, h.T, by simp [st', h.pivIm], by simp [st', h.imDeath], ?_, ?_, ?_, ?_, ?_, ?_, ?_,
    ?_, ?_⟩, hh.update hE.lenA.symm ?_ ?_⟩
  · intro j hj
    rw [hpiv]
    split_ifs with hjc
    · subst hjc
      rw [hc0]
      simp [hcb]
    · exact h.unborn j hj
  · intro j hj hj2
    rw [hpiv] at hj2
    split_ifs at hj2
    · omega
    · exact h.orig j hj hj2
  · intro j hj
    rw [hHas', hpiv]
    by_cases hjc : j = c
    · simp [hjc]
    · simpa [hjc] using h.pcase j hj
  · intro j r hj
    exact h.alive j r (hne j r hj)
  · intro j hj
    exact h.supp j ((hHas' j).1 hj).1
  · intro j j' hj; exact absurd hj (by omega)
  · intro j j' h1 h2 r h3 h4
    exact h.injHi j j' h1 h2 r (hne j r h3) (hne j' r h4)
  · intro m
    simp only [hV]
    rw [← h.pre m]
    have key : E.rB (· ≤ rad) (E.V st c) ∈
        spn (ZMod E.p) (fun j => E.rB (· ≤ rad) (E.V st j)) st.Has c := by
      have h1 : E.rB (· ≤ rad) (E.V st c) ∈
          spn (ZMod E.p) (fun j => E.rB (· ≤ rad) (E.V st j)) st.Has (c + 1) :=
        mem_spn (x := fun j => E.rB (· ≤ rad) (E.V st j)) (Nat.lt_succ_self c) hHas
      rw [h.pre] at h1 ⊢
      refine (spn_le fun j hj hj' => ?_) h1
      by_cases hjc : j = c
      · subst hjc
        rw [hE.f_dead hst hb (le_of_eq hbr)]
        exact Submodule.zero_mem _
      · exact mem_spn (x := fun j => E.rB (· ≤ rad) (E.f j)) (by omega) hj'
    rw [← spn_remove key]
    exact spn_congr (fun j _ => hHas' j) fun _ _ _ => rfl
  · intro j hj hj1 e he
    rw [hpiv] at hj1
    change (st.imDeath.set c rad)[j]? = some e at he
    rw [List.getElem?_set] at he
    by_cases hjc : j = c
    · subst hjc
      rw [if_pos rfl, if_pos (by rw [h.imDeath]; exact hj), Option.some.injEq] at he
      exact he ▸ le_rfl
    · rw [if_neg hjc] at hj1
      rw [if_neg (fun e => hjc e.symm)] at he
      exact h.db j hj hj1 e he
  · intro j hj hj1
    have hjc : j ≠ c := by rintro rfl; exact hp1 hj1
    refine ⟨by rw [hpiv, if_neg hjc]; exact hj1, ?_⟩
    change (st.imDeath.set c rad)[j]? = _
    rw [List.getElem?_set, if_neg (fun e => hjc e.symm)]
  · intro j hj hj1 hj2
    have hjc : j = c := by
      by_contra hjc
      rw [hpiv, if_neg hjc] at hj2
      exact hj1 hj2
    subst hjc
    change (st.imDeath.set j rad)[j]? = _
    rw [List.getElem?_set, if_pos rfl, if_pos (by rw [h.imDeath]; exact hj)]

theorem RCore.kills [Fact E.p.Prime] (hE : RelOK E) (l : List ℕ)
    (hl : ∀ c ∈ l, ∃ b, E.A.barcode[c]? = some b ∧ b.2 = rad) :
    ∀ st : IK α, RCore E (· < rad) (· ≤ rad) 0 st → RHist E st (· < rad) →
    RCore E (· < rad) (· ≤ rad) 0 (l.foldl (relKill E.start rad) st) ∧
      RHist E (l.foldl (relKill E.start rad) st) (· < rad) := by
  induction l with
  | nil => exact fun st h hh => ⟨h, hh⟩
  | cons c l ih =>
    intro st h hh
    obtain ⟨h1, h2⟩ := h.kill hE hh (hl c (by simp))
    exact ih (fun c hc => hl c (by simp [hc])) _ h1 h2

end Permaviss
