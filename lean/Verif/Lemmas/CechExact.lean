import Verif.Lemmas.GlobalChains
import Mathlib.Logic.Relation

/-!
# Exactness of the Čech complex at the first column
-/

namespace Permaviss

open Finset

attribute [-instance] instMulZeroClassOfSemiring

section

variable {α : Type} [LinearOrder α] [Zero α] {rnd : α → α} {E : SSEnv α} {ρ : List ℕ → α}

/-- Two pieces of the first column joined by a piece of the second one that contains the simplex `s`. -/
def SSEnv.Step (E : SSEnv α) (D : Mat) (deg : ℕ) (s : List ℕ) (a b : ℕ) : Prop :=
  a < E.spx 0 ∧ b < E.spx 0 ∧ a ≠ b ∧ ∃ l < E.spx 1, s ∈ E.G 1 l deg ∧
    (D.z E.p a l = 1 ∧ D.z E.p b l = -1 ∨ D.z E.p a l = -1 ∧ D.z E.p b l = 1) ∧
    ∀ k, k ≠ a → k ≠ b → D.z E.p k l = 0

/-- The pieces of the first column cover the complex, and the pieces with a given simplex are
connected. -/
structure CoverOK (E : SSEnv α) (ρ : List ℕ → α) (N : ℕ) (D : Mat) : Prop where
  diff : E.nerveDiff[0]? = some D
  cols : 1 < E.columns.length
  cover : ∀ s : List ℕ, s.length ≤ E.rows + 1 → s ≠ [] → s.Pairwise (· < ·) → (∀ v ∈ s, v < N) →
    ρ s < E.maxR → ∃ k < E.spx 0, s ∈ E.G 0 k (s.length - 1)
  lt : ∀ k < E.spx 0, ∀ deg ≤ E.rows, ∀ s ∈ E.G 0 k deg, ∀ v ∈ s, v < N
  conn : ∀ deg ≤ E.rows, ∀ s, ∀ k < E.spx 0, ∀ k' < E.spx 0, s ∈ E.G 0 k deg → s ∈ E.G 0 k' deg →
    Relation.ReflTransGen (E.Step D deg s) k k'
  colsum : ∀ l < E.spx 1, ∑ k ∈ range (E.spx 0), D.z E.p k l = 0

/-- The Čech differential of all chains, as a linear map. -/
def SSEnv.cechLin (E : SSEnv α) (D : Mat) (n deg : ℕ) :
    (ℕ → ℕ → ZMod E.p) →ₗ[ZMod E.p] (ℕ → ℕ → ZMod E.p) where
  toFun c k := E.cechSum D n deg k c
  map_add' c c' := by
    funext k
    change E.cechSum D n deg k (c + c') = E.cechSum D n deg k c + E.cechSum D n deg k c'
    unfold SSEnv.cechSum
    rw [← Finset.sum_add_distrib]
    exact Finset.sum_congr rfl fun l _ => cechOf_add _ _ _ _ _ _ _
  map_smul' x c := by
    funext k
    change E.cechSum D n deg k (x • c) = x • E.cechSum D n deg k c
    unfold SSEnv.cechSum
    rw [Finset.smul_sum]
    exact Finset.sum_congr rfl fun l _ => cechOf_smul _ _ _ _ _ _ _

/-- The simplex `s` on piece `k`. -/
def SSEnv.dl (E : SSEnv α) (n deg k : ℕ) (s : List ℕ) : ℕ → ℕ → ZMod E.p :=
  fun k' => if k' = k then Pi.single ((E.G n k deg).idxOf s) 1 else 0

/-- The families of chains that are Čech differentials of chains present at `t`, on the pieces of the
column. -/
def SSEnv.cechIm (E : SSEnv α) (ρ : List ℕ → α) (D : Mat) (n deg : ℕ) (t : α) :
    Submodule (ZMod E.p) (ℕ → ℕ → ZMod E.p) where
  carrier := {c | ∃ e, (∀ l < E.spx (n + 1), E.PresentAt ρ (n + 1) l deg (e l) t) ∧
    ∀ k < E.spx n, c k = E.cechSum D n deg k e}
  add_mem' := by
    rintro c c' ⟨e, h1, h2⟩ ⟨e', h1', h2'⟩
    refine ⟨e + e', fun l hl => PresentAt.add (h1 l hl) (h1' l hl), fun k hk => ?_⟩
    rw [Pi.add_apply, h2 k hk, h2' k hk]
    exact (congrFun (map_add (E.cechLin D n deg) e e') k).symm
  zero_mem' := by
    refine ⟨0, fun l _ i hi => absurd rfl hi, fun k _ => ?_⟩
    exact (congrFun (map_zero (E.cechLin D n deg)) k).symm
  smul_mem' := by
    rintro x c ⟨e, h1, h2⟩
    refine ⟨x • e, fun l hl => PresentAt.smul x (h1 l hl), fun k hk => ?_⟩
    rw [Pi.smul_apply, h2 k hk]
    exact (congrFun (map_smul (E.cechLin D n deg) x e) k).symm

theorem cechOf_dl (h : SSOK rnd E ρ) {n deg : ℕ} {D : Mat}
    (hn : n + 1 < E.columns.length) (hdeg : deg ≤ E.rows) (hD : E.nerveDiff[n]? = some D) {k l : ℕ}
    (hk : k < E.spx n)
    (hl : l < E.spx (n + 1)) {s : List ℕ} (hs : s ∈ E.G (n + 1) l deg) :
    E.cechOf D n deg k l (Pi.single ((E.G (n + 1) l deg).idxOf s) 1) =
      ((-1) ^ deg * D.z E.p k l) • Pi.single ((E.G n k deg).idxOf s) 1 := by
  funext j
  have hnd := h.G_nodup hn hl deg
  have hnd' := h.G_nodup (n := n) (by omega) hk deg
  rw [Pi.smul_apply, smul_eq_mul]
  unfold SSEnv.cechOf
  cases hj : (E.G n k deg)[j]? with
  | none =>
    dsimp only
    by_cases hz : D.get k l = 0
    · have : D.z E.p k l = 0 := by unfold Mat.z; rw [hz]; simp
      rw [this]; ring
    · have hsub := h.G_sub hD hn hk hl hz hdeg hs
      rw [Pi.single_eq_of_ne, mul_zero]
      rintro rfl
      have := List.idxOf_lt_length_of_mem hsub
      rw [List.getElem?_eq_getElem this] at hj
      cases hj
  | some u =>
    dsimp only
    obtain ⟨hj', rfl⟩ := List.getElem?_eq_some_iff.1 hj
    by_cases hu : (E.G n k deg)[j] = s
    · rw [hu, if_pos hs, Pi.single_eq_same]
      rw [← hu, List.Nodup.idxOf_getElem hnd', Pi.single_eq_same]
    · have hne : j ≠ (E.G n k deg).idxOf s := by
        rintro rfl
        exact hu (List.getElem_idxOf hj')
      rw [Pi.single_eq_of_ne hne, mul_zero]
      split
      · next hm =>
        rw [Pi.single_eq_of_ne, mul_zero]
        intro e
        exact hu ((List.idxOf_inj hm).1 e)
      · rfl

/-- One step between pieces. -/
theorem dl_step (h : SSOK rnd E ρ) {N : ℕ} {D : Mat} (C : CoverOK E ρ N D) {deg : ℕ}
    (hdeg : deg ≤ E.rows) {s : List ℕ} {t : α} (ht : ρ s ≤ t) {a b : ℕ} (hab : E.Step D deg s a b) :
    E.dl 0 deg a s - E.dl 0 deg b s ∈ E.cechIm ρ D 0 deg t := by
  obtain ⟨ha, hb, hne, l, hl, hs, hz, h0⟩ := hab
  obtain ⟨ε, hε, ea, eb⟩ : ∃ ε : ZMod E.p, ε * ε = 1 ∧ D.z E.p a l = ε ∧ D.z E.p b l = -ε := by
    rcases hz with ⟨z1, z2⟩ | ⟨z1, z2⟩
    · exact ⟨1, by ring, z1, z2⟩
    · exact ⟨-1, by ring, z1, by rw [z2]; ring⟩
  have hsq : ((-1 : ZMod E.p) ^ deg) * (-1) ^ deg = 1 := by
    rw [← mul_pow]; simp
  refine ⟨fun l' => if l' = l then ((-1) ^ deg * ε) • Pi.single ((E.G 1 l deg).idxOf s) 1 else 0, ?_, ?_⟩
  · intro l' _ i hi
    beta_reduce at hi
    split at hi
    · next he =>
      subst he
      by_cases hi' : i = (E.G 1 l' deg).idxOf s
      · have := List.idxOf_lt_length_of_mem hs
        refine ⟨s, ?_, ht⟩
        rw [hi', List.getElem?_eq_getElem this, List.getElem_idxOf this]
      · rw [Pi.smul_apply, Pi.single_eq_of_ne hi', smul_zero] at hi
        exact absurd rfl hi
    · exact absurd rfl hi
  · intro k hk
    rw [cechSum_single D hl, cechOf_smul, cechOf_dl h C.cols hdeg C.diff hk hl hs, Pi.sub_apply,
      smul_smul]
    unfold SSEnv.dl
    by_cases hka : k = a
    · subst hka
      rw [if_pos rfl, if_neg hne, ea, sub_zero]
      rw [show (-1) ^ deg * ε * ((-1) ^ deg * ε) = ((-1) ^ deg * (-1) ^ deg) * (ε * ε) by ring, hsq, hε]
      simp
    · by_cases hkb : k = b
      · subst hkb
        rw [if_neg hka, if_pos rfl, eb, zero_sub]
        rw [show (-1) ^ deg * ε * ((-1) ^ deg * -ε) = - (((-1) ^ deg * (-1) ^ deg) * (ε * ε)) by ring,
          hsq, hε]
        simp
      · rw [if_neg hka, if_neg hkb, h0 k hka hkb]
        simp

theorem dl_conn (h : SSOK rnd E ρ) {N : ℕ} {D : Mat} (C : CoverOK E ρ N D) {deg : ℕ}
    (hdeg : deg ≤ E.rows) {s : List ℕ} {t : α} (ht : ρ s ≤ t) {a b : ℕ}
    (hab : Relation.ReflTransGen (E.Step D deg s) a b) :
    E.dl 0 deg a s - E.dl 0 deg b s ∈ E.cechIm ρ D 0 deg t := by
  induction hab with
  | refl => rw [sub_self]; exact Submodule.zero_mem _
  | tail _ hbc ih =>
    have := Submodule.add_mem _ ih (dl_step h C hdeg ht hbc)
    rwa [sub_add_sub_cancel] at this

/-- Chains on the pieces of the first column whose sum is zero are a Čech differential. -/
theorem cech_exact (h : SSOK rnd E ρ) {N : ℕ} {D : Mat} (C : CoverOK E ρ N D) {deg : ℕ}
    (hdeg : deg ≤ E.rows) {t : α} {c : ℕ → ℕ → ZMod E.p}
    (hc : ∀ k < E.spx 0, E.PresentAt ρ 0 k deg (c k) t)
    (hsum : ∑ k ∈ range (E.spx 0), E.gl 0 k deg (c k) = 0) :
    ∃ e, (∀ l < E.spx 1, E.PresentAt ρ 1 l deg (e l) t) ∧
      ∀ k < E.spx 0, c k = E.cechSum D 0 deg k e := by
  change c ∈ E.cechIm ρ D 0 deg t
  classical
  let q := (E.cechIm ρ D 0 deg t).mkQ
  let f : List ℕ → (ℕ → ℕ → ZMod E.p) ⧸ E.cechIm ρ D 0 deg t := fun s =>
    if hs : ∃ k < E.spx 0, s ∈ E.G 0 k deg then q (E.dl 0 deg hs.choose s) else 0
  have hf : ∀ k < E.spx 0, ∀ s ∈ E.G 0 k deg, ρ s ≤ t → q (E.dl 0 deg k s) = f s := by
    intro k hk s hs hst
    have hex : ∃ k < E.spx 0, s ∈ E.G 0 k deg := ⟨k, hk, hs⟩
    simp only [f]
    rw [dif_pos hex, ← sub_eq_zero, ← map_sub]
    refine (Submodule.Quotient.mk_eq_zero _).2 ?_
    exact dl_conn h C hdeg hst (C.conn deg hdeg s k hk _ hex.choose_spec.1 hs hex.choose_spec.2)
  -- `c` as a combination
  have h1 : c - ∑ k ∈ range (E.spx 0), ∑ i ∈ range (E.G 0 k deg).length,
      c k i • E.dl 0 deg k ((E.G 0 k deg).getD i []) ∈ E.cechIm ρ D 0 deg t := by
    refine ⟨0, fun l _ i hi => absurd rfl hi, fun k hk => ?_⟩
    rw [show E.cechSum D 0 deg k 0 = 0 from congrFun (map_zero (E.cechLin D 0 deg)) k]
    rw [Pi.sub_apply, sub_eq_zero, Finset.sum_apply, Finset.sum_eq_single k]
    · rw [Finset.sum_apply]
      funext j
      rw [Finset.sum_apply]
      have hnd := h.G_nodup (n := 0) (by have := C.cols; omega) hk deg
      have e : ∀ i ∈ range (E.G 0 k deg).length,
          (c k i • E.dl 0 deg k ((E.G 0 k deg).getD i [])) k j = if i = j then c k i else 0 := by
        intro i hi
        have hi' := mem_range.1 hi
        rw [Pi.smul_apply, Pi.smul_apply, smul_eq_mul]
        unfold SSEnv.dl
        rw [if_pos rfl, List_getD_eq_getElem _ _ hi', List.Nodup.idxOf_getElem hnd]
        by_cases hij : i = j
        · subst hij; rw [if_pos rfl, Pi.single_eq_same, mul_one]
        · rw [if_neg hij, Pi.single_eq_of_ne (Ne.symm hij), mul_zero]
      rw [Finset.sum_congr rfl e]
      by_cases hj : j < (E.G 0 k deg).length
      · rw [Finset.sum_eq_single j, if_pos rfl]
        · intro i _ hij; rw [if_neg hij]
        · intro hn; exact absurd (mem_range.2 hj) hn
      · rw [Finset.sum_eq_zero]
        · by_contra hne
          obtain ⟨s, hs, -⟩ := hc k hk j hne
          rw [List.getElem?_eq_none (by omega)] at hs
          cases hs
        · intro i hi
          rw [if_neg]
          have := mem_range.1 hi
          omega
    · intro b _ hb
      rw [Finset.sum_apply]
      refine Finset.sum_eq_zero fun i _ => ?_
      rw [Pi.smul_apply]
      unfold SSEnv.dl
      rw [if_neg (Ne.symm hb), smul_zero]
    · intro hn; exact absurd (mem_range.2 hk) hn
  have h2 : q c = Finsupp.linearCombination (ZMod E.p) f (∑ k ∈ range (E.spx 0), E.gl 0 k deg (c k)) := by
    have : q c = q (∑ k ∈ range (E.spx 0), ∑ i ∈ range (E.G 0 k deg).length,
        c k i • E.dl 0 deg k ((E.G 0 k deg).getD i [])) := by
      rw [← sub_eq_zero, ← map_sub]
      exact (Submodule.Quotient.mk_eq_zero _).2 h1
    rw [this, map_sum, map_sum]
    refine Finset.sum_congr rfl fun k hk => ?_
    rw [map_sum, gl_eq, map_sum]
    refine Finset.sum_congr rfl fun i hi => ?_
    rw [map_smul, map_smul, Finsupp.linearCombination_single, one_smul]
    by_cases h0 : c k i = 0
    · rw [h0, zero_smul, zero_smul]
    · obtain ⟨s, hs, hst⟩ := hc k (mem_range.1 hk) i h0
      have hs' : (E.G 0 k deg).getD i [] = s := by
        rw [List.getD_eq_getElem?_getD, hs]; rfl
      rw [hs', hf k (mem_range.1 hk) s (List.mem_of_getElem? hs) hst]
  rw [hsum, map_zero] at h2
  exact (Submodule.Quotient.mk_eq_zero _).1 h2

end

end Permaviss
