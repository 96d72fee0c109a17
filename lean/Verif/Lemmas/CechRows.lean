import Verif.Lemmas.CechExact
import Verif.Lemmas.Clique

/-!
# Exactness of the Čech complex at the later columns
-/

namespace Permaviss

open Finset

attribute [-instance] instMulZeroClassOfSemiring

/-- Every vertex but the last one has a later neighbour which is joined to all its later neighbours: cycles
are boundaries. -/
theorem dominated_acyclic {K : Type} [CommRing K] {adj : ℕ → ℕ → Prop} [DecidableRel adj] : ∀ (n : ℕ)
    (V : Finset ℕ), V.card ≤ n → (∀ v ∈ V, (∃ u ∈ V, v < u) → ∃ w ∈ V, v < w ∧ adj v w ∧
      ∀ u ∈ V, v < u → adj v u → (u < w → adj u w) ∧ (w < u → adj w u)) → ∀ m, AcycAt K adj V (m + 1)
  | n, V, hn, hdom, m => by
    rcases V.eq_empty_or_nonempty with rfl | hV
    · exact AcycAt.empty m
    match n, hn with
    | 0, hn => exact absurd (Finset.card_eq_zero.1 (Nat.le_zero.1 hn)) hV.ne_empty
    | n + 1, hn =>
    have hv := V.min'_mem hV
    have hmin : ∀ u ∈ V, V.min' hV ≤ u := fun u hu => V.min'_le u hu
    set v := V.min' hV
    by_cases hmax : ∃ u ∈ V, v < u
    swap
    · exact AcycAt.cone_min hv hmin (fun u hu hvu => absurd ⟨u, hu, hvu⟩ hmax) m
    obtain ⟨w, hw, hvw, haw, hd⟩ := hdom v hv hmax
    have hcard : (V.erase v).card ≤ n := by rw [Finset.card_erase_of_mem hv]; omega
    refine AcycAt.step hv hmin ?_ ?_
    · refine AcycAt.cone (w := w) _ _ le_rfl ?_ ?_ ?_ m
      · exact Finset.mem_filter.2 ⟨Finset.mem_erase.2 ⟨hvw.ne', hw⟩, haw⟩
      · intro u hu huw
        obtain ⟨h1, h2⟩ := Finset.mem_filter.1 hu
        obtain ⟨h3, h4⟩ := Finset.mem_erase.1 h1
        exact (hd u h4 (lt_of_le_of_ne (hmin u h4) (Ne.symm h3)) h2).1 huw
      · intro u hu huw
        obtain ⟨h1, h2⟩ := Finset.mem_filter.1 hu
        obtain ⟨h3, h4⟩ := Finset.mem_erase.1 h1
        exact (hd u h4 (lt_of_le_of_ne (hmin u h4) (Ne.symm h3)) h2).2 huw
    · refine dominated_acyclic n _ hcard (fun x hx hmx => ?_) m
      obtain ⟨h3, h4⟩ := Finset.mem_erase.1 hx
      obtain ⟨u, hu, hxu⟩ := hmx
      obtain ⟨y, hy, hxy, hay, hdy⟩ := hdom x h4 ⟨u, (Finset.mem_erase.1 hu).2, hxu⟩
      have hvx := lt_of_le_of_ne (hmin x h4) (Ne.symm h3)
      exact ⟨y, Finset.mem_erase.2 ⟨(hvx.trans hxy).ne', hy⟩, hxy, hay,
        fun u hu => hdy u (Finset.mem_erase.1 hu).2⟩

section

variable {α : Type} [LinearOrder α] [Zero α] {rnd : α → α} {E : SSEnv α} {ρ : List ℕ → α}

/-- The nerve: `S n` are the cliques with `n + 1` vertices, the pieces of column `n` are intersections of
pieces of the first one, and the pieces with a given simplex have no homology. -/
structure NerveOK (E : SSEnv α) (N : ℕ) (S : ℕ → List (List ℕ)) (adj : ℕ → ℕ → Prop) : Prop where
  spx : ∀ n ≤ E.columns.length, E.spx n = (S n).length
  last : E.spx E.columns.length = 0
  nodup : ∀ n ≤ E.columns.length, (S n).Nodup
  mem : ∀ n ≤ E.columns.length, ∀ σ, σ ∈ S n ↔ CliqueOn adj (range N) (n + 1) σ
  diff : ∀ n < E.columns.length, ∀ D, E.nerveDiff[n]? = some D → ∃ ε : ZMod E.p, ε * ε = 1 ∧ ∀ k l σ τ,
    (S n)[k]? = some σ → (S (n + 1))[l]? = some τ → D.z E.p k l = ε * augSum (ZMod E.p) τ σ
  piece : ∀ n < E.columns.length, ∀ k σ, (S n)[k]? = some σ → ∀ deg ≤ E.rows, ∀ s,
    s ∈ E.G n k deg ↔ ∀ v ∈ σ, s ∈ E.G 0 v deg
  acyc : ∀ deg ≤ E.rows, ∀ s m,
    AcycAt (ZMod E.p) adj ((range N).filter fun v => s ∈ E.G 0 v deg) (m + 1)

theorem augSum_face {K : Type} [CommRing K] {adj : ℕ → ℕ → Prop} {V : Finset ℕ} {m : ℕ} {τ σ : List ℕ}
    (hτ : CliqueOn adj V (m + 1) τ) (h : augSum K τ σ ≠ 0) : CliqueOn adj V m σ := by
  unfold augSum at h
  rw [Finsupp.finset_sum_apply] at h
  obtain ⟨k, hk, hne⟩ := Finset.exists_ne_zero_of_sum_ne_zero h
  have hk' := mem_range.1 hk
  have : τ.eraseIdx k = σ := by
    by_contra hc
    rw [Finsupp.smul_apply, Finsupp.single_eq_of_ne (Ne.symm hc), smul_zero] at hne
    exact hne rfl
  subst this
  obtain ⟨h1, h2, h3⟩ := hτ
  refine ⟨?_, fun v hv => h2 v (List.mem_of_mem_eraseIdx hv), ?_⟩
  · rw [List.length_eraseIdx, if_pos hk']; omega
  · exact h3.sublist (List.eraseIdx_sublist τ k)

theorem linComb_sum {K : Type} [CommRing K] (S : List (List ℕ)) (hS : S.Nodup) {u : List ℕ →₀ K}
    (hu : ∀ σ, u σ ≠ 0 → σ ∈ S) (f : List ℕ → List ℕ →₀ K) (τ : List ℕ) :
    Finsupp.linearCombination K f u τ = ∑ m ∈ range S.length, u (S.getD m []) * f (S.getD m []) τ := by
  rw [Finsupp.linearCombination_apply, Finsupp.sum, Finsupp.finset_sum_apply]
  have e : ∑ m ∈ range S.length, u (S.getD m []) * f (S.getD m []) τ =
      ∑ σ ∈ S.toFinset, u σ * f σ τ := by
    refine Finset.sum_nbij (fun m => S.getD m []) ?_ ?_ ?_ fun _ _ => rfl
    · intro m hm
      exact List.mem_toFinset.2 (getD_mem' (mem_range.1 hm))
    · intro i hi j hj hij
      have hi' := mem_range.1 hi
      have hj' := mem_range.1 hj
      beta_reduce at hij
      rw [List_getD_eq_getElem _ _ hi', List_getD_eq_getElem _ _ hj'] at hij
      exact (List.Nodup.getElem_inj_iff hS).1 hij
    · intro σ hσ
      obtain ⟨m, hm, rfl⟩ := List.getElem_of_mem (List.mem_toFinset.1 hσ)
      exact ⟨m, mem_range.2 hm, List_getD_eq_getElem _ _ hm⟩
  rw [e]
  refine Finset.sum_subset_zero_on_sdiff ?_ ?_ ?_
  · intro σ hσ; exact List.mem_toFinset.2 (hu σ (Finsupp.mem_support_iff.1 hσ))
  · intro σ hσ
    have := (Finset.mem_sdiff.1 hσ).2
    rw [Finsupp.notMem_support_iff.1 this, zero_mul]
  · intro σ _; rfl

/-- The coefficient of the simplex `s` in a chain on piece `k`. -/
def SSEnv.valAt (E : SSEnv α) (n deg k : ℕ) (s : List ℕ) (c : ℕ → ZMod E.p) : ZMod E.p :=
  if s ∈ E.G n k deg then c ((E.G n k deg).idxOf s) else 0

theorem sign_deg (p deg : ℕ) : ((-1 : ZMod p) ^ deg) * (-1) ^ deg = 1 := by
  rw [← mul_pow]; simp

/-- The Čech differential of chains, at one simplex. -/
theorem cechSum_valAt {n deg k : ℕ} (D : Mat) (c : ℕ → ℕ → ZMod E.p) {i : ℕ} {s : List ℕ}
    (hs : (E.G n k deg)[i]? = some s) : E.cechSum D n deg k c i =
      (-1) ^ deg * ∑ l ∈ range (E.spx (n + 1)), D.z E.p k l * E.valAt (n + 1) deg l s (c l) := by
  unfold SSEnv.cechSum
  rw [Finset.sum_apply, Finset.mul_sum]
  refine Finset.sum_congr rfl fun l _ => ?_
  unfold SSEnv.cechOf SSEnv.valAt
  rw [hs]
  dsimp only
  split
  · ring
  · rw [mul_zero, mul_zero]

/-- A family of chains on column `n + 1` whose Čech differential is zero is a Čech differential. -/
theorem cech_exact_succ (h : SSOK rnd E ρ) {N : ℕ} {S : ℕ → List (List ℕ)} {adj : ℕ → ℕ → Prop}
    (H : NerveOK E N S adj) {n deg : ℕ} (hn : n + 1 < E.columns.length) (hdeg : deg ≤ E.rows) {D D' : Mat}
    (hD : E.nerveDiff[n]? = some D) (hD' : E.nerveDiff[n + 1]? = some D') {t : α} {c : ℕ → ℕ → ZMod E.p}
    (hc : ∀ l < E.spx (n + 1), E.PresentAt ρ (n + 1) l deg (c l) t)
    (hz : ∀ k < E.spx n, E.cechSum D n deg k c = 0) :
    ∃ q, (∀ m < E.spx (n + 2), E.PresentAt ρ (n + 2) m deg (q m) t) ∧
      ∀ l < E.spx (n + 1), c l = E.cechSum D' (n + 1) deg l q := by
  classical
  obtain ⟨ε, hε, hDz⟩ := H.diff n (by omega) D hD
  obtain ⟨ε', hε', hDz'⟩ := H.diff (n + 1) hn D' hD'
  have hs0 := H.spx n (by omega)
  have hs1 := H.spx (n + 1) (by omega)
  have hs2 := H.spx (n + 2) (by omega)
  have key : ∀ s, ∃ u : List ℕ →₀ ZMod E.p,
      u ∈ cliqueChains (ZMod E.p) adj ((range N).filter fun v => s ∈ E.G 0 v deg) (n + 3) ∧
      (t < ρ s → u = 0) ∧ ∀ l < E.spx (n + 1), augBdry (ZMod E.p) u ((S (n + 1)).getD l []) =
        E.valAt (n + 1) deg l s (c l) := by
    intro s
    set z : List ℕ →₀ ZMod E.p := ∑ l ∈ range (E.spx (n + 1)),
      E.valAt (n + 1) deg l s (c l) • Finsupp.single ((S (n + 1)).getD l []) 1 with hzdef
    have hzl : ∀ l < E.spx (n + 1), z ((S (n + 1)).getD l []) = E.valAt (n + 1) deg l s (c l) := by
      intro l hl
      rw [hzdef, Finsupp.finset_sum_apply, Finset.sum_eq_single l]
      · rw [Finsupp.smul_apply, Finsupp.single_eq_same, smul_eq_mul, mul_one]
      · intro l' hl' hne
        have h1 : l' < (S (n + 1)).length := by have := mem_range.1 hl'; omega
        have h2 : l < (S (n + 1)).length := by omega
        rw [Finsupp.smul_apply, Finsupp.single_eq_of_ne, smul_zero]
        rw [List_getD_eq_getElem _ _ h1, List_getD_eq_getElem _ _ h2]
        intro e
        exact hne ((List.Nodup.getElem_inj_iff (H.nodup (n + 1) (by omega))).1 e.symm)
      · intro hl'; exact absurd (mem_range.2 hl) hl'
    by_cases hts : t < ρ s
    · refine ⟨0, Submodule.zero_mem _, fun _ => rfl, fun l hl => ?_⟩
      rw [map_zero, Finsupp.zero_apply]
      symm
      unfold SSEnv.valAt
      split
      · next hm =>
        by_contra hne
        obtain ⟨s', e1, e2⟩ := hc l hl _ hne
        have hlt := List.idxOf_lt_length_of_mem hm
        rw [List.getElem?_eq_getElem hlt, List.getElem_idxOf hlt] at e1
        cases e1
        exact absurd e2 (not_le.2 hts)
      · rfl
    have hzm : z ∈ cliqueChains (ZMod E.p) adj ((range N).filter fun v => s ∈ E.G 0 v deg) (n + 2) := by
      refine Submodule.sum_mem _ fun l hl => ?_
      have hl' := mem_range.1 hl
      by_cases h0 : E.valAt (n + 1) deg l s (c l) = 0
      · rw [h0, zero_smul]; exact Submodule.zero_mem _
      have hsm : s ∈ E.G (n + 1) l deg := by
        by_contra hn'; unfold SSEnv.valAt at h0; rw [if_neg hn'] at h0; exact h0 rfl
      refine Submodule.smul_mem _ _ (Finsupp.single_mem_supported _ _ ?_)
      have hl2 : l < (S (n + 1)).length := by omega
      rw [List_getD_eq_getElem _ _ hl2]
      obtain ⟨g1, g2, g3⟩ := (H.mem (n + 1) (by omega) _).1 (List.getElem_mem hl2)
      refine ⟨g1, fun v hv => Finset.mem_filter.2 ⟨g2 v hv, ?_⟩, g3⟩
      exact (H.piece (n + 1) hn l _ (List.getElem?_eq_getElem hl2) deg hdeg s).1 hsm v hv
    have hzd : augBdry (ZMod E.p) z = 0 := by
      ext τ
      rw [Finsupp.zero_apply]
      unfold augBdry
      rw [linComb_sum (S (n + 1)) (H.nodup (n + 1) (by omega)) (u := z) ?_, ← hs1]
      swap
      · intro σ hσ
        refine (H.mem (n + 1) (by omega) σ).2 ?_
        have := (Finsupp.mem_supported _ _).1 hzm (Finsupp.mem_support_iff.2 hσ)
        exact ⟨this.1, fun v hv => (Finset.mem_filter.1 (this.2.1 v hv)).1, this.2.2⟩
      by_cases hτ : τ ∈ S n
      swap
      · refine Finset.sum_eq_zero fun l hl => ?_
        have hl2 : l < (S (n + 1)).length := by have := mem_range.1 hl; omega
        by_contra hne
        refine hτ ((H.mem n (by omega) τ).2 (augSum_face (K := ZMod E.p) (m := n + 1)
          ((H.mem (n + 1) (by omega) _).1 (getD_mem' (x := []) hl2)) fun h0 => hne ?_))
        rw [h0, mul_zero]
      obtain ⟨k, hk, rfl⟩ := List.getElem_of_mem hτ
      have hkE : k < E.spx n := by omega
      have e1 : ∑ l ∈ range (E.spx (n + 1)), z ((S (n + 1)).getD l []) *
          augSum (ZMod E.p) ((S (n + 1)).getD l []) (S n)[k] =
          ε * ∑ l ∈ range (E.spx (n + 1)), D.z E.p k l * E.valAt (n + 1) deg l s (c l) := by
        rw [Finset.mul_sum]
        refine Finset.sum_congr rfl fun l hl => ?_
        have hl' := mem_range.1 hl
        have hl2 : l < (S (n + 1)).length := by omega
        rw [hzl l hl', hDz k l _ _ (List.getElem?_eq_getElem hk) (List.getElem?_eq_getElem hl2),
          List_getD_eq_getElem _ _ hl2, ← mul_assoc, ← mul_assoc, hε, one_mul, mul_comm]
      rw [e1]
      by_cases hsk : s ∈ E.G n k deg
      · have hlt := List.idxOf_lt_length_of_mem hsk
        have := congrFun (hz k hkE) ((E.G n k deg).idxOf s)
        rw [cechSum_valAt D c (s := s) (by rw [List.getElem?_eq_getElem hlt, List.getElem_idxOf hlt])] at this
        have e2 := congrArg (fun x => (-1 : ZMod E.p) ^ deg * x) this
        simp only [Pi.zero_apply, mul_zero] at e2
        rw [← mul_assoc, sign_deg, one_mul] at e2
        rw [e2, mul_zero]
      · rw [Finset.sum_eq_zero, mul_zero]
        intro l hl
        have hl' := mem_range.1 hl
        by_cases hsl : s ∈ E.G (n + 1) l deg
        · have : D.get k l = 0 := by
            by_contra hne
            exact hsk (h.G_sub hD hn hkE hl' hne hdeg hsl)
          unfold Mat.z
          rw [this]; simp
        · unfold SSEnv.valAt; rw [if_neg hsl, mul_zero]
    obtain ⟨u, hu1, hu2⟩ := H.acyc deg hdeg s (n + 1) z hzm hzd
    exact ⟨u, hu1, fun h => absurd h hts, fun l hl => by rw [hu2, hzl l hl]⟩
  choose u hu1 hu2 hu3 using key
  refine ⟨fun m i => match (E.G (n + 2) m deg)[i]? with
    | some s => (-1) ^ deg * ε' * u s ((S (n + 2)).getD m [])
    | none => 0, fun m hm i hi => ?_, fun l hl => ?_⟩
  · beta_reduce at hi
    cases hs : (E.G (n + 2) m deg)[i]? with
    | none => rw [hs] at hi; exact absurd rfl hi
    | some s =>
      refine ⟨s, rfl, ?_⟩
      by_contra hlt
      rw [hs] at hi
      dsimp only at hi
      rw [hu2 s (not_le.1 hlt), Finsupp.zero_apply, mul_zero] at hi
      exact hi rfl
  · funext i
    cases hs : (E.G (n + 1) l deg)[i]? with
    | none =>
      rw [cechSum_of_le]
      · by_contra hne
        obtain ⟨s, e1, -⟩ := hc l hl i hne
        rw [hs] at e1; cases e1
      · exact List.getElem?_eq_none_iff.1 hs
    | some s =>
      obtain ⟨hi, hie⟩ := List.getElem?_eq_some_iff.1 hs
      have hnd := h.G_nodup hn hl deg
      have hsm : s ∈ E.G (n + 1) l deg := List.mem_of_getElem? hs
      have e1 : E.valAt (n + 1) deg l s (c l) = c l i := by
        unfold SSEnv.valAt
        rw [if_pos hsm, ← hie, List.Nodup.idxOf_getElem hnd]
      have hl2 : l < (S (n + 1)).length := by omega
      rw [cechSum_valAt _ _ hs, ← e1, ← hu3 s l hl]
      unfold augBdry
      rw [linComb_sum (S (n + 2)) (H.nodup (n + 2) (by omega)) (u := u s), hs2, Finset.mul_sum]
      · refine Finset.sum_congr rfl fun m hm => ?_
        have hm' := mem_range.1 hm
        have hmE : m < E.spx (n + 2) := by omega
        have hcol : n + 2 < E.columns.length := by
          by_contra hcc
          have := H.last
          rw [show E.columns.length = n + 2 by omega] at this
          omega
        rw [hDz' l m _ _ (List.getElem?_eq_getElem hl2) (List.getElem?_eq_getElem hm'),
          List_getD_eq_getElem _ _ hl2, List_getD_eq_getElem _ _ hm']
        unfold SSEnv.valAt
        split
        · next hsmm =>
          have hlt := List.idxOf_lt_length_of_mem hsmm
          beta_reduce
          have e3 : (E.G (n + 2) m deg)[(E.G (n + 1 + 1) m deg).idxOf s]? = some s := by
            rw [show n + 2 = n + 1 + 1 from rfl, List.getElem?_eq_getElem hlt, List.getElem_idxOf hlt]
          rw [e3]
          dsimp only
          have e2 := sign_deg E.p deg
          linear_combination (-(u s (S (n + 2))[m]) * augSum (ZMod E.p) (S (n + 2))[m] (S (n + 1))[l]) *
            (ε' * ε' * e2 + hε')
        · next hsmm =>
          have : u s (S (n + 2))[m] = 0 := by
            by_contra hne
            refine hsmm ((H.piece (n + 2) hcol m _ (List.getElem?_eq_getElem hm') deg hdeg s).2 fun v hv => ?_)
            have := (Finsupp.mem_supported _ _).1 (hu1 s) (Finsupp.mem_support_iff.2 hne)
            exact (Finset.mem_filter.1 (this.2.1 v hv)).2
          rw [this, zero_mul, mul_zero, mul_zero]
      · intro σ hσ
        have := (Finsupp.mem_supported _ _).1 (hu1 s) (Finsupp.mem_support_iff.2 hσ)
        exact (H.mem (n + 2) (by omega) σ).2
          ⟨this.1, fun v hv => (Finset.mem_filter.1 (this.2.1 v hv)).1, this.2.2⟩

end

end Permaviss
