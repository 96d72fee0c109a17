import Verif.Lemmas.LocalRanks

/-!
# Exchanging two neighbouring points

The points `i` and `i + 1` of a cloud are exchanged.  On increasing lists of vertices this sends a simplex with
both points to its opposite and renames the vertices of the others.
-/

namespace Permaviss

open Finset

attribute [-instance] instMulZeroClassOfSemiring

noncomputable section

variable {K : Type} [Field K]

/-- The image of a simplex when `i` and `i + 1` are exchanged. -/
def swapImage (K : Type) [Field K] (i : ℕ) (s : List ℕ) : List ℕ →₀ K :=
  if i ∈ s ∧ i + 1 ∈ s then - Finsupp.single s 1 else Finsupp.single (s.map (Equiv.swap i (i + 1))) 1

def swapChain (K : Type) [Field K] (i : ℕ) : (List ℕ →₀ K) →ₗ[K] (List ℕ →₀ K) :=
  Finsupp.linearCombination K (swapImage K i)

theorem swapChain_single (i : ℕ) (s : List ℕ) (c : K) :
    swapChain K i (Finsupp.single s c) = c • swapImage K i s := by
  unfold swapChain; rw [Finsupp.linearCombination_single]

theorem swapChain_swapChain (i : ℕ) (x : List ℕ →₀ K) : swapChain K i (swapChain K i x) = x := by
  have : (swapChain K i).comp (swapChain K i) = LinearMap.id := by
    apply Finsupp.lhom_ext'
    intro s
    apply LinearMap.ext_ring
    rw [LinearMap.comp_apply, LinearMap.comp_apply, Finsupp.lsingle_apply, swapChain_single, one_smul]
    unfold swapImage
    split_ifs with h
    · rw [map_neg, swapChain_single, one_smul]
      unfold swapImage
      rw [if_pos h, neg_neg]; rfl
    · rw [swapChain_single, one_smul]
      unfold swapImage
      rw [if_neg, List.map_map]
      · have : (⇑(Equiv.swap i (i + 1)) ∘ ⇑(Equiv.swap i (i + 1))) = id := by
          funext v; simp
        rw [this, List.map_id]; rfl
      · rintro ⟨h1, h2⟩
        rw [List.mem_map] at h1 h2
        obtain ⟨u, hu, e1⟩ := h1
        obtain ⟨v, hv, e2⟩ := h2
        rw [Equiv.swap_apply_eq_iff, Equiv.swap_apply_left] at e1
        rw [Equiv.swap_apply_eq_iff, Equiv.swap_apply_right] at e2
        subst e1; subst e2
        exact h ⟨hv, hu⟩
  exact LinearMap.congr_fun this x

def swapEquiv (K : Type) [Field K] (i : ℕ) : (List ℕ →₀ K) ≃ₗ[K] (List ℕ →₀ K) :=
  LinearEquiv.ofLinear (swapChain K i) (swapChain K i) (LinearMap.ext (swapChain_swapChain i))
    (LinearMap.ext (swapChain_swapChain i))

/-- An increasing list with both points. -/
theorem split_both {i : ℕ} {s : List ℕ} (hs : s.Pairwise (· < ·)) (h1 : i ∈ s) (h2 : i + 1 ∈ s) :
    ∃ a b, s = a ++ i :: (i + 1) :: b ∧ i ∉ a ∧ i + 1 ∉ a ∧ i ∉ b ∧ i + 1 ∉ b := by
  obtain ⟨a, c, rfl⟩ := List.append_of_mem h1
  rw [List.pairwise_append, List.pairwise_cons] at hs
  obtain ⟨hsa, ⟨hic, hsc⟩, hac⟩ := hs
  have ha1 : i ∉ a := fun h => lt_irrefl _ (hac i h i (by simp))
  have ha2 : i + 1 ∉ a := fun h => by have := hac _ h i (by simp); omega
  have h2' : i + 1 ∈ c := by
    rcases List.mem_append.1 h2 with h | h
    · exact absurd h ha2
    · rcases List.mem_cons.1 h with h | h
      · omega
      · exact h
  cases c with
  | nil => simp at h2'
  | cons x b =>
    have hx : x = i + 1 := by
      have := hic x (by simp)
      rcases List.mem_cons.1 h2' with h | h
      · exact h.symm
      · have := (List.pairwise_cons.1 hsc).1 _ h; omega
    subst hx
    refine ⟨a, b, rfl, ha1, ha2, fun h => ?_, fun h => ?_⟩
    · have := hic i (by simp [h]); omega
    · exact lt_irrefl _ ((List.pairwise_cons.1 hsc).1 _ h)

theorem eraseIdx_map {β γ : Type} (f : β → γ) (s : List β) (k : ℕ) :
    (s.map f).eraseIdx k = (s.eraseIdx k).map f := by
  induction s generalizing k with
  | nil => rfl
  | cons x s ih =>
    cases k with
    | zero => rfl
    | succ k => simp [ih]

/-- The exchange commutes with the boundary of a simplex. -/
theorem swap_faceSum (i : ℕ) {s : List ℕ} (hs : s.Pairwise (· < ·)) :
    swapChain K i (faceSum K s) = simplicialBdry K (swapImage K i s) := by
  have hb : ∀ u : List ℕ, simplicialBdry K (Finsupp.single u 1) = faceSum K u := fun u => by
    unfold simplicialBdry; rw [Finsupp.linearCombination_single, one_smul]
  by_cases hc : i ∈ s ∧ i + 1 ∈ s
  · obtain ⟨a, b, rfl, ha1, ha2, hb1, hb2⟩ := split_both hs hc.1 hc.2
    have himg : swapImage K i (a ++ i :: (i + 1) :: b) = - Finsupp.single (a ++ i :: (i + 1) :: b) 1 := by
      unfold swapImage; rw [if_pos hc]
    rw [himg, map_neg, hb]
    unfold faceSum
    rw [if_neg (by simp; omega)]
    rw [eq_neg_iff_add_eq_zero, map_sum, ← Finset.sum_add_distrib]
    have hap : ∀ v ∈ a, Equiv.swap i (i + 1) v = v := fun v hv =>
      Equiv.swap_apply_of_ne_of_ne (fun h => ha1 (h ▸ hv)) (fun h => ha2 (h ▸ hv))
    have hbp : ∀ v ∈ b, Equiv.swap i (i + 1) v = v := fun v hv =>
      Equiv.swap_apply_of_ne_of_ne (fun h => hb1 (h ▸ hv)) (fun h => hb2 (h ▸ hv))
    have hma : a.map (Equiv.swap i (i + 1)) = a := by
      conv_rhs => rw [← List.map_id a]
      exact List.map_congr_left hap
    have hmb : b.map (Equiv.swap i (i + 1)) = b := by
      conv_rhs => rw [← List.map_id b]
      exact List.map_congr_left hbp
    have f0 : (a ++ i :: (i + 1) :: b).eraseIdx a.length = a ++ (i + 1) :: b := by
      rw [List.eraseIdx_append_of_length_le le_rfl, Nat.sub_self]; rfl
    have f1 : (a ++ i :: (i + 1) :: b).eraseIdx (a.length + 1) = a ++ i :: b := by
      rw [List.eraseIdx_append_of_length_le (by omega), Nat.add_sub_cancel_left]; rfl
    have g0 : swapChain K i (Finsupp.single (a ++ (i + 1) :: b) 1) = Finsupp.single (a ++ i :: b) 1 := by
      rw [swapChain_single, one_smul]
      unfold swapImage
      rw [if_neg, List.map_append, List.map_cons, hma, hmb, Equiv.swap_apply_right]
      rintro ⟨h, -⟩
      simp [ha1, hb1] at h
    have g1 : swapChain K i (Finsupp.single (a ++ i :: b) 1) = Finsupp.single (a ++ (i + 1) :: b) 1 := by
      rw [swapChain_single, one_smul]
      unfold swapImage
      rw [if_neg, List.map_append, List.map_cons, hma, hmb, Equiv.swap_apply_left]
      rintro ⟨-, h⟩
      simp [ha2, hb2] at h
    rw [Finset.sum_eq_add (a.length) (a.length + 1) (by omega)]
    · rw [f0, f1, map_smul, map_smul, g0, g1, pow_succ]
      module
    · intro k hk hne
      rw [map_smul, ← smul_add, swapChain_single, one_smul]
      unfold swapImage
      rw [if_pos, neg_add_cancel, smul_zero]
      rcases Nat.lt_or_ge k a.length with h | h
      · rw [List.eraseIdx_append_of_lt_length h]
        simp
      · rw [List.eraseIdx_append_of_length_le h]
        obtain ⟨j, hj⟩ : ∃ j, k - a.length = j + 2 := ⟨k - a.length - 2, by omega⟩
        rw [hj]
        simp
    · intro h; exact absurd (mem_range.2 (by simp)) h
    · intro h; exact absurd (mem_range.2 (by simp)) h
  · have himg : swapImage K i s = Finsupp.single (s.map (Equiv.swap i (i + 1))) 1 := by
      unfold swapImage; rw [if_neg hc]
    rw [himg, hb]
    unfold faceSum
    rw [List.length_map]
    split_ifs with hl
    · exact map_zero _
    · rw [map_sum]
      refine Finset.sum_congr rfl fun k _ => ?_
      rw [map_smul, swapChain_single, one_smul]
      unfold swapImage
      rw [if_neg, eraseIdx_map]
      rintro ⟨h1, h2⟩
      exact hc ⟨List.mem_of_mem_eraseIdx h1, List.mem_of_mem_eraseIdx h2⟩

variable {α : Type} [LinearOrder α]

/-- The image of a simplex consists of simplices for the exchanged distances. -/
theorem swapImage_mem {i n e : ℕ} {t : α} {dist dist' : ℕ → ℕ → α} (hi : i + 1 < n)
    (hsym : ∀ u < n, ∀ v < n, dist u v = dist v u)
    (hd : ∀ u < n, ∀ v < n, dist' (Equiv.swap i (i + 1) u) (Equiv.swap i (i + 1) v) = dist u v)
    {s : List ℕ} (hs : VRSimplex dist n e t s) : swapImage K i s ∈ vrChains K dist' n e t := by
  obtain ⟨h1, h2, h3⟩ := hs
  have hinc : s.Pairwise (· < ·) := h3.imp fun h => h.1
  have hpair : ∀ u ∈ s, ∀ v ∈ s, u ≠ v → dist v u ≤ t := by
    intro u hu v hv huv
    rcases lt_or_gt_of_ne huv with h | h
    · exact ((pairwise_iff_forall_lt hinc).1 h3 u hu v hv h).2
    · rw [hsym v (h2 v hv) u (h2 u hu)]
      exact ((pairwise_iff_forall_lt hinc).1 h3 v hv u hu h).2
  have hswap : ∀ v < n, Equiv.swap i (i + 1) v < n := by
    intro v hv
    rw [Equiv.swap_apply_def]
    split_ifs <;> omega
  unfold swapImage
  split_ifs with hc
  · refine Submodule.neg_mem _ (Finsupp.single_mem_supported _ _ ⟨h1, h2, ?_⟩)
    refine (pairwise_iff_forall_lt hinc).2 fun u hu v hv huv => ⟨huv, ?_⟩
    have hm : ∀ w ∈ s, Equiv.swap i (i + 1) w ∈ s := by
      intro w hw
      rw [Equiv.swap_apply_def]
      split_ifs
      · exact hc.2
      · exact hc.1
      · exact hw
    have := hd _ (h2 _ (hm v hv)) _ (h2 _ (hm u hu))
    rw [Equiv.swap_apply_self, Equiv.swap_apply_self] at this
    rw [this]
    exact hpair _ (hm u hu) _ (hm v hv) fun h => by
      have := (Equiv.swap i (i + 1)).injective h
      omega
  · refine Finsupp.single_mem_supported _ _ ⟨by rw [List.length_map, h1], ?_, ?_⟩
    · intro v hv
      obtain ⟨u, hu, rfl⟩ := List.mem_map.1 hv
      exact hswap u (h2 u hu)
    · rw [List.pairwise_map]
      refine (pairwise_iff_forall_lt hinc).2 fun u hu v hv huv => ⟨?_, ?_⟩
      · rw [Equiv.swap_apply_def, Equiv.swap_apply_def]
        split_ifs with a1 a2 a3 a4 a5 a6
        all_goals first
          | omega
          | (exfalso; apply hc; constructor <;> (first | (subst_vars; assumption)))
          | skip
        all_goals (exfalso; apply hc; subst_vars; exact ⟨hu, hv⟩)
      · rw [hd v (h2 v hv) u (h2 u hu)]
        exact hpair u hu v hv (by omega)

theorem swap_chains {i n : ℕ} (e : ℕ) {t : α} {dist dist' : ℕ → ℕ → α} (hi : i + 1 < n)
    (hsym : ∀ u < n, ∀ v < n, dist u v = dist v u)
    (hd : ∀ u < n, ∀ v < n, dist' (Equiv.swap i (i + 1) u) (Equiv.swap i (i + 1) v) = dist u v) :
    (vrChains K dist n e t).map (swapEquiv K i).toLinearMap ≤ vrChains K dist' n e t := by
  unfold vrChains
  rw [Finsupp.supported_eq_span_single, Submodule.map_span_le]
  rintro x ⟨s, hs, rfl⟩
  change swapChain K i (Finsupp.single s 1) ∈ _
  rw [swapChain_single, one_smul]
  exact swapImage_mem hi hsym hd hs

theorem swap_bdry {i n e : ℕ} {t : α} {dist : ℕ → ℕ → α} {x : List ℕ →₀ K}
    (hx : x ∈ vrChains K dist n e t) :
    swapChain K i (simplicialBdry K x) = simplicialBdry K (swapChain K i x) := by
  unfold vrChains at hx
  rw [Finsupp.supported_eq_span_single] at hx
  induction hx using Submodule.span_induction with
  | mem x h =>
    obtain ⟨s, hs, rfl⟩ := h
    have : simplicialBdry K (Finsupp.single s 1) = faceSum K s := by
      unfold simplicialBdry; rw [Finsupp.linearCombination_single, one_smul]
    rw [swapChain_single, one_smul]
    dsimp only
    rw [this]
    exact swap_faceSum i (hs.2.2.imp fun h => h.1)
  | zero => simp
  | add x y _ _ h1 h2 => rw [map_add, map_add, map_add, map_add, h1, h2]
  | smul c x _ h => rw [map_smul, map_smul, map_smul, map_smul, h]

/-- Exchanging two neighbouring points keeps the ranks. -/
theorem rank_swap {p : ℕ} (hp : p.Prime) {i n : ℕ} (e : ℕ) {s t : α} (hst : s ≤ t) {dist dist' : ℕ → ℕ → α}
    (hi : i + 1 < n) (hsym : ∀ u < n, ∀ v < n, dist u v = dist v u)
    (hd : ∀ u < n, ∀ v < n, dist' (Equiv.swap i (i + 1) u) (Equiv.swap i (i + 1) v) = dist u v) :
    Module.finrank (ZMod p) (LinearMap.range (vrMap (ZMod p) dist' n e hst)) =
      Module.finrank (ZMod p) (LinearMap.range (vrMap (ZMod p) dist n e hst)) := by
  have := Fact.mk hp
  have hswap : ∀ v < n, Equiv.swap i (i + 1) v < n := by
    intro v hv
    rw [Equiv.swap_apply_def]
    split_ifs <;> omega
  have hd' : ∀ u < n, ∀ v < n, dist (Equiv.swap i (i + 1) u) (Equiv.swap i (i + 1) v) = dist' u v := by
    intro u hu v hv
    rw [← hd _ (hswap u hu) _ (hswap v hv), Equiv.swap_apply_self, Equiv.swap_apply_self]
  have hsym' : ∀ u < n, ∀ v < n, dist' u v = dist' v u := by
    intro u hu v hv
    rw [← hd' u hu v hv, ← hd' v hv u hu, hsym _ (hswap u hu) _ (hswap v hv)]
  have hch : ∀ e t, (vrChains (ZMod p) dist n e t).map (swapEquiv (ZMod p) i).toLinearMap =
      vrChains (ZMod p) dist' n e t := by
    intro e t
    apply le_antisymm (swap_chains e hi hsym hd)
    intro x hx
    refine ⟨swapChain (ZMod p) i x, swap_chains e hi hsym' hd' ⟨x, hx, rfl⟩, swapChain_swapChain i x⟩
  rw [finrank_vrMap hp, finrank_vrMap hp]
  refine finrank_mkQ_equiv (swapEquiv (ZMod p) i) ?_ ?_
  · unfold vrCycles
    ext x
    constructor
    · rintro ⟨y, ⟨hy, hy0⟩, rfl⟩
      refine ⟨hch e s ▸ ⟨y, hy, rfl⟩, ?_⟩
      have hy0 : simplicialBdry (ZMod p) y = 0 := hy0
      change simplicialBdry (ZMod p) (swapChain (ZMod p) i y) = 0
      rw [← swap_bdry hy, hy0, map_zero]
    · rintro ⟨hx, hx0⟩
      have hx0 : simplicialBdry (ZMod p) x = 0 := hx0
      refine ⟨swapChain (ZMod p) i x, ⟨?_, ?_⟩, swapChain_swapChain i x⟩
      · exact swap_chains e hi hsym' hd' ⟨x, hx, rfl⟩
      · change simplicialBdry (ZMod p) (swapChain (ZMod p) i x) = 0
        rw [← swap_bdry hx, hx0, map_zero]
  · unfold vrBoundaries
    rw [← hch (e + 1) t]
    ext x
    constructor
    · rintro ⟨y, ⟨z, hz, rfl⟩, rfl⟩
      exact ⟨swapChain (ZMod p) i z, ⟨z, hz, rfl⟩, (swap_bdry hz).symm⟩
    · rintro ⟨y, ⟨z, hz, rfl⟩, rfl⟩
      exact ⟨simplicialBdry (ZMod p) z, ⟨z, hz, rfl⟩, swap_bdry hz⟩

end

end Permaviss
