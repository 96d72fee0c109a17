import Verif.Lemmas.NerveRows
import Verif.Lemmas.StripChains
import Verif.Props.Components

/-!
# The rows of the Čech complex are exact (C74)
-/

namespace Permaviss

open Finset

attribute [-instance] instMulZeroClassOfSemiring

section

variable {α : Type} [LinearOrder α] [Zero α] {rnd : α → α} {E : SSEnv α} {ρ : List ℕ → α}

/-- The local chains with given coordinates. -/
def SSEnv.chainsOf (E : SSEnv α) (n deg m : ℕ) (q : ℕ → ℕ → ℕ → ℤ) : LChains :=
  (List.range (E.spx n)).map fun l => ⟨List.range m, (List.range m).map fun g =>
    (List.range (E.G n l deg).length).map fun i => q l g i⟩

theorem chainsOf_get {n deg m : ℕ} {q : ℕ → ℕ → ℕ → ℤ} {l : ℕ} (hl : l < E.spx n) :
    (E.chainsOf n deg m q).getD l LEntry.empty = ⟨List.range m, (List.range m).map fun g =>
      (List.range (E.G n l deg).length).map fun i => q l g i⟩ := by
  unfold SSEnv.chainsOf
  rw [List_getD_eq_getElem _ _ (by simpa using hl), List.getElem_map, List.getElem_range]

theorem chainsOf_val {n deg m : ℕ} {q : ℕ → ℕ → ℕ → ℤ} {l g i : ℕ} (hl : l < E.spx n) (hg : g < m)
    (hi : i < (E.G n l deg).length) : (E.chainsOf n deg m q).val l g i = q l g i := by
  unfold LChains.val
  rw [chainsOf_get hl]
  unfold LEntry.val
  rw [LEntry.row_eq (by simpa using hg)]
  unfold rowOf
  rw [show (List.range m).idxOf g = g by
    have := List.Nodup.idxOf_getElem (List.nodup_range (n := m)) g (by simpa using hg)
    rwa [List.getElem_range] at this]
  dsimp only
  rw [List_getD_eq_getElem ((List.range m).map _) _ (by simpa using hg), List.getElem_map, List.getElem_range,
    List_getD_eq_getElem _ _ (by simpa using hi), List.getElem_map, List.getElem_range]

theorem chainsOf_wf {n deg m : ℕ} {q : ℕ → ℕ → ℕ → ℤ} :
    (E.chainsOf n deg m q).WF (E.widths n deg) := by
  refine LChains.WF.of (by simp [SSEnv.chainsOf, SSEnv.widths]) fun k hk => ?_
  rw [widths_length] at hk
  rw [chainsOf_get hk, widths_getD E hk]
  refine ⟨List.pairwise_lt_range, by simp, ?_⟩
  intro r hr
  obtain ⟨g, -, rfl⟩ := List.mem_map.1 hr
  simp

/-- Local chains for a family of coordinates. -/
theorem exists_chain (h : SSOK rnd E ρ) {n deg m : ℕ} {t : α} {q : ℕ → ℕ → ℕ → ZMod E.p}
    (hq : ∀ g < m, ∀ l < E.spx n, E.PresentAt ρ n l deg (q g l) t) :
    ChainIs E n deg m (fun l g => q g l) (E.chainsOf n deg m fun l g i => (q g l i).val) := by
  have : NeZero E.p := ⟨h.prime.ne_zero⟩
  refine ⟨chainsOf_wf, ?_, ?_⟩
  · intro e he g hg
    obtain ⟨l, -, rfl⟩ := List.mem_map.1 he
    simpa using hg
  · intro l hl g hg
    funext i
    by_cases hi : i < (E.G n l deg).length
    · rw [chainsOf_val hl hg hi]
      simp
    · rw [LChains.val_of_wf chainsOf_wf (by rw [widths_length]; exact hl) (by rw [widths_getD E hl]; omega)]
      by_contra hne
      obtain ⟨s, hs, -⟩ := hq g hg l hl i (by simpa using Ne.symm hne)
      exact hi (List.getElem?_eq_some_iff.1 hs).1

/-- The number of expressions of local chains. -/
theorem exists_bound (C : LChains) : ∃ m, ∀ e ∈ C, ∀ g ∈ e.ref, g < m := by
  refine ⟨((C.map fun e => e.ref).flatten.foldr max 0) + 1, fun e he g hg => ?_⟩
  have hmem : g ∈ (C.map fun e => e.ref).flatten :=
    List.mem_flatten.2 ⟨e.ref, List.mem_map.2 ⟨e, he, rfl⟩, hg⟩
  generalize (C.map fun e => e.ref).flatten = l at hmem
  induction l with
  | nil => simp at hmem
  | cons a l ih =>
    rw [List.foldr_cons]
    rcases List.mem_cons.1 hmem with rfl | hm
    · omega
    · have := ih hm; omega

theorem chain_self (C : LChains) {n deg m : ℕ} (hC : C.WF (E.widths n deg))
    (hm : ∀ e ∈ C, ∀ g ∈ e.ref, g < m) :
    ChainIs E n deg m (fun k g j => (C.val k g j : ZMod E.p)) C := ⟨hC, hm, fun _ _ _ _ => rfl⟩

theorem val_big {C : LChains} {m : ℕ} (hm : ∀ e ∈ C, ∀ g ∈ e.ref, g < m) {k g j : ℕ} (hg : m ≤ g) :
    C.val k g j = 0 := by
  unfold LChains.val
  by_cases hk : k < C.length
  · rw [List_getD_eq_getElem _ _ hk]
    refine LEntry.val_neg (fun hc => ?_) j
    have := hm _ (List.getElem_mem hk) g hc
    omega
  · rw [List.getD_eq_getElem?_getD, List.getElem?_eq_none (by omega)]
    exact LEntry.val_neg (e := LEntry.empty) (by simp [LEntry.empty]) j

theorem coef_big {C : LChains} {m : ℕ} (hm : ∀ e ∈ C, ∀ g ∈ e.ref, g < m) {n deg k g : ℕ} (hg : m ≤ g)
    (s : List ℕ) : E.coef n deg C k g s = 0 := by
  unfold SSEnv.coef
  split
  · rw [val_big hm hg]; simp
  · rfl

/-- Chains whose coefficients are on simplices present at `t`. -/
theorem present_of_coef (h : SSOK rnd E ρ) {n deg : ℕ} (hn : n < E.columns.length) {C : LChains}
    (hC : C.WF (E.widths n deg)) {t : α} {g k : ℕ} (hk : k < E.spx n)
    (ht : ∀ s, E.coef n deg C k g s ≠ 0 → ρ s ≤ t) :
    E.PresentAt ρ n k deg (fun j => (C.val k g j : ZMod E.p)) t := by
  intro i hi
  beta_reduce at hi
  have hil : i < (E.G n k deg).length := by
    by_contra hc
    rw [LChains.val_of_wf hC (by rw [widths_length]; exact hk) (by rw [widths_getD E hk]; omega)] at hi
    simp at hi
  refine ⟨_, List.getElem?_eq_getElem hil, ht _ ?_⟩
  rw [coef_of_get (h.G_nodup hn hk deg) C g hil]
  exact hi

theorem coef_of_val {n deg k g : ℕ} {C : LChains} {f : ℕ → ZMod E.p}
    (hf : (fun j => (C.val k g j : ZMod E.p)) = f) (s : List ℕ) : E.coef n deg C k g s = E.valAt n deg k s f := by
  subst hf
  rfl

theorem coef_present (h : SSOK rnd E ρ) {n deg k g : ℕ} (hn : n < E.columns.length) (hk : k < E.spx n)
    {C : LChains} {f : ℕ → ZMod E.p} {t : α}
    (hf : (fun j => (C.val k g j : ZMod E.p)) = f) (hp : E.PresentAt ρ n k deg f t) {s : List ℕ}
    (hs : E.coef n deg C k g s ≠ 0) : ρ s ≤ t := by
  rw [coef_of_val hf] at hs
  unfold SSEnv.valAt at hs
  split at hs
  · next hm =>
    obtain ⟨s', h1, h2⟩ := hp _ hs
    rw [List.getElem?_eq_getElem (List.idxOf_lt_length_of_mem hm), List.getElem_idxOf, Option.some.injEq] at h1
    rwa [h1]
  · exact absurd rfl hs

/-- Chains with zero coefficients have zero coordinates. -/
theorem zero_of_coef (h : SSOK rnd E ρ) {n deg k g : ℕ} (hn : n < E.columns.length) (hk : k < E.spx n)
    {C : LChains} (hC : C.WF (E.widths n deg)) (h0 : ∀ s, E.coef n deg C k g s = 0) :
    (fun j => (C.val k g j : ZMod E.p)) = 0 := by
  funext i
  by_cases hil : i < (E.G n k deg).length
  · have := h0 (E.G n k deg)[i]
    rw [coef_of_get (h.G_nodup hn hk deg) C g hil] at this
    exact this
  · rw [LChains.val_of_wf hC (by rw [widths_length]; exact hk) (by rw [widths_getD E hk]; omega)]
    simp

end

section

variable {K : Type} [Field K] [LinearOrder K] [FloorRing K] [IsStrictOrderedRing K]
  {pdist : List (List K) → List (List K)} {d : List K → List K → K} {argsort : List K → List Nat}
  {rnd : K → K} {maxR : K} {maxDim maxDiv dim : ℕ} {overlap : K} {cloud : List (List K)} {p : ℕ}
  {lo hi : ℕ → K} {side : K} {E : SSEnv K}

/-- **C74**, on the intersections.  On every cover, for any overlap, chains `C` on the pieces of a column
`n + 1 ≥ 1` whose `cech_diff` is zero are, mod `p`, the `cech_diff` of chains on the next column; when the
simplices used by `C` are present at radius `t`, so are those used by the new chains.  If there is no next
column, or it has no pieces, then `C` itself is zero. -/
theorem C74_cech_exact (h : MVInput pdist d argsort maxR maxDiv dim cloud p lo hi side)
    (hw : ∀ i < dim, lo i < hi i)
    (hE : createEnv pdist argsort rnd maxR maxDim maxDiv overlap dim cloud p = .ok E) (n deg : ℕ)
    (hn : n + 1 < 2 ^ dim) (hdeg : deg ≤ maxDim) (hpos : 0 < E.spx (n + 1)) (C : LChains)
    (hC : C.WF (E.widths (n + 1) deg)) (t : K)
    (ht : ∀ l < E.spx (n + 1), ∀ g s, E.coef (n + 1) deg C l g s ≠ 0 →
      diam d (fun v => cloud.getD v []) s ≤ t)
    (h0 : ∀ C₀, cechDiff E n deg C = .ok C₀ → ∀ k < E.spx n, ∀ g s, E.coef n deg C₀ k g s = 0) :
    (0 < E.spx (n + 2) → ∃ C' C₁, C'.WF (E.widths (n + 2) deg) ∧
      (∀ l < E.spx (n + 2), ∀ g s, E.coef (n + 2) deg C' l g s ≠ 0 → diam d (fun v => cloud.getD v []) s ≤ t) ∧
      cechDiff E (n + 1) deg C' = .ok C₁ ∧
      ∀ k < E.spx (n + 1), ∀ g s, E.coef (n + 1) deg C₁ k g s = E.coef (n + 1) deg C k g s) ∧
    (E.spx (n + 2) = 0 → ∀ k < E.spx (n + 1), ∀ g s, E.coef (n + 1) deg C k g s = 0) := by
  obtain ⟨hS, h1, h2, h3, h7⟩ := h.env hE
  obtain ⟨N, S, adj, H⟩ := createEnv_nerveOK h.prime h.dist h.sort h.radius h.points h.dim_pos h.div_pos h.box
    h.side_pos hw hE
  obtain ⟨D, hD⟩ := hS.hasDiff n (by omega)
  obtain ⟨D', hD'⟩ := hS.hasDiff (n + 1) (by omega)
  obtain ⟨C₀, c1, c2, -⟩ := cechDiff_spec hS hD (by omega) hpos (by omega) hC
  obtain ⟨m, hm⟩ := exists_bound C
  have hCh := chain_self (E := E) C hC hm
  have hd := cechDiff_chain hS hD (by omega) hpos (by omega) hCh c1
  have hlen0 : n < E.columns.length := by omega
  have hex : ∀ g < m, ∃ q : ℕ → ℕ → ZMod E.p,
      (∀ l < E.spx (n + 2), E.PresentAt (diam d fun v => cloud.getD v []) (n + 2) l deg (q l) t) ∧
      ∀ l < E.spx (n + 1), (fun j => (C.val l g j : ZMod E.p)) = E.cechSum D' (n + 1) deg l q := by
    intro g hg
    refine cech_exact_succ hS H (by omega) (by omega) hD hD'
      (fun l hl => present_of_coef hS (by omega) hC hl (ht l hl g)) fun k hk => ?_
    rw [← hd.val k hk g hg]
    exact zero_of_coef hS hlen0 hk c2 (h0 C₀ c1 k hk g)
  constructor
  · intro hp2
    have hn2 : n + 2 < E.columns.length := by
      by_contra hc
      have hl := H.last
      rw [show E.columns.length = n + 2 by omega] at hl
      omega
    choose! q hq1 hq2 using hex
    have hch := exists_chain hS hq1
    obtain ⟨C₁, b1, b2, -⟩ := cechDiff_spec hS hD' hn2 hp2 (by omega) hch.wf
    have hd' := cechDiff_chain hS hD' hn2 hp2 (by omega) hch b1
    refine ⟨_, C₁, hch.wf, fun l hl g s hs => ?_, b1, fun k hk g s => ?_⟩
    · rcases Nat.lt_or_ge g m with hg | hg
      · exact coef_present hS hn2 hl (hch.val l hl g hg) (hq1 g hg l hl) hs
      · exact absurd (coef_big hch.refs hg s) hs
    · rcases Nat.lt_or_ge g m with hg | hg
      · rw [coef_of_val (hd'.val k hk g hg), ← hq2 g hg k hk]
        rfl
      · rw [coef_big hd'.refs hg s, coef_big hm hg s]
  · intro hp2 k hk g s
    rcases Nat.lt_or_ge g m with hg | hg
    · obtain ⟨q, -, hq⟩ := hex g hg
      rw [coef_of_val (hq k hk)]
      have : E.cechSum D' (n + 1) deg k q = 0 := by
        unfold SSEnv.cechSum
        rw [show E.spx (n + 1 + 1) = 0 from hp2, Finset.range_zero, Finset.sum_empty]
      rw [this]
      unfold SSEnv.valAt
      split <;> rfl
    · exact coef_big hm hg s

/-- **C74**, on the cubes.  When `overlap ≥ max_r` and distances bound the differences of coordinates: every
simplex of the Vietoris-Rips complex of the cloud is a simplex of some cube, and chains `C` on the cubes are,
mod `p`, the `cech_diff` of chains on the intersections of two cubes exactly when for every simplex the
coefficients on all cubes add up to zero; the radii are respected. -/
theorem C74_cech_exact_cubes (h : MVInput pdist d argsort maxR maxDiv dim cloud p lo hi side)
    (hw : ∀ i < dim, lo i < hi i) (ho : maxR ≤ overlap)
    (hcoord : ∀ a ∈ cloud, ∀ b ∈ cloud, ∀ i < dim, |a.getD i 0 - b.getD i 0| ≤ d a b)
    (hE : createEnv pdist argsort rnd maxR maxDim maxDiv overlap dim cloud p = .ok E) (deg : ℕ)
    (hdeg : deg ≤ maxDim) :
    (∀ s : List ℕ, s.length = deg + 1 → s.Pairwise (· < ·) → (∀ v ∈ s, v < cloud.length) →
      diam d (fun v => cloud.getD v []) s < maxR → ∃ k < E.spx 0, s ∈ E.G 0 k deg) ∧
    (0 < E.spx 1 → ∀ (C : LChains), C.WF (E.widths 0 deg) → ∀ t : K,
      (∀ k < E.spx 0, ∀ g s, E.coef 0 deg C k g s ≠ 0 → diam d (fun v => cloud.getD v []) s ≤ t) →
      ((∀ g s, ∑ k ∈ range (E.spx 0), E.coef 0 deg C k g s = 0) ↔
        ∃ C' C₁, C'.WF (E.widths 1 deg) ∧
          (∀ l < E.spx 1, ∀ g s, E.coef 1 deg C' l g s ≠ 0 → diam d (fun v => cloud.getD v []) s ≤ t) ∧
          cechDiff E 0 deg C' = .ok C₁ ∧
          ∀ k < E.spx 0, ∀ g s, E.coef 0 deg C₁ k g s = E.coef 0 deg C k g s)) := by
  obtain ⟨hS, h1, h2, h3, h7⟩ := h.env hE
  obtain ⟨D, hCov, -⟩ := h.coverOK hw ho hcoord hE
  have hD := hCov.diff
  have hcol := hCov.cols
  have hgl : ∀ (f : ℕ → ZMod E.p) (k : ℕ), k < E.spx 0 → ∀ s, E.gl 0 k deg f s = E.valAt 0 deg k s f := by
    intro f k hk s
    unfold SSEnv.valAt
    split
    · next hm =>
      have hlt := List.idxOf_lt_length_of_mem hm
      have := toChain_apply (p := E.p) (hS.G_nodup (by omega) hk deg) f hlt
      rwa [List_getD_eq_getElem _ _ hlt, List.getElem_idxOf] at this
    · next hm =>
      rw [gl_eq, Finsupp.finset_sum_apply]
      refine Finset.sum_eq_zero fun i hi => ?_
      rw [Finsupp.smul_apply, Finsupp.single_eq_of_ne, smul_zero]
      rintro rfl
      exact hm (getD_mem' (mem_range.1 hi))
  refine ⟨fun s hs1 hs2 hs3 hs4 => ?_, fun hp1 C hC t ht => ⟨fun hsum => ?_, ?_⟩⟩
  · obtain ⟨k, hk, hm⟩ := hCov.cover s (by omega) (by rintro rfl; simp at hs1) hs2 hs3 (by rw [h2]; exact hs4)
    rw [hs1] at hm
    exact ⟨k, hk, hm⟩
  · obtain ⟨m, hm⟩ := exists_bound C
    have hex : ∀ g < m, ∃ q : ℕ → ℕ → ZMod E.p,
        (∀ l < E.spx 1, E.PresentAt (diam d fun v => cloud.getD v []) 1 l deg (q l) t) ∧
        ∀ l < E.spx 0, (fun j => (C.val l g j : ZMod E.p)) = E.cechSum D 0 deg l q := by
      intro g hg
      refine cech_exact hS hCov (by omega) (c := fun l j => (C.val l g j : ZMod E.p))
        (fun l hl => present_of_coef hS (by omega) hC hl (ht l hl g)) ?_
      ext s
      rw [Finsupp.finset_sum_apply, Finsupp.zero_apply, ← hsum g s]
      refine Finset.sum_congr rfl fun k hk => ?_
      rw [hgl _ k (mem_range.1 hk)]
      rfl
    choose! q hq1 hq2 using hex
    have hch := exists_chain hS hq1
    obtain ⟨C₁, b1, b2, -⟩ := cechDiff_spec hS hD hcol hp1 (by omega) hch.wf
    have hd' := cechDiff_chain hS hD hcol hp1 (by omega) hch b1
    refine ⟨_, C₁, hch.wf, fun l hl g s hs => ?_, b1, fun k hk g s => ?_⟩
    · rcases Nat.lt_or_ge g m with hg | hg
      · exact coef_present hS hcol hl (hch.val l hl g hg) (hq1 g hg l hl) hs
      · exact absurd (coef_big hch.refs hg s) hs
    · rcases Nat.lt_or_ge g m with hg | hg
      · rw [coef_of_val (hd'.val k hk g hg), ← hq2 g hg k hk]
        rfl
      · rw [coef_big hd'.refs hg s, coef_big hm hg s]
  · rintro ⟨C', C₁, w1, -, w3, w4⟩ g s
    obtain ⟨m, hm⟩ := exists_bound C'
    have hd' := cechDiff_chain hS hD hcol hp1 (by omega) (chain_self (E := E) C' w1 hm) w3
    rw [Finset.sum_congr rfl fun k hk => (w4 k (mem_range.1 hk) g s).symm]
    rcases Nat.lt_or_ge g m with hg | hg
    · have hz := glSum_cech hS hCov (deg := deg) (by omega) fun l j => (C'.val l g j : ZMod E.p)
      rw [glSum_eq] at hz
      have := congrArg (fun f => f s) hz
      beta_reduce at this
      rw [Finsupp.finset_sum_apply, Finsupp.zero_apply] at this
      rw [← this]
      refine Finset.sum_congr rfl fun k hk => ?_
      rw [hgl _ k (mem_range.1 hk), coef_of_val (hd'.val k (mem_range.1 hk) g hg)]
    · exact Finset.sum_eq_zero fun k _ => coef_big hd'.refs hg s

end

/-- On the cover of `rectEnv` the chains `cech_diff` of `rectChain` are not zero, and their `cech_diff` is. -/
example : (rectEnv.bind fun E => (cechDiff E 1 0 rectChain).bind fun C₁ =>
    (cechDiff E 0 0 C₁).map fun C₂ => [anyRows (C₁.map fun e => e.coord.flatten),
      anyRows (C₂.map fun e => e.coord.flatten)]) = .ok [true, false] := by
  decide +kernel

/-- Chains on the cubes of `rectEnv` which add up to zero. -/
example : (rectEnv.bind fun E => (cechDiff E 0 0 [⟨[0], [[1, 0, 2, 0]]⟩, LEntry.empty, LEntry.empty,
    LEntry.empty, LEntry.empty, LEntry.empty])) =
    .ok [⟨[0], [[1, 0, 2, 0]]⟩, ⟨[0], [[4, 0, 3, 0]]⟩, ⟨[], []⟩, ⟨[], []⟩] := by
  decide +kernel

end Permaviss
